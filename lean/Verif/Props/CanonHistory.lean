import Verif.Props.CanonicalExact
import Verif.Props.ArithExact
import Verif.Props.Expr
import Verif.Props.Extend
import Verif.Props.Slice
import Verif.Props.Concat
import Verif.Props.Update
import Verif.Props.Assign
import Verif.Show

/-!
# Histories across widths (C16)

`C16_histories_partial` follows objects of one width. Here a history may build objects of any widths from each other: slices,
extensions, concatenations, updates, assignments and operators on different sizes, besides the arithmetic that stays in range.
-/

namespace Verif

variable {n m : Nat} {s t : Bool}

/-- Unsigned 2-state objects of all widths that a history makes: construction from a number in range, single bit writes,
`& | ^` on equal and on different sizes, shifts, `+ - *` without carry, borrow or overflow, `/` and `%`, constant and run-time slices,
extension, concatenation, updates of a slice and assignments of numbers in range; and anything at all at the widths without
spare storage bits. -/
inductive Hist2 : (n : Nat) → Bits n false → Prop
  | zero {n : Nat} : 0 < n → Hist2 n Bits.zero
  | int {n : Nat} (k : Int) : 0 < n → (n ≤ 64 → 0 ≤ k ∧ k < 2 ^ n) → Hist2 n (Bits.ofInt k)
  | full {n : Nat} (x : Bits n false) : 0 < n → Full n ∨ n % 64 = 0 → Hist2 n x
  | set {n : Nat} {x y : Bits n false} (i : Nat) (v : Bool) : Hist2 n x → i < n → n ≤ 2 ^ 32 →
      x.set (Rng.down n) i v = .ok y → Hist2 n y
  | and {n : Nat} {x y : Bits n false} : Hist2 n x → Hist2 n y → Hist2 n (x.and y)
  | or {n : Nat} {x y : Bits n false} : Hist2 n x → Hist2 n y → Hist2 n (x.or y)
  | xor {n : Nat} {x y : Bits n false} : Hist2 n x → Hist2 n y → Hist2 n (x.xor y)
  | andMix {n m : Nat} {x : Bits n false} {y : Bits m false} {z : Bits (max n m) false} : Hist2 n x → Hist2 m y →
      x.andMix y = .ok z → Hist2 (max n m) z
  | orMix {n m : Nat} {x : Bits n false} {y : Bits m false} {z : Bits (max n m) false} : Hist2 n x → Hist2 m y →
      x.orMix y = .ok z → Hist2 (max n m) z
  | xorMix {n m : Nat} {x : Bits n false} {y : Bits m false} {z : Bits (max n m) false} : Hist2 n x → Hist2 m y →
      x.xorMix y = .ok z → Hist2 (max n m) z
  | shr {n m : Nat} {x : Bits n false} {y : Bits m false} {z : Bits n false} : Hist2 n x → Hist2 m y → n ≤ 2 ^ 32 →
      (n ≤ 64 → m ≤ 64 ∧ y.bv.toNat < n) → x.shr y = .ok z → Hist2 n z
  | shl {n m : Nat} {x : Bits n false} {y : Bits m false} {z : Bits n false} : Hist2 n x → Hist2 m y → 1 < n → n ≤ 2 ^ 32 →
      (n ≤ 64 → m ≤ 64 ∧ y.bv.toNat < 32 ∧ x.bv.toNat * 2 ^ y.bv.toNat < 2 ^ n) → x.shl y = .ok z → Hist2 n z
  | add {n : Nat} {x y z : Bits n false} : Hist2 n x → Hist2 n y → 1 < n → x.bv.toNat + y.bv.toNat < 2 ^ n →
      x.add y = .ok z → Hist2 n z
  | sub {n : Nat} {x y z : Bits n false} : Hist2 n x → Hist2 n y → 1 < n → y.bv.toNat ≤ x.bv.toNat →
      x.sub y = .ok z → Hist2 n z
  | mul {n : Nat} {x y z : Bits n false} : Hist2 n x → Hist2 n y → 1 < n → x.bv.toNat * y.bv.toNat < 2 ^ n →
      x.mul y = .ok z → Hist2 n z
  | div {n : Nat} {x y z : Bits n false} : Hist2 n x → Hist2 n y → n ≤ 2 ^ 32 → x.div y = .ok z → Hist2 n z
  | mod {n : Nat} {x y z : Bits n false} : Hist2 n x → Hist2 n y → n ≤ 2 ^ 32 → x.mod y = .ok z → Hist2 n z
  | slice {n : Nat} {x : Bits n false} (a b : Nat) {z : Bits (max a b - min a b + 1) false} : Hist2 n x → a < n → b < n →
      x.slice (Rng.down n) a b = .ok z → Hist2 _ z
  | sliceRt {n k : Nat} {x : Bits n false} (a b : Nat) {z : Bits k false} : Hist2 n x → 1 < n → n ≤ 2 ^ 32 → a < n → b < n →
      max a b - min a b + 1 = k → x.sliceRt (Rng.down n) k a b = .ok z → Hist2 k z
  | extend {n m : Nat} {x : Bits n false} : Hist2 n x → n ≤ m → Hist2 m (x.extend m)
  | concat {n m : Nat} {x : Bits n false} {y : Bits m false} {z : Bits (n + m) false} (h : n + m < 64) : Hist2 n x → Hist2 m y →
      (n + m ≤ 32 ∨ 32 < n) → x.concat y h = .ok z → Hist2 (n + m) z
  | updateRt {n m : Nat} {x z : Bits n false} {y : Bits m false} (a b : Nat) : Hist2 n x → Hist2 m y → a < n → b < n →
      n ≤ 2 ^ 31 → m ≤ 2 ^ 31 → (max a b - min a b < m ∨ 64 < m) → x.updateRt (Rng.down n) a b (Rng.down m) y = .ok z → Hist2 n z
  | assign {n m : Nat} {x : Bits n false} (hm : m ≤ 64) : Hist2 n x → n ≤ 64 → 1 < m → x.bv.toNat < 2 ^ m →
      Hist2 m (x.assignNat hm)

theorem Bits.clean_or_of {x y : Bits n false} (hx : x.Clean) (hy : y.Clean) : (x.or y).Clean := by
  rw [Bits.clean_unsigned_iff] at *
  intro i hi
  have := Bits.raw_or x y i
  rw [hx i hi, hy i hi] at this
  exact this

theorem Bits.clean_xor_of {x y : Bits n false} (hx : x.Clean) (hy : y.Clean) : (x.xor y).Clean := by
  rw [Bits.clean_unsigned_iff] at *
  intro i hi
  have := Bits.raw_xor x y i
  rw [hx i hi, hy i hi] at this
  exact this

theorem Bits.clean_ofInt_range (hn : 0 < n) (k : Int) (hk : n ≤ 64 → 0 ≤ k ∧ k < 2 ^ n) : (Bits.ofInt k : Bits n false).Clean := by
  by_cases h : n ≤ 64
  · obtain ⟨h0, h2⟩ := hk h
    obtain ⟨j, rfl⟩ := Int.eq_ofNat_of_zero_le h0
    have hj : j < 2 ^ n := by exact_mod_cast h2
    have := (Bits.ofInt_native h (BitVec.ofNat n j)).1
    rwa [BitVec.toNat_ofNat, Nat.mod_eq_of_lt hj] at this
  · rw [Bits.clean_sto, Bits.sto_big h]
    have e : (Bits.ofInt k : Bits n false).bg h = Big.ofU64 (BitVec.ofInt 64 k) := by
      rw [Bits.ofInt, dif_neg h]; rfl
    rw [e, Big.val_ofU64 hn]
    exact lt_of_lt_of_le (BitVec.isLt _) (Nat.pow_le_pow_right (by decide) (by omega))

/-- **C16 for wide `*`, exactly, for all signednesses.** If the product of two canonical values is defined, it is canonical if and only if the number that the
code computes (the product of the lowest 64 bits if both pass `fit_in_64()`, the product otherwise, `C30_wide_exact`) is below `2^n`. -/
theorem C16_mul_wide_iff (h : 64 < n) (x : Bits n s) (y : Bits n t) (hx : x.Clean) (hy : y.Clean) (z : Bits n (s && t))
    (hz : x.mul y = .ok z) :
    (LowOnly x.bv ∧ LowOnly y.bv → (z.Clean ↔ (x.bv.toNat % 2 ^ 64) * (y.bv.toNat % 2 ^ 64) < 2 ^ n)) ∧
    (¬ (LowOnly x.bv ∧ LowOnly y.bv) → (z.Clean ↔ x.bv.toNat * y.bv.toNat < 2 ^ n)) := by
  have hb : ¬ n ≤ 64 := by omega
  have oob := ((C30_wide_exact h x y hx hy).2)
  rw [Bits.clean_big hb, Big.Clean]
  rw [Bits.clean_big hb] at hx hy
  have bx := Bits.bv_big hb x
  have bY := Bits.bv_big hb y
  have hmul : x.mul y = ((x.bg hb).mul (y.bg hb)).map (.big hb ·) := by rw [Bits.mul, dif_neg hb]
  have fx : (x.bg hb).fitIn64 = true ↔ LowOnly x.bv := by rw [bx]; exact Big.fitIn64_iff hx
  have fy : (y.bg hb).fitIn64 = true ↔ LowOnly y.bv := by rw [bY]; exact Big.fitIn64_iff hy
  have vx : x.bv.toNat = val (x.bg hb).vals := by rw [bx, hx.toNat_bv]
  have vy : y.bv.toNat = val (y.bg hb).vals := by rw [bY, hy.toNat_bv]
  constructor <;> intro hf
  · obtain ⟨w, hw, e⟩ := Big.mul_fast h _ _ (fx.2 hf.1) (fy.2 hf.2)
    rw [hmul, hw] at hz
    have hz' : (Bits.big hb w : Bits n (s && t)) = z := Except.ok.inj hz
    rw [← hz', show (Bits.big hb w : Bits n (s && t)).bg hb = w from rfl, e, vx, vy, Big.limb_zero_mod, Big.limb_zero_mod]
  · have hno := mt (oob hf).1 (by rw [hz]; exact fun h => by cases h)
    rw [Big.mul_eq _ _ (by rw [fx, fy]; exact hf)] at hmul
    obtain ⟨w, hw, e⟩ := Big.mulSlow_spec h (x.bg hb) (y.bg hb) (by
      intro i j hi hj
      obtain ⟨a, ha, hxa⟩ := (Bits.limb_ne_zero hx i).1 hi
      obtain ⟨b, hb', hyb⟩ := (Bits.limb_ne_zero hy j).1 hj
      by_contra hc
      have := le_limbs n
      have := limbs_lt n
      exact hno ⟨64 * i + a, 64 * j + b, by rw [bx]; exact hxa, by rw [bY]; exact hyb, by
        rw [show (64 * i + a) / 64 = i by omega, show (64 * j + b) / 64 = j by omega]; omega⟩)
    rw [hmul, hw] at hz
    have hz' : (Bits.big hb w : Bits n (s && t)) = z := Except.ok.inj hz
    rw [← hz', show (Bits.big hb w : Bits n (s && t)).bg hb = w from rfl, e, ← vx, ← vy, Nat.mod_eq_of_lt]
    rcases Nat.eq_zero_or_pos x.bv.toNat with h0 | hxp
    · rw [h0]; simp
    rcases Nat.eq_zero_or_pos y.bv.toNat with h0 | hyp
    · rw [h0]; simp
    have t1 : x.bv.getLsbD x.bv.toNat.log2 = true := by
      rw [← BitVec.testBit_toNat]; exact Nat.testBit_log2 (by omega)
    have t2 : y.bv.getLsbD y.bv.toNat.log2 = true := by
      rw [← BitVec.testBit_toNat]; exact Nat.testBit_log2 (by omega)
    have l1 := Nat.lt_log2_self (n := x.bv.toNat)
    have l2 := Nat.lt_log2_self (n := y.bv.toNat)
    generalize x.bv.toNat.log2 = i at *
    generalize y.bv.toNat.log2 = j at *
    have hij : ¬ n ≤ 64 * (i / 64 + j / 64 + 1) := fun hc => hno ⟨i, j, t1, t2, hc⟩
    have := le_limbs n
    calc x.bv.toNat * y.bv.toNat < 2 ^ (i + 1) * 2 ^ (j + 1) := Nat.mul_lt_mul'' l1 l2
      _ = 2 ^ (i + 1 + (j + 1)) := by rw [← Nat.pow_add]
      _ ≤ 2 ^ (64 * limbs n) := Nat.pow_le_pow_right (by decide) (by omega)

-- 2^40 * 2^35 at 70 bits reads 0 at every index but is not equal to 0; 2^40 * 3 is canonical
example : ((Bits.ofInt (2 ^ 40) : Bits 70 false).mul (Bits.ofInt (2 ^ 35) : Bits 70 false)).map
      (fun z => (z.bv.toNat, z.eq (Bits.zero : Bits 70 false))) = .ok (0, false) ∧
    ((Bits.ofInt (2 ^ 40) : Bits 70 false).mul (Bits.ofInt 3 : Bits 70 false)).map
      (fun z => (z.bv.toNat, z.eq (Bits.ofInt (3 * 2 ^ 40) : Bits 70 false))) = .ok (3 * 2 ^ 40, true) := by decide +kernel

theorem Hist2.ok : ∀ {n : Nat} {x : Bits n false}, Hist2 n x → 0 < n ∧ x.Clean := by
  intro n x h
  induction h with
  | zero hn => exact ⟨hn, Bits.clean_zero⟩
  | int k h1 hk => exact ⟨h1, Bits.clean_ofInt_range h1 k hk⟩
  | full x hn hf => exact ⟨hn, (C16_full_widths hn hf x x).1⟩
  | @set n x y i v _ hi hN he ih =>
    obtain ⟨hn, ih⟩ := ih
    refine ⟨hn, ?_⟩
    have hlo : (Rng.down n).lo = 0 := by simp [Rng.down, Rng.lo]; omega
    have hp : Bits.physIdx (Rng.down n) i = i := by
      have : (Rng.down n).bigEndian = true := by simp [Rng.bigEndian, Rng.down]; omega
      rw [Bits.physIdx, this]; rfl
    obtain ⟨z, hz, hr⟩ := Bits.set_phys (Rng.down n) x i i (by rw [hp, hlo]; omega) hi hN v
    rw [he] at hz
    injection hz with hz
    subst hz
    rw [Bits.clean_unsigned_iff] at ih ⊢
    intro j hj
    rw [hr, if_neg (by omega)]; exact ih j hj
  | and _ _ ihx ihy => exact ⟨ihx.1, Bits.clean_and_of ihx.1 _ _ (.inl ihx.2)⟩
  | or _ _ ihx ihy => exact ⟨ihx.1, Bits.clean_or_of ihx.2 ihy.2⟩
  | xor _ _ ihx ihy => exact ⟨ihx.1, Bits.clean_xor_of ihx.2 ihy.2⟩
  | @andMix n m x y z _ _ he ihx ihy =>
    refine ⟨by have := ihx.1; omega, ?_⟩
    obtain ⟨⟨w, hw, h1⟩, -⟩ := C87_mixed_partial ihx.1 ihy.1 x y ihx.2 ihy.2 (fun _ => rfl) (fun _ => rfl)
    rw [he] at hw; injection hw with hw; subst hw
    exact (Bits.clean_unsigned_iff _).2 fun i hi => by rw [h1, decide_eq_false (by omega)]; rfl
  | @orMix n m x y z _ _ he ihx ihy =>
    refine ⟨by have := ihx.1; omega, ?_⟩
    obtain ⟨-, ⟨w, hw, h1⟩, -⟩ := C87_mixed_partial ihx.1 ihy.1 x y ihx.2 ihy.2 (fun _ => rfl) (fun _ => rfl)
    rw [he] at hw; injection hw with hw; subst hw
    exact (Bits.clean_unsigned_iff _).2 fun i hi => by rw [h1, decide_eq_false (by omega)]; rfl
  | @xorMix n m x y z _ _ he ihx ihy =>
    refine ⟨by have := ihx.1; omega, ?_⟩
    obtain ⟨-, -, ⟨w, hw, h1⟩⟩ := C87_mixed_partial ihx.1 ihy.1 x y ihx.2 ihy.2 (fun _ => rfl) (fun _ => rfl)
    rw [he] at hw; injection hw with hw; subst hw
    exact (Bits.clean_unsigned_iff _).2 fun i hi => by rw [h1, decide_eq_false (by omega)]; rfl
  | @shr n m x y z _ _ hN hr he ih ihy =>
    refine ⟨ih.1, ?_⟩
    have hk : numOf false y.bv = (y.bv.toNat : Nat) := by simp [numOf]
    by_cases h : n ≤ 64
    · obtain ⟨hm, hk2⟩ := hr h
      obtain ⟨w, hw, hraw⟩ := Bits.shr_native h ih.1 hm x y (Bits.amount_native hm ihy.2 hk) hk2
      rw [he] at hw
      injection hw with hw
      subst hw
      rw [Bits.clean_unsigned_iff]
      intro i hi
      rw [hraw]
      simp; omega
    · obtain ⟨w, hw, hc, _⟩ := Bits.shr_wide h hN x ihy.2 hk
      rw [he] at hw
      injection hw with hw
      subst hw
      exact hc
  | @shl n m x y z _ _ h1 hN hr he ih ihy =>
    refine ⟨ih.1, ?_⟩
    obtain ⟨w, hw, hc⟩ := C16_shl_iff h1 hN x y ih.2 ihy.2 _ rfl
      (fun h => ⟨(hr h).1, lt_of_lt_of_le (hr h).2.1 (by split <;> decide)⟩)
    rw [he] at hw
    injection hw with hw
    subst hw
    refine hc.2 ?_
    by_cases h : n ≤ 64
    · exact .inr (lt_of_le_of_lt (Nat.mod_le _ _) (hr h).2.2)
    · exact .inl (by omega)
  | @add n x y z _ _ h1 hs he ihx ihy =>
    obtain ⟨w, hw, hc⟩ := C16_add_iff h1 x y ihx.2 ihy.2
    rw [he] at hw; injection hw with hw; subst hw
    exact ⟨ihx.1, hc.2 (.inr hs)⟩
  | @sub n x y z _ _ h1 hs he ihx ihy =>
    obtain ⟨w, hw, hc⟩ := C16_sub_iff h1 x y ihx.2 ihy.2
    rw [he] at hw; injection hw with hw; subst hw
    exact ⟨ihx.1, hc.2 (.inr hs)⟩
  | @mul n x y z _ _ h1 hp he ihx ihy =>
    refine ⟨ihx.1, ?_⟩
    by_cases h : n ≤ 64
    swap
    · have key := C16_mul_wide_iff (by omega) x y ihx.2 ihy.2 z he
      by_cases hf : LowOnly x.bv ∧ LowOnly y.bv
      · exact (key.1 hf).2 (lt_of_le_of_lt (Nat.mul_le_mul (Nat.mod_le _ _) (Nat.mod_le _ _)) hp)
      · exact (key.2 hf).2 hp
    have := C16_expr_iff h h1 (.mul (.var 0) (.var 1)) (fun i => if i = 0 then x else y)
      (by intro i; split; exacts [ihx.2, ihy.2]) z he
    rw [this]
    have hW : 2 ^ n ≤ 2 ^ (if n ≤ 8 then 8 else if n ≤ 16 then 16 else if n ≤ 32 then 32 else 64) :=
      Nat.pow_le_pow_right (by decide) (by split_ifs <;> omega)
    generalize (if n ≤ 8 then 8 else if n ≤ 16 then 16 else if n ≤ 32 then 32 else 64) = W at hW
    simp only [AE.den, if_pos, if_neg (show ¬ (1 : Nat) = 0 by decide), BitVec.toNat_mul, BitVec.toNat_setWidth]
    rw [Nat.mod_eq_of_lt (lt_of_lt_of_le x.bv.isLt hW), Nat.mod_eq_of_lt (lt_of_lt_of_le y.bv.isLt hW)]
    exact lt_of_le_of_lt (Nat.mod_le _ _) hp
  | @div n x y z _ _ hN he ihx ihy =>
    refine ⟨ihx.1, ?_⟩
    by_cases h : n ≤ 64
    · by_cases h0 : y.bv = 0
      · have := Bits.div_native_zero h x y ihy.2 h0
        rw [this.1] at he; cases he
      · obtain ⟨⟨q, hq, hc, _⟩, _⟩ := Bits.div_native h ihx.1 ihx.2 ihy.2 h0
        rw [he] at hq; injection hq with hq; subst hq; exact hc
    · obtain ⟨q, r, hq, hr, c1, c2, -⟩ := C31_wide_exact (by omega) hN x y ihx.2 ihy.2
      rw [he] at hq; injection hq with hq; subst hq; exact c1
  | @mod n x y z _ _ hN he ihx ihy =>
    refine ⟨ihx.1, ?_⟩
    by_cases h : n ≤ 64
    · by_cases h0 : y.bv = 0
      · have := Bits.div_native_zero h x y ihy.2 h0
        rw [this.2] at he; cases he
      · obtain ⟨_, ⟨q, hq, hc, _⟩⟩ := Bits.div_native h ihx.1 ihx.2 ihy.2 h0
        rw [he] at hq; injection hq with hq; subst hq; exact hc
    · obtain ⟨q, r, hq, hr, c1, c2, -⟩ := C31_wide_exact (by omega) hN x y ihx.2 ihy.2
      rw [he] at hr; injection hr with hr; subst hr; exact c2
  | @slice n x a b z _ ha hb he ih =>
    refine ⟨by omega, ?_⟩
    by_cases h65 : max a b - min a b = 64
    · rw [C49_65_bits _ x a b (by omega) h65] at he; cases he
    · obtain ⟨w, hw, hc, -⟩ := C49_slice x a b ha hb h65
      rw [he] at hw; injection hw with hw; subst hw; exact hc
  | @sliceRt n k x a b z _ h1 hN ha hb hk he ih =>
    refine ⟨by omega, ?_⟩
    obtain ⟨w, hw, -, hc⟩ := C51_slice_partial h1 hN x k a b ha hb hk
    rw [he] at hw; injection hw with hw; subst hw
    exact hc.resolve_right fun h => by cases h.1
  | @extend n m x _ h ih => exact ⟨by have := ih.1; omega, (C47_zero_extend_partial ih.1 h x ih.2).1⟩
  | @concat n m x y z h _ _ hW he ihx ihy =>
    refine ⟨by have := ihx.1; omega, ?_⟩
    obtain ⟨w, hw, hc, -⟩ := C52_concat_partial ihx.1 ihy.1 h hW x y ihx.2 ihy.2
    rw [he] at hw; injection hw with hw; subst hw; exact hc
  | @updateRt n m x z y a b _ _ ha hb hN hM hk he ihx ihy =>
    refine ⟨ihx.1, ?_⟩
    obtain ⟨w, hw, -, hc⟩ := C57_update_rt_partial ihx.1 ihy.1 hN hM x y a b ha hb hk
    rw [he] at hw; injection hw with hw; subst hw; exact hc rfl ihx.2
  | @assign n m x hm _ hn h1 hlt ih =>
    refine ⟨by omega, ?_⟩
    refine ((C93_assign_partial (t := false) hn hm h1 x ih.2).2 ?_).1
    simp only [numOf, Bool.false_and, Bool.false_eq_true, if_false, BitVec.ofInt_natCast, BitVec.toNat_ofNat]
    rw [Nat.mod_eq_of_lt hlt]

/-- **C16 for histories across widths, partial.** Every object of a history over any widths is canonical, so two objects that
read the same at every index are the same object and compare equal. Missing: `~`, sums that carry, differences that
borrow, products, left shifts and assignments that leave the width; when they are canonical is `C16_not_iff`,
`C16_add_iff`, `C16_sub_iff`, `C16_expr_iff`, `C16_mul_wide_iff`, `C16_shl_iff` and `C93_clean_iff`, that they need not be `C16_refuted_all`. -/
theorem C16_across_widths_partial (hN : n ≤ 2 ^ 32) {x y : Bits n false} (hx : Hist2 n x) (hy : Hist2 n y) :
    x.Clean ∧ ((∀ i, i < n → x.get (Rng.down n) i = y.get (Rng.down n) i) → x = y ∧ x.eq y = true) := by
  have hn := hx.ok.1
  refine ⟨hx.ok.2, fun h => ?_⟩
  have hb : x.bv = y.bv := by
    apply BitVec.eq_of_getLsbD_eq
    intro i hi
    have := h i hi
    rw [C01_read hn hN x i hi, C01_read hn hN y i hi] at this
    injection this
  refine ⟨hx.ok.2.ext hy.ok.2 hb, ?_⟩
  rw [Bits.eq_clean hn (by simp) hx.ok.2 hy.ok.2]
  simp [hb]

-- a history over three widths: 5 at four bits, joined with 2 at three bits, extended to 100 bits
example : ∃ z : Bits 7 false, Hist2 7 z ∧ z.bv = 42#7 ∧ Hist2 100 (z.extend 100) := by
  have h4 : Hist2 4 (Bits.ofInt 5) := .int 5 (by decide) (fun _ => by decide)
  have h3 : Hist2 3 (Bits.ofInt 2) := .int 2 (by decide) (fun _ => by decide)
  have e : ∃ z, (Bits.ofInt 5 : Bits 4 false).concat (Bits.ofInt 2 : Bits 3 false) (by decide) = .ok z ∧ z.bv = 42#7 := by
    refine ⟨_, rfl, ?_⟩
    decide +kernel
  obtain ⟨z, hz, hv⟩ := e
  have := Hist2.concat (by decide) h4 h3 (.inl (by decide)) hz
  exact ⟨z, this, hv, .extend this (by decide)⟩

end Verif
