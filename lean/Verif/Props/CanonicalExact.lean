import Verif.Props.Laws
import Verif.Props.Canonical
import Verif.Props.ShiftExact
import Verif.Show

/-!
# Which results are canonical (C16), exactly

For unsigned vectors of every width above one: the results of `&`, `|`, `^` and `>>` of canonical
operands are canonical; those of `+`, `-`, `~` and `<<` are, outside the widths without spare storage bits,
exactly when nothing is carried, borrowed or shifted out.
-/

namespace Verif

variable {n m : Nat} {s t : Bool}

/-- the number in the whole storage of an object, the bits above the width included -/
def Bits.sto : Bits n false → Nat
  | .nat _ r => r.toNat
  | .big _ b => val b.vals

/-- the number of storage bits -/
def stoW (n : Nat) : Nat := if n ≤ 64 then hw n else 64 * limbs n

theorem Bits.sto_native (h : n ≤ 64) (x : Bits n false) : x.sto = x.hold.toNat := by
  cases x with
  | nat _ _ => rfl
  | big h' _ => exact absurd h h'

theorem Bits.sto_big (h : ¬ n ≤ 64) (x : Bits n false) : x.sto = val (x.bg h).vals := by
  cases x with
  | nat h' _ => exact absurd h' h
  | big _ _ => rfl

theorem Bits.sto_lt (x : Bits n false) : x.sto < 2 ^ stoW n := by
  by_cases h : n ≤ 64
  · rw [sto_native h, stoW, if_pos h]; exact x.hold.isLt
  · rw [sto_big h, stoW, if_neg h]; exact Big.val_lt' _

theorem Bits.clean_sto (x : Bits n false) : x.Clean ↔ x.sto < 2 ^ n := by
  by_cases h : n ≤ 64
  · have : x.bv.toNat = x.hold.toNat % 2 ^ n := by
      cases x with
      | nat _ r => exact BitVec.toNat_setWidth _ _
      | big h' _ => exact absurd h h'
    rw [clean_native h, sto_native h, nv_v h]
    simp only [numOf, Bool.false_and, Bool.false_eq_true, if_false, this]
    constructor
    · intro e
      rw [Int.ofNat_inj.1 e]
      exact Nat.mod_lt _ (by positivity)
    · intro e
      rw [Nat.mod_eq_of_lt e]
  · rw [clean_big h, sto_big h]; rfl

theorem Bits.sto_clean {x : Bits n false} (hx : x.Clean) : x.sto = x.bv.toNat := by
  by_cases h : n ≤ 64
  · have := (clean_native h x).1 hx
    rw [nv_v h] at this
    simp only [numOf, Bool.false_and, Bool.false_eq_true, if_false] at this
    rw [sto_native h]; exact_mod_cast this
  · rw [clean_big h] at hx
    rw [sto_big h, bv_big h, hx.toNat_bv]

/-- the widths without spare storage bits -/
theorem stoW_eq (h1 : 1 < n) : stoW n = n ↔ Full n ∨ 64 < n ∧ 64 ∣ n := by
  rw [stoW]
  by_cases h : n ≤ 64
  · rw [if_pos h, ← Bits.full_iff (by omega) h]
    constructor
    · exact .inl
    · rintro (h' | h')
      · exact h'
      · omega
  · rw [if_neg h, limbs]
    constructor
    · intro e; split_ifs at e <;> exact .inr ⟨by omega, by omega⟩
    · rintro (h' | h')
      · rcases h' with rfl | rfl | rfl | rfl | rfl <;> omega
      · split_ifs <;> omega

theorem le_stoW : n ≤ stoW n := by
  rw [stoW]; split_ifs with h
  · exact le_hw h
  · have := le_limbs n; omega

theorem Bits.sto_add (h1 : 1 < n) {x y z : Bits n false} (hz : x.add y = .ok z) : z.sto = (x.sto + y.sto) % 2 ^ stoW n := by
  by_cases h : n ≤ 64
  · rw [Bits.add, dif_pos h] at hz
    have := arith_hold h h1 x y (· + ·) (fun _ a b => a + b) (fun w a b => BitVec.ofInt_add a b) z hz
    rw [sto_native h, sto_native h, sto_native h, stoW, if_pos h, this, BitVec.toNat_add]
  · rw [Bits.add, dif_neg h] at hz
    obtain rfl := Except.ok.inj hz
    rw [sto_big h, sto_big h, sto_big h, stoW, if_neg h, ← Big.add_spec]; rfl

theorem Bits.sto_sub (h1 : 1 < n) {x y z : Bits n false} (hz : x.sub y = .ok z) : z.sto = (x.sto + (2 ^ stoW n - y.sto)) % 2 ^ stoW n := by
  by_cases h : n ≤ 64
  · rw [Bits.sub, dif_pos h] at hz
    have := arith_hold h h1 x y (· - ·) (fun _ a b => a - b) (fun w a b => ofInt_sub a b) z hz
    rw [sto_native h, sto_native h, sto_native h, stoW, if_pos h, this, BitVec.toNat_sub, Nat.add_comm]
  · rw [Bits.sub, dif_neg h] at hz
    obtain rfl := Except.ok.inj hz
    rw [sto_big h, sto_big h, sto_big h, stoW, if_neg h, ← Big.sub_spec (by omega)]; rfl

theorem Bits.sto_not (h1 : 1 < n) (x : Bits n false) : x.not.sto + x.sto + 1 = 2 ^ stoW n := by
  by_cases h : n ≤ 64
  · have e : x.not.hold = ~~~ x.hold :=
      hold_ext h fun i hi => by rw [raw_not_native h (by omega) x hi, BitVec.getLsbD_not, raw_native h]; simp [hi]
    have := x.hold.isLt
    rw [sto_native h, sto_native h, e, BitVec.toNat_not, stoW, if_pos h]
    omega
  · rw [sto_big h, sto_big h, stoW, if_neg h, ← Big.not_spec (x.bg h), Bits.not, dif_neg h]; rfl

/-- **C16 for `+`, exactly.** -/
theorem C16_add_iff (h1 : 1 < n) (x y : Bits n false) (hx : x.Clean) (hy : y.Clean) :
    ∃ z, x.add y = .ok z ∧ (z.Clean ↔ (Full n ∨ 64 < n ∧ 64 ∣ n) ∨ x.bv.toNat + y.bv.toNat < 2 ^ n) := by
  obtain ⟨z, hz, -⟩ := C28_add_partial h1 x y (by simp)
  refine ⟨z, hz, ?_⟩
  rw [Bits.clean_sto, Bits.sto_add h1 hz, Bits.sto_clean hx, Bits.sto_clean hy, ← stoW_eq h1]
  have hle := le_stoW (n := n)
  rcases Nat.eq_or_lt_of_le hle with e | e
  · rw [← e]; simp [Nat.mod_lt]
  · have h2 : 2 ^ (n + 1) ≤ 2 ^ stoW n := Nat.pow_le_pow_right (by decide) e
    have := x.bv.isLt
    have := y.bv.isLt
    rw [Nat.mod_eq_of_lt (by rw [pow_succ] at h2; omega)]
    constructor
    · exact .inr
    · rintro (h | h)
      · omega
      · exact h

/-- **C16 for `-`, exactly.** -/
theorem C16_sub_iff (h1 : 1 < n) (x y : Bits n false) (hx : x.Clean) (hy : y.Clean) :
    ∃ z, x.sub y = .ok z ∧ (z.Clean ↔ (Full n ∨ 64 < n ∧ 64 ∣ n) ∨ y.bv.toNat ≤ x.bv.toNat) := by
  obtain ⟨z, hz, -⟩ := C29_sub_partial (by omega) x y (by simp)
  refine ⟨z, hz, ?_⟩
  rw [Bits.clean_sto, Bits.sto_sub h1 hz, Bits.sto_clean hx, Bits.sto_clean hy, ← stoW_eq h1]
  have hle := le_stoW (n := n)
  rcases Nat.eq_or_lt_of_le hle with e | e
  · rw [← e]; simp [Nat.mod_lt]
  · have h2 : 2 ^ (n + 1) ≤ 2 ^ stoW n := Nat.pow_le_pow_right (by decide) e
    rw [pow_succ] at h2
    have hxl := x.bv.isLt
    have hyl := y.bv.isLt
    by_cases h : y.bv.toNat ≤ x.bv.toNat
    · rw [show x.bv.toNat + (2 ^ stoW n - y.bv.toNat) = x.bv.toNat - y.bv.toNat + 2 ^ stoW n by omega, Nat.add_mod_right,
        Nat.mod_eq_of_lt (by omega)]
      exact ⟨fun _ => .inr h, fun _ => by omega⟩
    · rw [Nat.mod_eq_of_lt (by omega)]
      constructor
      · intro; omega
      · rintro (h' | h')
        · omega
        · omega

/-- **C16 for `~`, exactly**: the complement is canonical only in the widths without spare storage bits, whatever the vector. -/
theorem C16_not_iff (h1 : 1 < n) (x : Bits n false) (hx : x.Clean) : x.not.Clean ↔ Full n ∨ 64 < n ∧ 64 ∣ n := by
  rw [Bits.clean_sto, ← stoW_eq h1]
  have := Bits.sto_not h1 x
  have hc := (Bits.clean_sto x).1 hx
  have hle := le_stoW (n := n)
  rcases Nat.eq_or_lt_of_le hle with e | e
  · rw [← e] at this ⊢; simp; omega
  · have h2 : 2 ^ (n + 1) ≤ 2 ^ stoW n := Nat.pow_le_pow_right (by decide) e
    rw [pow_succ] at h2
    constructor
    · intro; omega
    · intro; omega

theorem Bits.hold_shl_native (h : n ≤ 64) (h1 : 1 < n) (hm : m ≤ 64) (x : Bits n false) (y : Bits m t) {k : Nat}
    (hy : y.nv.v = k) (hk : k < max 32 (hw n)) :
    ∃ z, x.shl y = .ok z ∧ z.hold = x.hold <<< k := by
  have hk64 : k < 64 := by have := hw_le n; omega
  have hW : (holderTy n false).promote.width = max 32 (hw n) := by
    rw [promote_holder]; split_ifs <;> simp [CTy.width] <;> omega
  have hv := TV.shl_ok (x := x.nv) (c := y.nv.cast (holderTy n false)) (k := k)
    (by rw [TV.cast]; simp only [hy]; exact conv_amount h1 h (by omega)) (by rw [nv_ty, hW]; exact hk)
  refine ⟨mkN h _, by rw [shl, dif_pos h, if_pos hm, hv]; rfl, ?_⟩
  rw [hold_mkN h (by omega)]
  simp only [nv_ty]
  rw [ofInt_promote_conv n false (Or.inl (le_refl _)), promote_conv_nv h x, BitVec.ofInt_mul, Bits.ofInt_nv h x (le_refl _), BitVec.setWidth_eq,
    BitVec.shiftLeft_eq_mul_twoPow]
  congr 1
  rw [show ((2 : Int) ^ k) = ((2 ^ k : Nat) : Int) by push_cast; rfl, ofInt_natCast]
  apply BitVec.eq_of_toNat_eq
  rw [BitVec.toNat_twoPow, BitVec.toNat_ofNat]

/-- **C16 for `<<`, exactly.** Wide results are always canonical; a native one, shifted within the defined amounts, if and only if the
product with `2^k`, cut to the holder (8, 16, 32 or 64 bits), fits the width. -/
theorem C16_shl_iff (h1 : 1 < n) (hN : n ≤ 2 ^ 32) (x : Bits n false) (y : Bits m false) (hx : x.Clean) (hy : y.Clean) (k : Nat)
    (hk : y.bv.toNat = k) (hr : n ≤ 64 → m ≤ 64 ∧ k < if n ≤ 32 then 32 else 64) :
    ∃ z, x.shl y = .ok z ∧ (z.Clean ↔ 64 < n ∨
      x.bv.toNat * 2 ^ k % 2 ^ (if n ≤ 8 then 8 else if n ≤ 16 then 16 else if n ≤ 32 then 32 else 64) < 2 ^ n) := by
  have hk' : numOf false y.bv = k := by simp [numOf, hk]
  by_cases h : n ≤ 64
  · obtain ⟨hm, hkn⟩ := hr h
    have hmax : (if n ≤ 32 then 32 else 64) = max 32 (hw n) := by simp only [hw]; split_ifs <;> omega
    obtain ⟨z, hz, ez⟩ := Bits.hold_shl_native h h1 hm x y (Bits.amount_native hm hy hk') (by omega)
    refine ⟨z, hz, ?_⟩
    have e : hw n = (if n ≤ 8 then 8 else if n ≤ 16 then 16 else if n ≤ 32 then 32 else 64) := by
      simp only [hw]; split_ifs <;> omega
    refine (Bits.clean_sto z).trans ?_
    rw [Bits.sto_native h, ez, BitVec.toNat_shiftLeft, ← Bits.sto_native h, Bits.sto_clean hx, Nat.shiftLeft_eq, ← e]
    constructor
    · exact .inr
    · rintro (h' | h')
      · omega
      · exact h'
  · obtain ⟨z, hz, hc, -⟩ := Bits.shl_wide h hN x hy hk'
    exact ⟨z, hz, fun _ => .inl (by omega), fun _ => hc⟩

/-- **C16 for whole expressions** over `+ - * & | ^ ~`, native widths: the value is canonical if and only if the expression, computed
modulo the holder size, fits the width. -/
theorem C16_expr_iff (h : n ≤ 64) (h1 : 1 < n) (e : AE) (σ : Nat → Bits n false) (hσ : ∀ i, (σ i).Clean) (z : Bits n false)
    (hz : e.run σ = .ok z) :
    z.Clean ↔ (e.den fun i => (σ i).bv.setWidth (if n ≤ 8 then 8 else if n ≤ 16 then 16 else if n ≤ 32 then 32 else 64)).toNat < 2 ^ n := by
  have hh : hw n = (if n ≤ 8 then 8 else if n ≤ 16 then 16 else if n ≤ 32 then 32 else 64) := by
    simp only [hw]; split_ifs <;> omega
  rw [← hh, Bits.clean_sto, Bits.sto_native h, e.run_hold h h1 σ z hz]
  have : (fun i => (σ i).hold) = fun i => (σ i).bv.setWidth (hw n) := by
    funext i
    apply BitVec.eq_of_toNat_eq
    rw [← Bits.sto_native h, Bits.sto_clean (hσ i), BitVec.toNat_setWidth, Nat.mod_eq_of_lt]
    exact lt_of_lt_of_le (σ i).bv.isLt (Nat.pow_le_pow_right (by decide) (le_hw h))
  rw [this]

/-- **C16 is false at every other width**: `1 + (2^n - 1)` is not canonical, reads 0 and differs from 0, and no complement is canonical. -/
theorem C16_refuted_all (h1 : 1 < n) (hf : ¬ (Full n ∨ 64 < n ∧ 64 ∣ n)) (x y : Bits n false) (hx : x.Clean) (hy : y.Clean)
    (hxy : x.bv.toNat + y.bv.toNat = 2 ^ n) :
    (∃ z, x.add y = .ok z ∧ z.bv = 0 ∧ ¬ z.Clean ∧ z.eq (Bits.zero : Bits n false) = false) ∧ ¬ x.not.Clean := by
  obtain ⟨z, hz, hi⟩ := C16_add_iff h1 x y hx hy
  obtain ⟨z', hz', hb⟩ := C28_add_partial h1 x y (by simp)
  obtain rfl := Except.ok.inj (hz.symm.trans hz')
  have hc : ¬ Bits.Clean (n := n) (s := false) z := by
    intro h
    rcases hi.1 h with h | h
    · exact hf h
    · omega
  refine ⟨⟨z, hz, ?_, hc, ?_⟩, fun h => hf ((C16_not_iff h1 x hx).1 h)⟩
  · rw [hb]
    apply BitVec.eq_of_toNat_eq
    rw [BitVec.toNat_add, hxy]
    simp
  · rw [Bool.eq_false_iff]
    intro he
    apply hc
    by_cases h : n ≤ 64
    · rw [Bits.eq_native h h, decide_eq_true_iff] at he
      have e2 : (z : Bits n false) = Bits.zero := by
        rw [← Bits.mkN_nv h (z : Bits n false), ← Bits.mkN_nv h (Bits.zero : Bits n false)]
        apply Bits.ext_native h
        rw [Bits.hold_mkN h (by omega), Bits.hold_mkN h (by omega)]
        exact congrArg _ (he.trans (Bits.nv_conv h _))
      rw [e2]; exact Bits.clean_zero
    · rw [Bits.eq, dif_neg h, dif_neg h, Big.eq_same rfl, decide_eq_true_iff] at he
      rw [Bits.clean_sto, Bits.sto_big h, he, ← Bits.sto_big h, ← Bits.clean_sto]
      exact Bits.clean_zero

/-- 12-bit sums: `4000 + 95` is canonical, `4000 + 96` is not, although both are right in every bit. -/
example : (((Bits.ofInt 4000 : Bits 12 false).add (Bits.ofInt 95 : Bits 12 false)).map fun z : Bits 12 false => decide z.Clean) = .ok true ∧
    (((Bits.ofInt 4000 : Bits 12 false).add (Bits.ofInt 96 : Bits 12 false)).map fun z : Bits 12 false => decide z.Clean) = .ok false := by
  decide +kernel

end Verif
