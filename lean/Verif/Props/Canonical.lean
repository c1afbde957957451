import Verif.Props.Compare
import Verif.Props.Access
import Verif.Lemmas.OfBV

/-!
# Canonical form (C16)

`Clean` says that the storage holds nothing besides the declared bits. Two
canonical objects with the same bits are the same object, so they compare equal.
-/

namespace Verif

variable {n m : Nat} {s t : Bool}

/-- **C16 for the widths without spare storage bits** (1, 8, 16, 32, 64 and the
multiples of 64): every object whatsoever is canonical, so after any operations two
objects with equal bits are the same object. -/
theorem C16_full_widths (hn : 0 < n) (hf : Full n ∨ n % 64 = 0) (x y : Bits n s) :
    x.Clean ∧ (x.bv = y.bv → x = y) := by
  have key : ∀ x : Bits n s, x.Clean := by
    intro x
    by_cases h : n ≤ 64
    · have hw : hw n = n := by
        rw [← Bits.full_iff hn h]
        rcases hf with hf | hf
        · exact hf
        · have : n = 64 := by omega
          right; right; right; right; exact this
      rw [Bits.clean_native h, Bits.nv_v h, numOf]
      have e : x.bv = x.hold.setWidth n := Bits.bv_native h x
      have e1 : x.bv.toNat = x.hold.toNat := by
        rw [e, BitVec.toNat_setWidth, Nat.mod_eq_of_lt]
        exact lt_of_lt_of_le x.hold.isLt (Nat.pow_le_pow_right (by decide) (le_of_eq hw))
      by_cases hc : (s && !decide (n ≤ 1)) = true
      · rw [if_pos hc, if_pos hc, BitVec.toInt_eq_toNat_bmod, BitVec.toInt_eq_toNat_bmod, e1]
        exact congrArg (fun k : Nat => (x.hold.toNat : Int).bmod (2 ^ k)) hw
      · rw [if_neg hc, if_neg hc, e1]
    · rw [Bits.clean_big h, Big.clean_iff]
      intro i hi
      apply Big.raw_of_ge
      have : n % 64 = 0 := by
        rcases hf with hf | hf
        · rcases hf with h | h | h | h | h <;> omega
        · exact hf
      rw [limbs, if_pos this]
      omega
  exact ⟨key x, fun h => (key x).ext (key y) h⟩

/-- Objects of a history that uses, besides construction, only these operations:
bit writes, `& | ^`, `>>` with an in-range amount, wide `<<`, unsigned `/` and `%`
with a nonzero divisor. -/
inductive Reach2 (n : Nat) : Bits n false → Prop
  | zero : Reach2 n Bits.zero
  | set {x y : Bits n false} (i : Nat) (v : Bool) : Reach2 n x → i < n →
      x.set (Rng.down n) i v = .ok y → Reach2 n y
  | and {x y : Bits n false} : Reach2 n x → Reach2 n y → Reach2 n (x.and y)
  | or {x y : Bits n false} : Reach2 n x → Reach2 n y → Reach2 n (x.or y)
  | xor {x y : Bits n false} : Reach2 n x → Reach2 n y → Reach2 n (x.xor y)
  | shr {m : Nat} {x : Bits n false} {y : Bits m false} {z : Bits n false} : Reach2 n x → y.Clean →
      (n ≤ 64 → m ≤ 64 ∧ y.bv.toNat < n) → x.shr y = .ok z → Reach2 n z
  | shl {m : Nat} {x : Bits n false} {y : Bits m false} {z : Bits n false} : Reach2 n x → y.Clean →
      64 < n → x.shl y = .ok z → Reach2 n z
  | div {x y z : Bits n false} : Reach2 n x → Reach2 n y → y.bv ≠ 0 →
      (64 < n → LowHalves x.bv ∧ LowHalves y.bv) → x.div y = .ok z → Reach2 n z
  | mod {x y z : Bits n false} : Reach2 n x → Reach2 n y → y.bv ≠ 0 →
      (64 < n → LowHalves x.bv ∧ LowHalves y.bv) → x.mod y = .ok z → Reach2 n z

/-- **C16 for histories of the operations above, at every width**: every object is
canonical, and two objects that read the same at every index are equal (`==`) and
the same object. Missing: the operations that are not steps of `Reach2` because they leave bits
above the width; when they do is `C16_add_iff`, `C16_sub_iff`, `C16_not_iff`, `C16_shl_iff` and
`C16_expr_iff`. -/
theorem C16_histories_partial (hn : 0 < n) (hN : n ≤ 2 ^ 32) {x y : Bits n false} (hx : Reach2 n x)
    (hy : Reach2 n y) :
    x.Clean ∧ ((∀ i, i < n → x.get (Rng.down n) i = y.get (Rng.down n) i) → x = y ∧ x.eq y = true) := by
  have key : ∀ {x : Bits n false}, Reach2 n x → x.Clean := by
    intro x h
    induction h with
    | zero => exact Bits.clean_zero
    | @set x y i v _ hi he ih =>
      have hsz : (Rng.down n).size = n := by simp [Rng.down, Rng.size]; omega
      have hlo : (Rng.down n).lo = 0 := by simp [Rng.down, Rng.lo]; omega
      have hp : Bits.physIdx (Rng.down n) i = i := by
        have : (Rng.down n).bigEndian = true := by simp [Rng.bigEndian, Rng.down]; omega
        rw [Bits.physIdx, this]; rfl
      obtain ⟨z, hz, hr⟩ := Bits.set_phys (Rng.down n) x i i (by rw [hp, hlo]; omega) hi hN v
      rw [he] at hz
      injection hz with hz
      subst hz
      rw [Bits.clean_unsigned_iff] at ih ⊢
      intro j hj
      rw [hr, if_neg (by omega)]; exact ih j hj
    | @and x y _ _ ihx ihy =>
      rw [Bits.clean_unsigned_iff] at *
      intro i hi
      by_cases h : n ≤ 64
      · have := Bits.raw_and_native h x y i
        rw [ihx i hi] at this
        exact this
      · have : ((x.and y : Bits n false).bg h) = (x.bg h).and (y.bg h) := by rw [Bits.and, dif_neg h]; rfl
        rw [Bits.raw_big h, this]
        exact (Big.clean_iff _).1 (Big.clean_and hn _ _) i hi
    | @or x y _ _ ihx ihy =>
      rw [Bits.clean_unsigned_iff] at *
      intro i hi
      have := Bits.raw_or x y i
      rw [ihx i hi, ihy i hi] at this
      exact this
    | @xor x y _ _ ihx ihy =>
      rw [Bits.clean_unsigned_iff] at *
      intro i hi
      have := Bits.raw_xor x y i
      rw [ihx i hi, ihy i hi] at this
      exact this
    | @shr m x y z _ hy hr he ih =>
      have hk : numOf false y.bv = (y.bv.toNat : Nat) := by simp [numOf]
      by_cases h : n ≤ 64
      · obtain ⟨hm, hk2⟩ := hr h
        obtain ⟨w, hw, hraw⟩ := Bits.shr_native h hn hm x y (Bits.amount_native hm hy hk) hk2
        rw [he] at hw
        injection hw with hw
        subst hw
        rw [Bits.clean_unsigned_iff]
        intro i hi
        rw [hraw]
        simp; omega
      · obtain ⟨w, hw, hc, _⟩ := Bits.shr_wide h hN x hy hk
        rw [he] at hw
        injection hw with hw
        subst hw
        exact hc
    | @shl m x y z _ hy h64 he ih =>
      have hk : numOf false y.bv = (y.bv.toNat : Nat) := by simp [numOf]
      obtain ⟨w, hw, hc, _⟩ := Bits.shl_wide (by omega) hN x hy hk
      rw [he] at hw
      injection hw with hw
      subst hw
      exact hc
    | @div x y z _ _ h0 hv he ihx ihy =>
      by_cases h : n ≤ 64
      · obtain ⟨⟨q, hq, hc, _⟩, _⟩ := Bits.div_native h hn ihx ihy h0
        rw [he] at hq; injection hq with hq; subst hq; exact hc
      · obtain ⟨⟨q, hq, hc, _⟩, _⟩ := Bits.div_wide h hN ihx ihy (hv (by omega)).1 (hv (by omega)).2 h0
        rw [he] at hq; injection hq with hq; subst hq; exact hc
    | @mod x y z _ _ h0 hv he ihx ihy =>
      by_cases h : n ≤ 64
      · obtain ⟨_, ⟨q, hq, hc, _⟩⟩ := Bits.div_native h hn ihx ihy h0
        rw [he] at hq; injection hq with hq; subst hq; exact hc
      · obtain ⟨_, ⟨q, hq, hc, _⟩⟩ := Bits.div_wide h hN ihx ihy (hv (by omega)).1 (hv (by omega)).2 h0
        rw [he] at hq; injection hq with hq; subst hq; exact hc
  refine ⟨key hx, fun h => ?_⟩
  have hb : x.bv = y.bv := by
    apply BitVec.eq_of_getLsbD_eq
    intro i hi
    have := h i hi
    rw [C01_read hn hN x i hi, C01_read hn hN y i hi] at this
    injection this
  have e := (key hx).ext (key hy) hb
  refine ⟨e, ?_⟩
  rw [Bits.eq_clean hn (by simp) (key hx) (key hy)]
  simp [hb]

-- a history: write two bits, xor, shift
example : ∃ x : Bits 5 false, Reach2 5 x ∧ x.bv = 9#5 := by
  have h1 : Reach2 5 ((Bits.ofInt 2 : Bits 5 false)) := by
    refine Reach2.set 1 true Reach2.zero (by decide) ?_
    decide +kernel
  have h2 : Reach2 5 ((Bits.ofInt 18 : Bits 5 false)) := by
    refine Reach2.set 4 true h1 (by decide) ?_
    decide +kernel
  have h3 : Reach2 5 ((Bits.ofInt 9 : Bits 5 false)) := by
    refine Reach2.shr (m := 3) (y := Bits.ofInt 1) h2 (by decide +kernel) (by decide +kernel) ?_
    decide +kernel
  exact ⟨_, h3, by decide +kernel⟩

/-- the same for 4-state histories: default construction, bit writes, `& | ^ ~` -/
inductive Reach4 (n : Nat) : Lg n false → Prop
  | dflt {x : Lg n false} : Lg.dflt = .ok x → Reach4 n x
  | setL {x y : Lg n false} (i : Nat) (l : Lg 1 false) : Reach4 n x → i < n →
      x.setL (Rng.down n) i l = .ok y → Reach4 n y
  | and {x y z : Lg n false} : Reach4 n x → Reach4 n y → x.and y = .ok z → Reach4 n z
  | or {x y z : Lg n false} : Reach4 n x → Reach4 n y → x.or y = .ok z → Reach4 n z
  | xor {x y z : Lg n false} : Reach4 n x → Reach4 n y → x.xor y = .ok z → Reach4 n z
  | not {x z : Lg n false} : Reach4 n x → x.not = .ok z → Reach4 n z

/-- **C16, 4-state histories at every width**: both planes stay canonical, and two
objects with the same 4-state bits match (`match`, `===`). Missing: the operations that are not
steps of `Reach4` because they leave bits above the width (`C16_refuted`, `C16_refuted_all`). -/
theorem C16_histories_logic_partial (hn : 0 < n) (hN : n ≤ 2 ^ 32) {x y : Lg n false}
    (hx : Reach4 n x) (hy : Reach4 n y) :
    x.Clean ∧ ((∀ i, i < n → x.at i = y.at i) → x = y ∧ x.matches' y = true) := by
  have mk : ∀ z : Lg n false, (∀ i, n ≤ i → z.value.raw i = false) → (∀ i, n ≤ i → z.xz.raw i = false) →
      z.Clean := fun z h1 h2 => ⟨(Bits.clean_unsigned_iff _).2 h1, (Bits.clean_unsigned_iff _).2 h2⟩
  have key : ∀ {x : Lg n false}, Reach4 n x → x.Clean := by
    intro x h
    induction h with
    | @dflt x he =>
      obtain ⟨y, hy, h1, h2⟩ := Lg.dflt_ok (n := n) (s := false) hn
      rw [he] at hy; injection hy with hy; subst hy
      exact mk _ (fun i _ => h1 i) (fun i hi => by rw [h2]; simp; omega)
    | @setL x y i l _ hi he ih =>
      have hlo : (Rng.down n).lo = 0 := by simp [Rng.down, Rng.lo]; omega
      have hp : Bits.physIdx (Rng.down n) i = i := by
        have : (Rng.down n).bigEndian = true := by simp [Rng.bigEndian, Rng.down]; omega
        rw [Bits.physIdx, this]; rfl
      obtain ⟨z, hz, h1, h2⟩ := Lg.setL_phys (Rng.down n) x i i (by rw [hp, hlo]; omega) hi hN l
      rw [he] at hz; injection hz with hz; subst hz
      have c1 := (Bits.clean_unsigned_iff _).1 ih.1
      have c2 := (Bits.clean_unsigned_iff _).1 ih.2
      exact mk _ (fun j hj => by rw [h1, if_neg (by omega)]; exact c1 j hj)
        (fun j hj => by rw [h2, if_neg (by omega)]; exact c2 j hj)
    | @and x y z _ _ he ihx ihy =>
      obtain ⟨w, hw, h1, h2⟩ := Lg.and_ok hn x y
      rw [he] at hw; injection hw with hw; subst hw
      exact mk _ (fun j hj => by rw [h1]; simp; omega) (fun j hj => by rw [h2]; simp; omega)
    | @or x y z _ _ he ihx ihy =>
      obtain ⟨w, hw, h1, h2⟩ := Lg.or_ok hn x y
      rw [he] at hw; injection hw with hw; subst hw
      exact mk _ (fun j hj => by rw [h1]; simp; omega) (fun j hj => by rw [h2]; simp; omega)
    | @xor x y z _ _ he ihx ihy =>
      obtain ⟨w, hw, h1, h2⟩ := Lg.xor_ok hn x y
      rw [he] at hw; injection hw with hw; subst hw
      have c2 := (Bits.clean_unsigned_iff _).1 ihx.2
      have d2 := (Bits.clean_unsigned_iff _).1 ihy.2
      exact mk _ (fun j hj => by rw [h1]; simp; omega) (fun j hj => by rw [h2, c2 j hj, d2 j hj]; rfl)
    | @not x z _ he ih =>
      obtain ⟨w, hw, h1, h2⟩ := Lg.not_ok hn x
      rw [he] at hw; injection hw with hw; subst hw
      have c2 := (Bits.clean_unsigned_iff _).1 ih.2
      exact mk _ (fun j hj => by rw [h1]; simp; omega) (fun j hj => by rw [h2, c2 j hj])
  refine ⟨key hx, fun h => ?_⟩
  have hb : x.value.bv = y.value.bv ∧ x.xz.bv = y.xz.bv := by
    constructor
    all_goals
      apply BitVec.eq_of_getLsbD_eq
      intro i hi
      have := h i hi
      rw [Lg.at, Lg.at] at this
      have inj := V4.mk_inj.1 this
    · exact inj.1
    · exact inj.2
  have ev := (key hx).1.ext (key hy).1 hb.1
  have ek := (key hx).2.ext (key hy).2 hb.2
  have e : x = y := by cases x; cases y; simp only at ev ek; rw [ev, ek]
  refine ⟨e, ?_⟩
  rw [Lg.matches', Bits.eq_clean hn (by simp) (key hx).1 (key hy).1, Bits.eq_clean hn (by simp) (key hx).2 (key hy).2]
  simp [hb.1, hb.2]

/-- **C16 is false of the code.** The 4-bit sum 15 + 1 reads 0 at every index but is
not equal to 0; the 70-bit complement of all-ones reads 0 at every index but is not
equal to 0 either; neither is the 4-bit `8 << 1`. -/
theorem C16_refuted :
    (∃ z : Bits 4 false, (Bits.ofInt 15 : Bits 4 false).add (Bits.ofInt 1 : Bits 4 false) = .ok z ∧
      z.bv = (Bits.zero : Bits 4 false).bv ∧ z.eq (Bits.zero : Bits 4 false) = false) ∧
    (∃ z : Bits 70 false, (Bits.zero : Bits 70 false).mask.map Bits.not = .ok z ∧
      z.bv = (Bits.zero : Bits 70 false).bv ∧ z.eq (Bits.zero : Bits 70 false) = false) ∧
    (∃ z : Bits 4 false, (Bits.ofInt 8 : Bits 4 false).shl (Bits.ofInt 1 : Bits 4 false) = .ok z ∧
      z.bv = (Bits.zero : Bits 4 false).bv ∧ z.eq (Bits.zero : Bits 4 false) = false) := by
  refine ⟨⟨Bits.ofInt 16, by decide +kernel⟩, ?_, ⟨Bits.ofInt 16, by decide +kernel⟩⟩
  cases e : (Bits.zero : Bits 70 false).mask with
  | error f =>
    have : ((Bits.zero : Bits 70 false).mask).toOption.isSome = true := by decide +kernel
    rw [e] at this; exact absurd this (by simp [Except.toOption])
  | ok b =>
    refine ⟨b.not, rfl, ?_⟩
    have h : ((Bits.zero : Bits 70 false).mask).toOption.map
        (fun b => decide (b.not.bv = (Bits.zero : Bits 70 false).bv ∧ b.not.eq (Bits.zero : Bits 70 false) = false)) =
        some true := by decide +kernel
    rw [e] at h
    simpa [Except.toOption] using h

end Verif
