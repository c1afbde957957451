import Verif.Lemmas.CompareExact

/-!
# Exact answers of comparisons between different widths

Completes C39 and C40 for limb-based operands and adds C119, equality of signed
operands of different widths.
-/

namespace Verif

variable {n m : Nat} {s t : Bool}

/-! ## C39, C40: unsigned limb-based operands -/

/-- **C39, two wide operands, exactly.** `==` compares all bits of the 64-bit chunks that
both operands have, and of the surplus chunks of the longer one only the lower halves. -/
theorem C39_wide_exact (h : 64 < n) (hm : 64 < m) (x : Bits n s) (y : Bits m t)
    (hst : (s && t) = false) (hx : x.Clean) (hy : y.Clean) : x.eq y = true ↔ LimbEq x.bv y.bv :=
  Bits.eq_limbEq (by omega) (by omega) hst hx hy

/-- a power of two in the upper half of a surplus chunk passes for zero -/
theorem limbEq_pow {k : Nat} (hk : 64 * ((m + 63) / 64) ≤ k) (hk32 : 32 ≤ k % 64) :
    LimbEq (BitVec.ofNat n (2 ^ k)) (0 : BitVec m) := by
  have g : ∀ p, (BitVec.ofNat n (2 ^ k)).getLsbD p = (decide (p < n) && decide (k = p)) := by
    intro p; rw [BitVec.getLsbD_ofNat, Nat.testBit_two_pow]
  constructor
  · intro p hp
    rw [g, decide_eq_false (show ¬ k = p by omega)]; simp
  · intro p _ hl
    rw [g]
    by_cases e : k = p
    · subst e; omega
    · simp [e]

/-- **C39 is false for all wide width pairs** with a surplus upper half: `2^k` equals 0 in
both orders. -/
theorem C39_wide_refuted_all (hm : 64 < m) (k : Nat) (hkm : 64 * ((m + 63) / 64) ≤ k)
    (hk32 : 32 ≤ k % 64) (hkn : k < n) :
    ∃ (x : Bits n false) (y : Bits m false), x.Clean ∧ y.Clean ∧ x.bv.toNat = 2 ^ k ∧ y.bv = 0 ∧
      x.eq y = true ∧ y.eq x = true := by
  obtain ⟨x, cx, ex⟩ := Bits.exists_clean (s := false) (BitVec.ofNat n (2 ^ k))
  obtain ⟨y, cy, ey⟩ := Bits.exists_clean (s := false) (0 : BitVec m)
  have hl : LimbEq x.bv y.bv := by rw [ex, ey]; exact limbEq_pow hkm hk32
  refine ⟨x, y, cx, cy, ?_, ey, (C39_wide_exact (by omega) hm x y rfl cx cy).2 hl,
    (C39_wide_exact hm (by omega) y x rfl cy cx).2 hl.symm⟩
  rw [ex, BitVec.toNat_ofNat, Nat.mod_eq_of_lt (Nat.pow_lt_pow_right (by decide) hkn)]

/-- **C40 for `>=` and `<=`, two wide operands, exactly.** -/
theorem C40_ge_le_exact (h : 64 < n) (hm : 64 < m) (x : Bits n s) (y : Bits m t)
    (hst : (s && t) = false) (hx : x.Clean) (hy : y.Clean) :
    (∃ b, x.ge y = .ok b ∧ (b = true ↔ y.bv.toNat < x.bv.toNat ∨ LimbEq x.bv y.bv)) ∧
    (∃ b, x.le y = .ok b ∧ (b = true ↔ x.bv.toNat < y.bv.toNat ∨ LimbEq x.bv y.bv)) :=
  ⟨Bits.ge_wide_iff (by omega) (by omega) hst hx hy, Bits.le_wide_iff (by omega) (by omega) hst hx hy⟩

/-- **C40 is false for the same width pairs**: `2^k <= 0`. -/
theorem C40_refuted_all (hm : 64 < m) (k : Nat) (hkm : 64 * ((m + 63) / 64) ≤ k)
    (hk32 : 32 ≤ k % 64) (hkn : k < n) :
    ∃ (x : Bits n false) (y : Bits m false), x.Clean ∧ y.Clean ∧ y.bv.toNat < x.bv.toNat ∧
      x.le y = .ok true ∧ y.ge x = .ok true := by
  obtain ⟨x, y, cx, cy, ex, ey, e1, e2⟩ := C39_wide_refuted_all hm k hkm hk32 hkn
  refine ⟨x, y, cx, cy, ?_, ?_, ?_⟩
  · rw [ex, ey]; simp
  · obtain ⟨-, b, hb, e⟩ := C40_ge_le_exact (by omega) hm x y rfl cx cy
    rw [hb, e.2 (Or.inr ((C39_wide_exact (by omega) hm x y rfl cx cy).1 e1))]
  · obtain ⟨⟨b, hb, e⟩, -⟩ := C40_ge_le_exact hm (by omega) y x rfl cy cx
    rw [hb, e.2 (Or.inr ((C39_wide_exact hm (by omega) y x rfl cy cx).1 e2))]

example : 64 * ((65 + 63) / 64) ≤ 160 ∧ 32 ≤ 160 % 64 ∧ 160 < 161 := by decide

/-! ## C119: equality of signed operands of different widths -/

/-- **C119, partial.** Native signed operands of at least two bits: `==` compares the numbers
if the right one fits the holder of the left one, in particular if it is not wider. Missing:
other native operands (`C119_native_exact`) and wide ones (`C119_wide_exact`,
`C119_wide_native_exact`). -/
theorem C119_eq_signed_partial (hn : 1 < n) (h : n ≤ 64) (hm : m ≤ 64) (x : Bits n true)
    (y : Bits m true) (hx : x.Clean) (hy : y.Clean)
    (hfit : -2 ^ (hw n - 1) ≤ numOf true y.bv ∧ numOf true y.bv < 2 ^ (hw n - 1)) :
    x.eq y = decide (numOf true x.bv = numOf true y.bv) := by
  have h8 := hw_ge_eight (n := n) (by omega)
  rw [Bool.eq_iff_iff, Bits.eq_signed_native hn h hm hx hy, decide_eq_true_iff]
  have : (numOf true y.bv).bmod (2 ^ hw n) = numOf true y.bv :=
    CTy.conv_signed_of_mem (w := hw n) (by omega) hfit.1 hfit.2
  rw [this]
  have : numOf true x.bv = x.bv.toInt := by simp [numOf]; omega
  rw [this]

/-- **C119, native, exactly**: the right number is reduced to the holder type of the left
operand. -/
theorem C119_native_exact (hn : 1 < n) (h : n ≤ 64) (hm : m ≤ 64) (x : Bits n true) (y : Bits m true)
    (hx : x.Clean) (hy : y.Clean) :
    x.eq y = true ↔ x.bv.toInt = (numOf true y.bv).bmod (2 ^ hw n) :=
  Bits.eq_signed_native hn h hm hx hy

/-- **C119, a wide and a native operand, exactly**: the wide bit pattern read without sign
is compared with the native number modulo `2^64`. -/
theorem C119_wide_native_exact (h : 64 < n) (hm : m ≤ 64) (x : Bits n true) (y : Bits m true)
    (hx : x.Clean) (hy : y.Clean) :
    (x.eq y = true ↔ (x.bv.toNat : Int) = numOf true y.bv % 2 ^ 64) ∧ y.eq x = x.eq y :=
  Bits.eq_signed_wide_native (by omega) hm hx hy

/-- **C119, two wide operands, the right one wider, exactly**: the left one is extended by
ones, also when it is not negative. (The other order does not compile.) -/
theorem C119_wide_exact (h : 64 < n) (hnm : n < m) (x : Bits n true) (y : Bits m true)
    (hx : x.Clean) (hy : y.Clean) :
    x.eq y = true ↔ y.bv.toInt = (x.bv.toNat : Int) - 2 ^ n :=
  Bits.eq_signed_wide (by omega) hnm hx hy

/-- **C119 is false for every wide and native operand**: a negative native number is
never equal to the same wide number, but equal to a positive one. -/
theorem C119_wide_native_refuted (h : 64 < n) (hm : m ≤ 64) (y : Bits m true) (hy : y.Clean)
    (hneg : numOf true y.bv < 0) :
    (∀ x : Bits n true, x.Clean → x.bv.toInt = numOf true y.bv → x.eq y = false) ∧
    (∃ x : Bits n true, x.Clean ∧ 0 ≤ x.bv.toInt ∧ x.eq y = true) := by
  have hb : -2 ^ 63 ≤ numOf true y.bv := by
    rw [← (Bits.clean_native hm y).1 hy]
    have := (Bits.nv_abs_bounds hm y).1
    have p : (2 : Int) ^ (hw m - 1) ≤ 2 ^ 63 := Bits.pow_mono (by have := hw_le m; omega)
    omega
  have p : 2 ^ 65 ≤ 2 ^ n := Nat.pow_le_pow_right (by decide) (by omega)
  constructor
  · intro x hx e
    rw [← Bool.not_eq_true, (C119_wide_native_exact h hm x y hx hy).1]
    rw [BitVec.toInt_eq_toNat_cond] at e
    have := x.bv.isLt
    split_ifs at e <;> push_cast at e <;> omega
  · obtain ⟨x, cx, ex⟩ := Bits.exists_clean (s := true) (BitVec.ofNat n (numOf true y.bv % 2 ^ 64).toNat)
    have hN : x.bv.toNat = (numOf true y.bv % 2 ^ 64).toNat := by
      rw [ex, BitVec.toNat_ofNat, Nat.mod_eq_of_lt (by omega)]
    refine ⟨x, cx, ?_, (C119_wide_native_exact h hm x y cx hy).1.2 (by rw [hN]; omega)⟩
    rw [BitVec.toInt_eq_toNat_cond, if_pos (by rw [hN]; omega)]
    omega

/-- **C119 is false for every pair of wide widths**: no non-negative number equals itself, and
every non-negative `k` equals `k - 2^n`. -/
theorem C119_wide_refuted (h : 64 < n) (hnm : n < m) (x : Bits n true) (hx : x.Clean)
    (hpos : 0 ≤ x.bv.toInt) :
    (∀ y : Bits m true, y.Clean → y.bv.toInt = x.bv.toInt → x.eq y = false) ∧
    (∃ y : Bits m true, y.Clean ∧ y.bv.toInt = x.bv.toInt - 2 ^ n ∧ x.eq y = true) := by
  have hl := x.bv.isLt
  have hcond : x.bv.toInt = x.bv.toNat := by
    rw [BitVec.toInt_eq_toNat_cond] at hpos ⊢
    split_ifs at hpos ⊢
    · rfl
    · have hl' : (x.bv.toNat : Int) < ((2 ^ n : Nat) : Int) := by exact_mod_cast hl
      omega
  have p0 : (0 : Int) < 2 ^ n := by positivity
  constructor
  · intro y hy e
    rw [← Bool.not_eq_true, C119_wide_exact h hnm x y hx hy, e, hcond]
    omega
  · obtain ⟨y, cy, ey⟩ := Bits.exists_clean (s := true) (x.extend m).bv
    have e : y.bv.toInt = x.bv.toInt - 2 ^ n := by
      rw [ey, Bits.extend_wide_signed_toInt (by omega) hnm, hcond]
    exact ⟨y, cy, e, (C119_wide_exact h hnm x y hx cy).2 (by rw [e, hcond])⟩

-- -3 in 5 bits equals -3 in 12 bits; 70-bit 5 is not equal to 80-bit 5
example : (Bits.ofInt (-3) : Bits 5 true).eq (Bits.ofInt (-3) : Bits 12 true) = true := by decide +kernel
example : (Bits.ofInt 5 : Bits 70 true).eq (Bits.ofInt 5 : Bits 80 true) = false := by decide +kernel
example : (Bits.ofInt 1 : Bits 8 true).eq (Bits.ofInt 257 : Bits 12 true) = true := by decide +kernel

end Verif
