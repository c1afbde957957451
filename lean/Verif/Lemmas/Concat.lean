import Verif.Lemmas.Slice
import Verif.Lemmas.Compare

/-!
# Concatenation
-/

namespace Verif

theorem ibit_toNat {w : Nat} (b : BitVec w) (j : Nat) : ibit (b.toNat : Int) j = b.getLsbD j := by
  by_cases hj : j < w
  · have := getLsbD_ibit w (b.toNat : Int) j
    rw [show BitVec.ofInt w (b.toNat : Int) = b by
      rw [BitVec.ofInt_natCast, BitVec.ofNat_toNat, BitVec.setWidth_eq]] at this
    simpa [hj] using this.symm
  · rw [BitVec.getLsbD_of_ge _ _ (by omega)]
    exact ibit_of_lt (by omega) (w := w) (by exact_mod_cast b.isLt) (by omega)

theorem ibit_toInt {w : Nat} (hw : 0 < w) (b : BitVec w) (j : Nat) :
    ibit b.toInt j = if j < w then b.getLsbD j else b.getLsbD (w - 1) := by
  have : b.toInt = (CTy.int w true).conv (b.toNat : Int) := BitVec.toInt_eq_toNat_bmod b
  rw [this, ibit_conv hw, ibit_toNat, ibit_toNat, Bool.true_and]

/-- the bits of the number denoted by a bit pattern -/
theorem ibit_numOf {n : Nat} (hn : 0 < n) (s : Bool) (b : BitVec n) (j : Nat) :
    ibit (numOf s b) j = if j < n then b.getLsbD j else (s && decide (1 < n) && b.getLsbD (n - 1)) := by
  rw [numOf]
  by_cases hs : (s && !decide (n ≤ 1)) = true
  · rw [if_pos hs, ibit_toInt hn]
    rw [Bool.and_eq_true, Bool.not_eq_true', decide_eq_false_iff_not] at hs
    have : 1 < n := by omega
    simp [hs.1, this]
  · rw [if_neg hs, ibit_toNat]
    split
    · rfl
    · rw [BitVec.getLsbD_of_ge _ _ (by omega)]
      cases s with
      | false => rfl
      | true =>
        simp only [Bool.true_and, Bool.not_eq_true', decide_eq_false_iff_not, not_not] at hs
        simp; omega

namespace Bits

variable {n m : Nat} {s t : Bool}

theorem ibit_clean (h : n ≤ 64) (hn : 0 < n) {x : Bits n s} (hx : x.Clean) (j : Nat) :
    ibit x.nv.v j = if j < n then x.bv.getLsbD j else (s && decide (1 < n) && x.bv.getLsbD (n - 1)) := by
  rw [(clean_native h x).1 hx, ibit_numOf hn]

/-- `concat` on native operands whose total width fits the promoted type of the left
one: every storage bit of the result. -/
theorem concat_bits (hn : 0 < n) (hm : 0 < m) (h64 : n + m < 64) (x : Bits n s) (y : Bits m t)
    (hW : n + m ≤ max 32 (hw n)) :
    ∃ z, x.concat y h64 = .ok z ∧ ∀ i, z.raw i =
      (decide (i < hw (n + m)) && ((decide (m ≤ i) && ibit x.nv.v (i - m)) || ibit y.nv.v i)) := by
  obtain ⟨w, sg, he, hle, h32, _, _⟩ := promote_int n s
  have hwW : max 32 (hw n) ≤ w := by omega
  have hty : x.nv.ty.promote = .int w sg := by rw [nv_ty, he]
  have hsh := TV.shl_ok (x := x.nv) (c := TV.int m) (k := m) rfl (by rw [hty]; show m < w; omega)
  rw [hty] at hsh
  refine ⟨_, by rw [concat, hsh, res_map_ok], fun i => ?_⟩
  rw [raw_native (Nat.le_of_lt h64), hold_mkN (Nat.le_of_lt h64) (by omega)]
  have hhw : hw (n + m) ≤ w := by
    have : hw (n + m) ≤ max 32 (hw n) := by
      rcases hw_cases n with e | e | e | e | e <;> rw [e] at hW ⊢ <;> simp only [hw] <;>
        repeat' split
      all_goals omega
    omega
  rw [TV.ofInt_bor _ _ (Or.inl hhw), BitVec.getLsbD_or, getLsbD_ibit, getLsbD_ibit,
    ibit_conv (by omega)]
  by_cases hi : i < hw (n + m)
  · rw [if_pos (by omega), ibit_mul_pow]
    have hxc : (CTy.int w sg).conv x.nv.v = x.nv.v := by
      have := promote_conv_nv (show n ≤ 64 by omega) x
      rw [he] at this; exact this
    rw [hxc]; simp [hi]
  · simp [hi]

/-- undefined behaviour when the right width is at least the promoted width -/
theorem concat_fault (h64 : n + m < 64) (x : Bits n s) (y : Bits m t) (hn : hw n ≤ 32) (hW : 32 ≤ m) :
    x.concat y h64 = .error .shift := by
  have hp : x.nv.ty.promote.width = 32 := by
    rw [nv_ty]
    by_cases h1 : n ≤ 1
    · rw [holderTy_one h1]; rfl
    · rw [holderTy_ge h1, CTy.promote]
      split
      · rfl
      · simp only [CTy.width]; omega
  have : TV.shl x.nv (TV.int m) = .error .shift := by
    rw [TV.shl]
    simp only [hp]
    rw [if_pos (Or.inr (by show ((32 : Nat) : Int) ≤ (m : Int); omega))]
  rw [concat, this]; rfl

end Bits
end Verif
