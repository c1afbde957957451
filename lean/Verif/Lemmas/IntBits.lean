import Verif.Lemmas.BitOps
import Verif.Lemmas.Shift

/-!
# Two's complement bits of integers

C++ values are modelled as integers; `ibit a j` is bit `j` of the infinite two's
complement form of `a`. On values that fit their types, `&`, `|`, `>>` and `<<` act
bit by bit.
-/

namespace Verif

/-- bit `j` of the two's complement form of `a` -/
def ibit (a : Int) (j : Nat) : Bool := decide (a / 2 ^ j % 2 = 1)

theorem getLsbD_ibit (w : Nat) (a : Int) (j : Nat) :
    (BitVec.ofInt w a).getLsbD j = (decide (j < w) && ibit a j) := getLsbD_ofInt w a j

theorem ibit_div (a : Int) (k j : Nat) : ibit (a / 2 ^ k) j = ibit a (j + k) := by
  rw [ibit, ibit, Bits.div_div_bit]

theorem ibit_zero (j : Nat) : ibit 0 j = false := by simp [ibit]

theorem ibit_of_lt {a : Int} (h0 : 0 ≤ a) {w j : Nat} (h : a < 2 ^ w) (hj : w ≤ j) : ibit a j = false := by
  have : a < 2 ^ j := lt_of_lt_of_le h (pow_le_pow_right₀ (by norm_num) hj)
  rw [ibit, Int.ediv_eq_zero_of_lt h0 this]; rfl

theorem ibit_conv {w : Nat} (hw : 0 < w) (sg : Bool) (a : Int) (j : Nat) :
    ibit ((CTy.int w sg).conv a) j = if j < w then ibit a j else (sg && ibit a (w - 1)) := by
  have low : ∀ j, j < w → ibit ((CTy.int w sg).conv a) j = ibit a j := by
    intro j hj
    have := congrArg (fun b : BitVec w => b.getLsbD j) (ofInt_conv (n := w) (sg := sg) (le_refl w) a)
    simp only [getLsbD_ibit, hj, decide_true, Bool.true_and] at this
    exact this
  split
  · exact low j ‹_›
  · rename_i hj
    cases sg with
    | false =>
      obtain ⟨h0, h1⟩ := CTy.conv_unsigned_mem (w := w) a
      rw [ibit_of_lt h0 h1 (by omega)]; rfl
    | true =>
      obtain ⟨h0, h1⟩ := CTy.conv_signed_mem hw a
      rw [← low (w - 1) (by omega)]
      generalize (CTy.int w true).conv a = c at h0 h1
      have hle : (2 : Int) ^ (w - 1) ≤ 2 ^ j := pow_le_pow_right₀ (by norm_num) (by omega)
      have hp : (0 : Int) < 2 ^ (w - 1) := by positivity
      have hpj : (0 : Int) < 2 ^ j := by positivity
      rw [Bool.true_and]
      by_cases hc : 0 ≤ c
      · rw [ibit_of_lt hc h1 (by omega), ibit_of_lt hc h1 (by omega)]
      · have key : ∀ k : Nat, (2 : Int) ^ (w - 1) ≤ 2 ^ k → c / 2 ^ k = -1 := by
          intro k hk
          have hpk : (0 : Int) < 2 ^ k := by positivity
          apply le_antisymm
          · have := Int.ediv_neg_of_neg_of_pos (a := c) (by omega) hpk
            omega
          · rw [Int.le_ediv_iff_mul_le hpk]; omega
        rw [ibit, ibit, key j hle, key (w - 1) (le_refl _)]

/-- integers with the same bits are equal -/
theorem ibit_ext {a b : Int} (h : ∀ j, ibit a j = ibit b j) : a = b := by
  have h2 : ∀ w, BitVec.ofInt w a = BitVec.ofInt w b := by
    intro w
    apply BitVec.eq_of_getLsbD_eq
    intro j _
    rw [getLsbD_ibit, getLsbD_ibit, h]
  obtain ⟨w, hw⟩ : ∃ w : Nat, (a - b).natAbs < 2 ^ w := ⟨_, Nat.lt_two_pow_self⟩
  have := (ofInt_eq_iff).1 (h2 w)
  have hd : ((2 ^ w : Nat) : Int) ∣ a - b := Int.dvd_of_emod_eq_zero (by rw [Int.sub_emod, this]; simp)
  have := Int.eq_zero_of_abs_lt_dvd hd (by rw [Int.abs_eq_natAbs]; exact_mod_cast hw)
  omega

theorem exists_ibit {a : Int} (h : a ≠ 0) : ∃ j, ibit a j = true := by
  by_contra hc
  push Not at hc
  exact h (ibit_ext fun j => by rw [ibit_zero]; simpa using hc j)

/-- a value is representable in a type -/
def TV.Fits (t : CTy) (x : TV) : Prop := t.conv x.v = x.v

theorem ibit_bitw (f : (w : Nat) → BitVec w → BitVec w → BitVec w) (g : Bool → Bool → Bool)
    (hg : g false false = false)
    (hf : ∀ w (a b : BitVec w) i, (f w a b).getLsbD i = g (a.getLsbD i) (b.getLsbD i))
    {x y : TV} {w : Nat} {sg : Bool} (hw : 0 < w) (he : CTy.usual x.ty y.ty = .int w sg)
    (hx : x.Fits (.int w sg)) (hy : y.Fits (.int w sg)) (j : Nat) :
    ibit (TV.bitw f x y).v j = g (ibit x.v j) (ibit y.v j) := by
  rw [TV.bitw_v f x y he, ibit_conv hw]
  have key : ∀ j, j < w → ibit (f w (BitVec.ofInt w x.v) (BitVec.ofInt w y.v)).toInt j =
      g (ibit x.v j) (ibit y.v j) := by
    intro j hj
    have := getLsbD_ibit w (f w (BitVec.ofInt w x.v) (BitVec.ofInt w y.v)).toInt j
    rw [BitVec.ofInt_toInt, hf, getLsbD_ibit, getLsbD_ibit] at this
    simpa [hj] using this.symm
  split
  · exact key j ‹_›
  · rename_i hj
    have ex : ibit x.v j = (sg && ibit x.v (w - 1)) := by
      conv_lhs => rw [← hx, ibit_conv hw, if_neg hj]
    have ey : ibit y.v j = (sg && ibit y.v (w - 1)) := by
      conv_lhs => rw [← hy, ibit_conv hw, if_neg hj]
    rw [key _ (by omega), ex, ey]
    cases sg <;> simp [hg]

theorem ibit_band {x y : TV} {w : Nat} {sg : Bool} (hw : 0 < w) (he : CTy.usual x.ty y.ty = .int w sg)
    (hx : x.Fits (.int w sg)) (hy : y.Fits (.int w sg)) (j : Nat) :
    ibit (TV.band x y).v j = (ibit x.v j && ibit y.v j) :=
  ibit_bitw _ (· && ·) rfl (fun _ _ _ _ => BitVec.getLsbD_and) hw he hx hy j

theorem ibit_bor {x y : TV} {w : Nat} {sg : Bool} (hw : 0 < w) (he : CTy.usual x.ty y.ty = .int w sg)
    (hx : x.Fits (.int w sg)) (hy : y.Fits (.int w sg)) (j : Nat) :
    ibit (TV.bor x y).v j = (ibit x.v j || ibit y.v j) :=
  ibit_bitw _ (· || ·) rfl (fun _ _ _ _ => BitVec.getLsbD_or) hw he hx hy j

theorem ibit_ones (k j : Nat) : ibit (2 ^ k - 1) j = decide (j < k) := by
  have h := getLsbD_ofInt_ones (j + 1) k j
  rw [getLsbD_ibit] at h
  simpa using h

theorem ibit_mul_pow (a : Int) (k j : Nat) : ibit (a * 2 ^ k) j = (decide (k ≤ j) && ibit a (j - k)) := by
  by_cases h : k ≤ j
  · obtain ⟨d, rfl⟩ := Nat.exists_eq_add_of_le h
    have e : a * 2 ^ k / 2 ^ (k + d) = a / 2 ^ d := by
      rw [pow_add, ← Int.ediv_ediv_of_nonneg (by positivity), Int.mul_ediv_cancel _ (by positivity)]
    rw [ibit, e, Nat.add_sub_cancel_left]; simp [ibit]
  · obtain ⟨d, rfl⟩ : ∃ d, k = j + (d + 1) := ⟨k - j - 1, by omega⟩
    have e : a * 2 ^ (j + (d + 1)) / 2 ^ j = a * 2 ^ d * 2 := by
      rw [pow_add, pow_succ, show a * (2 ^ j * (2 ^ d * 2)) = a * 2 ^ d * 2 * 2 ^ j by ring,
        Int.mul_ediv_cancel _ (by positivity)]
    rw [ibit, e, Int.mul_emod_left]; simp

namespace Bits
variable {n m : Nat} {s t : Bool}

/-- the bits of the holder value -/
theorem ibit_nv (h : n ≤ 64) (h1 : 1 < n) (x : Bits n s) (j : Nat) :
    ibit x.nv.v j = if j < hw n then x.raw j else (s && x.raw (hw n - 1)) := by
  have hp := hw_pos n
  have hr : ∀ j, j < hw n → ibit x.nv.v j = x.raw j := fun j hj => by rw [raw_nv h x hj]; rfl
  split
  · exact hr j ‹_›
  · rename_i hj
    have hc := nv_conv h x
    rw [holderTy_ge (by omega)] at hc
    rw [← hc, ibit_conv hp, if_neg hj, hr _ (by omega)]

theorem nv_fits (h : n ≤ 64) (x : Bits n s) : x.nv.Fits (holderTy n s).promote := promote_conv_nv h x

theorem usual_holder (h1 : 1 < n) (s : Bool) : CTy.usual (holderTy n s) (holderTy n s) = (holderTy n s).promote := by
  rw [holderTy_ge (by omega)]
  by_cases h : hw n < 32
  · simp [CTy.usual, CTy.promote, h]
  · simp [CTy.usual, CTy.promote, h]

/-- values of the holder type fit the promoted type -/
theorem fits_promote (h1 : 1 < n) {x : TV} (hx : x.Fits (holderTy n s)) : x.Fits (holderTy n s).promote := by
  rw [TV.Fits] at *
  rw [holderTy_ge (by omega)] at *
  have hp := hw_pos n
  obtain ⟨w, sg, he, h32, ha⟩ := CTy.promote_spec (CTy.int (hw n) s)
  apply ibit_ext
  intro j
  by_cases h : hw n < 32
  · simp only [CTy.promote, h, if_true]
    rw [ibit_conv (by decide)]
    split
    · rfl
    · conv_rhs => rw [← hx, ibit_conv hp, if_neg (by omega)]
      conv_lhs => rw [← hx, ibit_conv hp, if_neg (by omega)]
      cases s <;> rfl
  · simp only [CTy.promote, h, if_false]
    rw [hx]

theorem promote_int (n : Nat) (s : Bool) : ∃ w sg, (holderTy n s).promote = .int w sg ∧ hw n ≤ w ∧ 32 ≤ w ∧
    (sg = true → w = hw n → s = true ∨ n ≤ 1) ∧ (s = true → sg = true) := by
  by_cases h1 : n ≤ 1
  · rw [holderTy_one h1]
    exact ⟨32, true, rfl, by rw [hw_one h1]; decide, by decide, fun _ _ => Or.inr h1, fun _ => rfl⟩
  · rw [holderTy_ge h1]
    by_cases h : hw n < 32
    · exact ⟨32, true, by simp [CTy.promote, h], by omega, by decide, by omega, fun _ => rfl⟩
    · exact ⟨hw n, s, by simp [CTy.promote, h], le_refl _, by omega, fun h _ => Or.inl h, id⟩

/-- masking the holder value and shifting it down -/
theorem mask_shr (h : n ≤ 64) (h1 : 1 < n) (x : Bits n s) {mask c : TV} {k : Nat}
    (ht : mask.ty = holderTy n s) (hm : mask.Fits (holderTy n s)) (hc : c.v = k) (hk : k < hw n) :
    ∃ v, TV.shr (TV.band x.nv mask) c = .ok v ∧
      ∀ j, ibit v.v j = (ibit x.nv.v (j + k) && ibit mask.v (j + k)) := by
  obtain ⟨w, sg, he, hle, h32, _, _⟩ := promote_int n s
  have hu : CTy.usual x.nv.ty mask.ty = .int w sg := by
    rw [ht, nv_ty, usual_holder h1, he]
  have hty : (TV.band x.nv mask).ty = .int w sg := hu
  have hpr : (CTy.int w sg).promote = .int w sg := by simp [CTy.promote]; omega
  rw [TV.shr_ok hc (by rw [hty, hpr]; show k < w; omega), hty, hpr]
  refine ⟨_, rfl, fun j => ?_⟩
  have hx := nv_fits h x
  have hm := fits_promote h1 hm
  rw [he] at hx hm
  have hw0 : 0 < w := by omega
  have hb := fun j => ibit_band hw0 hu hx hm j
  have hfit : (CTy.int w sg).conv (TV.band x.nv mask).v = (TV.band x.nv mask).v := by
    apply ibit_ext
    intro j
    rw [ibit_conv hw0]
    split
    · rfl
    · rename_i hj
      rw [hb, hb]
      conv_rhs => rw [← hx, ← hm, ibit_conv hw0, ibit_conv hw0, if_neg hj, if_neg hj]
      cases sg <;> simp
  have hfit2 : (CTy.int w sg).conv ((TV.band x.nv mask).v / 2 ^ k) = (TV.band x.nv mask).v / 2 ^ k := by
    apply ibit_ext
    intro j
    rw [ibit_conv hw0]
    split
    · rfl
    · rename_i hj
      have hq : ∀ j, ¬ j < w → ibit (TV.band x.nv mask).v j = (sg && ibit (TV.band x.nv mask).v (w - 1)) := by
        intro j hj
        conv_lhs => rw [← hfit, ibit_conv hw0, if_neg hj]
      rw [ibit_div, ibit_div, hq (j + k) (by omega)]
      by_cases h0 : k = 0
      · subst h0; rfl
      · rw [hq (w - 1 + k) (by omega)]; cases sg <;> rfl
  simp only
  rw [hfit, hfit2, ibit_div, hb]

theorem raw_mkN (h : n ≤ 64) (h1 : 1 < n) (v : TV) (i : Nat) :
    (mkN h v : Bits n s).raw i = (decide (i < hw n) && ibit v.v i) := by
  rw [raw_native h, hold_mkN h (by omega), getLsbD_ibit]

theorem raw_mkN_one (v : TV) (i : Nat) :
    (mkN (n := 1) (by decide) v : Bits 1 s).raw i = (decide (i = 0) && decide (v.v ≠ 0)) := by
  rw [raw_native (by decide), hold_mkN_one (by decide) (by decide)]
  have : hw 1 = 1 := rfl
  by_cases h0 : v.v = 0
  · simp [h0]
  · rw [if_neg h0, getLsbD_ibit, this]
    rcases i with _ | i
    · simp [h0, ibit]
    · simp

end Bits
end Verif
