import Verif.Lemmas.BitDiv

/-! Extension of 2-state values. -/

namespace Verif

theorem hw_mono {n m : Nat} (h : n ≤ m) : hw n ≤ hw m := by
  simp only [hw]; split_ifs <;> omega

namespace Bits

variable {n m : Nat} {s t : Bool}

theorem extend_self (x : Bits n s) : x.extend n = x := by
  simp [extend]

theorem nv_extend (hn : 0 < n) (h : n ≤ m) (hm : m ≤ 64) (x : Bits n s) :
    (x.extend m).nv.v = x.nv.v := by
  by_cases e : m = n
  · subst e; rw [extend_self]
  · rw [extend, dif_neg e, dif_pos hm, nv_mkN]
    have h64 : n ≤ 64 := by omega
    have hb := nv_bounds h64 x
    have hw1 := hw_mono h
    have hw8 := hw_ge_eight (n := m) (by omega)
    show (holderTy m s).conv x.nv.v = _
    rw [holderTy_ge (by omega)]
    cases s with
    | false =>
      simp only [Bool.false_and, Bool.false_eq_true, if_false] at hb
      have p : (2 : Int) ^ hw n ≤ 2 ^ hw m := pow_mono hw1
      exact CTy.conv_unsigned_of_lt hb.1 (by omega)
    | true =>
      by_cases h1 : n ≤ 1
      · simp only [h1, decide_true, Bool.not_true, Bool.and_false, Bool.false_eq_true, if_false,
          hw_one h1] at hb
        have p : (2 : Int) ^ 1 ≤ 2 ^ (hw m - 1) := pow_mono (by omega)
        exact CTy.conv_signed_of_mem (by omega) (by omega) (by omega)
      · simp only [h1, decide_false, Bool.not_false, Bool.and_true, if_true] at hb
        have p : (2 : Int) ^ (hw n - 1) ≤ 2 ^ (hw m - 1) := pow_mono (by omega)
        exact CTy.conv_signed_of_mem (by omega) (by omega) (by omega)

/-- the wide object that `extend` builds from a native one -/
theorem raw_extend_wide (hm : ¬ m ≤ 64) (h : n ≤ 64) (x : Bits n s) (i : Nat) :
    (x.extend m).raw i =
      if i < 64 then (BitVec.ofInt 64 x.nv.v).getLsbD i
      else decide (i < m) && (s && x.negative) := by
  have e : m ≠ n := by omega
  have hl := limbs_ge_two hm
  rw [extend, dif_neg e, dif_neg hm, dif_pos h]
  have h0 : ∀ j, ((Big.zero.setLimb 0 (BitVec.ofInt 64 (tU64.conv x.nv.v)) : Big m s)).limb j =
      if j = 0 then BitVec.ofInt 64 x.nv.v else 0 := by
    intro j
    rw [Big.limb_setLimb, ofInt_conv (Nat.le_refl _)]
    by_cases hj : j = 0
    · subst hj; simp; omega
    · rw [if_neg (by omega), if_neg hj]; simp
  by_cases hs : (s && x.negative) = true
  · simp only [hs, if_true]
    show (Big.maskOff _).raw i = _
    rw [Big.raw_maskOff (by omega)]
    have key : ∀ j, (loop 1 (limbs m) (Big.zero.setLimb 0 (BitVec.ofInt 64 (tU64.conv x.nv.v)) : Big m s)
        fun i r => r.setLimb i (BitVec.allOnes 64)).limb j =
        if j = 0 then BitVec.ofInt 64 x.nv.v else if j < limbs m then BitVec.allOnes 64 else 0 := by
      intro j
      have := loop_induct 1 (limbs m)
        (Big.zero.setLimb 0 (BitVec.ofInt 64 (tU64.conv x.nv.v)) : Big m s)
        (fun i r => r.setLimb i (BitVec.allOnes 64))
        (fun k r => ∀ j, r.limb j = if j = 0 then BitVec.ofInt 64 x.nv.v
          else if j < k then BitVec.allOnes 64 else 0) (by omega)
        (by
          intro j
          rw [h0]
          by_cases hj : j = 0
          · simp [hj]
          · simp [hj])
        (by
          intro k r hk1 hk2 ih j
          rw [Big.limb_setLimb, ih]
          by_cases hj : k = j
          · subst hj
            rw [if_pos ⟨rfl, hk2⟩, if_neg (by omega), if_pos (by omega)]
          · rw [if_neg (by tauto)]
            by_cases hj0 : j = 0
            · simp [hj0]
            · simp only [hj0, if_false]
              by_cases hjk : j < k
              · rw [if_pos hjk, if_pos (by omega)]
              · rw [if_neg hjk, if_neg (by omega)])
      exact this j
    rw [Big.raw_eq, key]
    by_cases hi : i < 64
    · have : i / 64 = 0 := by omega
      have h2 : i % 64 = i := by omega
      simp only [this, h2, if_true, hi]
      simp; omega
    · rw [if_neg hi, if_neg (by omega)]
      by_cases him : i < m
      · have := div_lt_limbs him
        simp only [him, decide_true, Bool.true_and, this, if_true, BitVec.getLsbD_allOnes]
        simp; omega
      · simp [him]
  · simp only [hs, Bool.false_eq_true, if_false]
    show Big.raw _ i = _
    rw [Big.raw_eq, h0]
    by_cases hi : i < 64
    · have : i / 64 = 0 := by omega
      have h2 : i % 64 = i := by omega
      simp only [this, h2, if_true, hi]
    · rw [if_neg hi, if_neg (by omega)]
      simp [show (s && x.negative) = false by simpa using hs]

theorem ofInt_64_high (h : n ≤ 64) (x : Bits n s) {i : Nat} (hi : 64 ≤ i) (k : Nat) (hk : i < k) :
    (BitVec.ofInt k x.nv.v).getLsbD i = (s && x.negative) := by
  have hb := nv_abs_bounds h x
  have hbb := nv_bounds h x
  have hneg : x.negative = decide (x.nv.v < 0) := by rw [negative, dif_pos h]
  rw [getLsbD_ofInt, hneg]
  simp only [hk, decide_true, Bool.true_and]
  have p : (2 : Int) ^ hw n ≤ 2 ^ i := pow_mono (by have := hw_le n; omega)
  have p' : (2 : Int) ^ (hw n - 1) ≤ 2 ^ i := pow_mono (by have := hw_le n; omega)
  by_cases h0 : 0 ≤ x.nv.v
  · have : x.nv.v / 2 ^ i = 0 := Int.ediv_eq_zero_of_lt h0 (by omega)
    rw [this]
    have : ¬ x.nv.v < 0 := by omega
    simp [this]
  · have hs : s = true := by
      cases s
      · have := nv_nonneg h x; omega
      · rfl
    subst hs
    have : x.nv.v / 2 ^ i = -1 := by
      have hpos : (0 : Int) < 2 ^ i := by positivity
      have h1 : -1 ≤ x.nv.v / 2 ^ i := by
        rw [Int.le_ediv_iff_mul_le hpos]; omega
      have h2 : x.nv.v / 2 ^ i < 0 := Int.ediv_neg_of_neg_of_pos (by omega) hpos
      omega
    rw [this]
    have : x.nv.v < 0 := by omega
    simp [this]

/-- the `m` bits of an extended native value are those of its number -/
theorem bv_extend_native (hn : 0 < n) (h64 : n ≤ 64) (h : n ≤ m) (x : Bits n s) :
    (x.extend m).bv = BitVec.ofInt m x.nv.v := by
  by_cases hm : m ≤ 64
  · rw [bv_ofInt hm, nv_extend hn h hm]
  · apply BitVec.eq_of_getLsbD_eq
    intro i hi
    rw [getLsbD_bv, raw_extend_wide hm h64]
    simp only [hi, decide_true, Bool.true_and]
    by_cases h' : i < 64
    · rw [if_pos h', getLsbD_ofInt, getLsbD_ofInt]; simp [hi, h']
    · rw [if_neg h', ofInt_64_high h64 x (by omega) m hi]

theorem raw_extend_unsigned (hn : 0 < n) (h : n ≤ m) (x : Bits n false) (i : Nat) :
    (x.extend m).raw i = x.raw i := by
  by_cases e : m = n
  · subst e; rw [extend_self]
  by_cases h64 : n ≤ 64
  · have hb := nv_nonneg h64 x
    by_cases hm : m ≤ 64
    · by_cases hi : i < hw m
      · rw [raw_nv hm _ hi, nv_extend hn h hm]
        by_cases hi' : i < hw n
        · rw [raw_nv h64 x hi']
        · rw [raw_of_ge_native h64 x (by omega)]
          have p : (2 : Int) ^ hw n ≤ 2 ^ i := pow_mono (by omega)
          rw [Int.ediv_eq_zero_of_lt hb.1 (by omega)]; rfl
      · have := hw_mono h
        rw [raw_of_ge_native hm _ (by omega), raw_of_ge_native h64 x (by omega)]
    · rw [raw_extend_wide hm h64]
      by_cases hi : i < 64
      · rw [if_pos hi, getLsbD_ofInt]
        simp only [hi, decide_true, Bool.true_and]
        by_cases hi' : i < hw n
        · rw [raw_nv h64 x hi']
        · rw [raw_of_ge_native h64 x (by omega)]
          have p : (2 : Int) ^ hw n ≤ 2 ^ i := pow_mono (by omega)
          rw [Int.ediv_eq_zero_of_lt hb.1 (by omega)]; rfl
      · rw [if_neg hi, raw_of_ge_native h64 x (by have := hw_le n; omega)]
        simp
  · have hm : ¬ m ≤ 64 := by omega
    rw [extend, dif_neg e, dif_neg hm, dif_neg h64]
    show Big.raw _ i = _
    rw [Big.raw_extend_unsigned _ h, raw_big h64]

theorem Clean.extend_unsigned (hn : 0 < n) (h : n ≤ m) {x : Bits n false} (hx : x.Clean) :
    (x.extend m).Clean := by
  rw [clean_unsigned_iff] at *
  intro i hi
  rw [raw_extend_unsigned hn h]
  exact hx i (by omega)

theorem bv_extend_unsigned (hn : 0 < n) (h : n ≤ m) {x : Bits n false} (hx : x.Clean) :
    (x.extend m).bv = x.bv.setWidth m := by
  apply BitVec.eq_of_getLsbD_eq
  intro i hi
  rw [getLsbD_bv, raw_extend_unsigned hn h, BitVec.getLsbD_setWidth, getLsbD_bv]
  simp only [hi, decide_true, Bool.true_and]
  by_cases h' : i < n
  · simp [h']
  · simp [h', (clean_unsigned_iff x).1 hx i (by omega)]

theorem extend_wide_signed (h64 : ¬ n ≤ 64) (h : n < m) (x : Bits n true) (i : Nat) (hi : i < m) :
    (x.extend m).bv.getLsbD i = if i < n then x.bv.getLsbD i else true := by
  have hm : ¬ m ≤ 64 := by omega
  rw [getLsbD_bv, getLsbD_bv, extend, dif_neg (by omega), dif_neg hm, dif_neg h64]
  show (decide (i < m) && Big.raw _ i) = _
  rw [Big.raw_extend_signed _ (by omega), raw_big h64]
  simp only [hi, decide_true, Bool.true_and]
  by_cases h' : i < n
  · simp [h', show ¬ n ≤ i by omega]
  · simp [h', show n ≤ i by omega]

/-- clean native values stay clean and keep their number -/
theorem extend_native_num (hn : 0 < n) (h64 : n ≤ 64) (h : n ≤ m) {x : Bits n s} (hx : x.Clean) :
    numOf s (x.extend m).bv = numOf s x.bv := by
  by_cases e : m = n
  · subst e; rw [extend_self]
  rw [bv_extend_native hn h64 h]
  have hc := (clean_native h64 x).1 hx
  rw [hc]
  have hb := numOf_bounds (s := s) hn x.bv
  generalize numOf s x.bv = k at *
  rw [numOf]
  cases s with
  | false =>
    simp only [Bool.false_and, Bool.false_eq_true, if_false] at hb ⊢
    have p : (2 : Int) ^ n ≤ 2 ^ m := pow_mono h
    rw [BitVec.toNat_ofInt]
    have : k % (2 ^ m : Nat) = k := Int.emod_eq_of_lt hb.1 (by push_cast; omega)
    push_cast at this ⊢
    rw [this]; omega
  | true =>
    have h1 : ¬ m ≤ 1 := by omega
    simp only [h1, decide_false, Bool.not_false, Bool.and_true, if_true]
    rw [BitVec.toInt_ofInt]
    have hk : -2 ^ (m - 1) ≤ k ∧ k < 2 ^ (m - 1) := by
      by_cases hn1 : n ≤ 1
      · have : n = 1 := by omega
        subst this
        simp only [le_refl, decide_true, Bool.not_true, Bool.and_false, Bool.false_eq_true,
          if_false] at hb
        have p : (2 : Int) ^ 1 ≤ 2 ^ (m - 1) := pow_mono (by omega)
        constructor <;> omega
      · simp only [hn1, decide_false, Bool.not_false, Bool.and_true, if_true] at hb
        have p : (2 : Int) ^ (n - 1) ≤ 2 ^ (m - 1) := pow_mono (by omega)
        constructor <;> omega
    exact CTy.conv_signed_of_mem (w := m) (by omega) hk.1 hk.2

theorem Clean.extend_native (hn : 0 < n) (h64 : n ≤ 64) (h : n ≤ m) {x : Bits n s} (hx : x.Clean) :
    (x.extend m).Clean := by
  by_cases hm : m ≤ 64
  · rw [clean_native hm, nv_extend hn h hm, (clean_native h64 x).1 hx,
      extend_native_num hn h64 h hx]
  · rw [clean_big hm, Big.clean_iff]
    intro i hi
    rw [← raw_big hm, raw_extend_wide hm h64, if_neg (by omega)]
    simp [show ¬ i < m by omega]

end Bits
end Verif
