import Verif.Lemmas.Arith

/-! Equality and order of stored values. -/

namespace Verif

theorem numOf_inj {n : Nat} {s : Bool} {a b : BitVec n} : numOf s a = numOf s b ↔ a = b := by
  rw [numOf, numOf]
  split_ifs
  · exact BitVec.toInt_inj
  · constructor
    · intro h; exact BitVec.eq_of_toNat_eq (by exact_mod_cast h)
    · intro h; rw [h]

namespace Bits

variable {n m : Nat} {s t : Bool}

theorem eq_same_sign (h : n ≤ 64) {x y : Bits n s} (hx : x.Clean) (hy : y.Clean) :
    x.eq y = decide (x.bv = y.bv) := by
  rw [eq_native h h, nv_conv h, (clean_native h x).1 hx, (clean_native h y).1 hy]
  congr 1
  exact propext numOf_inj

theorem full_iff (hn : 0 < n) (h : n ≤ 64) : Full n ↔ hw n = n := by
  rw [Full, hw]; split_ifs <;> omega

theorem eq_mixed (hn : 0 < n) (h : n ≤ 64) (hst : s ≠ t) {x : Bits n s} {y : Bits n t} (hx : x.Clean)
    (hy : y.Clean) : x.eq y = decide (x.bv = y.bv ∧ (hw n = n ∨ x.bv.msb = false)) := by
  have hl := le_hw h
  by_cases h1 : n ≤ 1
  · have e1 : n = 1 := by omega
    subst e1
    have hh : hw 1 = 1 := rfl
    rw [eq_native h h, (clean_native h x).1 hx, (clean_native h y).1 hy]
    have e : ∀ (b : BitVec 1) u, numOf u b = b.toNat := by intro b u; simp [numOf]
    rw [e, e, holderTy_one (by decide)]
    have hb := y.bv.isLt
    have hc : CTy.bool.conv (y.bv.toNat : Int) = y.bv.toNat := by
      rw [CTy.conv]; split_ifs <;> omega
    rw [hc]
    congr 1
    apply propext
    simp only [hh, true_or, and_true]
    constructor
    · intro h; exact BitVec.eq_of_toNat_eq (by exact_mod_cast h)
    · intro h; rw [h]
  · rw [eq_native h h, (clean_native h x).1 hx, (clean_native h y).1 hy, holderTy_ge h1]
    congr 1
    apply propext
    have hp : (2 : Int) ^ n ≤ 2 ^ hw n := pow_mono hl
    have bx := x.bv.isLt
    have by' := y.bv.isLt
    have bx' : (x.bv.toNat : Int) < 2 ^ n := by exact_mod_cast bx
    have by'' : (y.bv.toNat : Int) < 2 ^ n := by exact_mod_cast by'
    have hn1 : (2 : Int) ^ n = 2 * 2 ^ (n - 1) := by
      rw [← pow_succ']; congr 1; omega
    have hn2 : 2 ^ n = 2 * 2 ^ (n - 1) := by
      rw [← pow_succ']; congr 1; omega
    have hinj : x.bv = y.bv ↔ (x.bv.toNat : Int) = y.bv.toNat := by
      constructor
      · intro h; rw [h]
      · intro h; exact BitVec.eq_of_toNat_eq (by exact_mod_cast h)
    have tox : x.bv.toInt = if x.bv.msb then (x.bv.toNat : Int) - 2 ^ n else x.bv.toNat := by
      rw [BitVec.toInt_eq_msb_cond]; norm_cast
    have toy : y.bv.toInt = if y.bv.msb then (y.bv.toNat : Int) - 2 ^ n else y.bv.toNat := by
      rw [BitVec.toInt_eq_msb_cond]; norm_cast
    have mx := BitVec.msb_eq_decide x.bv
    cases s <;> cases t <;> first | exact absurd rfl hst | skip
    · -- unsigned left operand
      simp only [numOf, Bool.false_and, Bool.false_eq_true, if_false, Bool.true_and, h1, decide_false,
        Bool.not_false, if_true]
      have hm := CTy.conv_mod (w := hw n) (sg := false) y.bv.toInt
      rw [toy] at hm ⊢
      by_cases hb : y.bv.msb = true
      · rw [if_pos hb] at hm ⊢
        have h0 : (CTy.int (hw n) false).conv ((y.bv.toNat : Int) - 2 ^ n) =
            y.bv.toNat - 2 ^ n + 2 ^ hw n := by
          rw [CTy.conv, show ((2 ^ hw n : Nat) : Int) = 2 ^ hw n by norm_cast]
          rw [← Int.add_emod_right]
          exact Int.emod_eq_of_lt (by omega) (by omega)
        rw [h0]
        constructor
        · intro e
          have hh2 : n = hw n := by
            by_contra hne
            have : (2 : Int) ^ (n + 1) ≤ 2 ^ hw n := pow_mono (by omega)
            rw [pow_succ] at this
            omega
          have hh : (2 : Int) ^ n = 2 ^ hw n := by rw [← hh2]
          exact ⟨hinj.2 (by omega), Or.inl hh2.symm⟩
        · rintro ⟨e, hh | hh⟩
          · rw [hh, e]; omega
          · rw [e, hb] at hh; exact absurd hh (by decide)
      · rw [if_neg hb]
        rw [CTy.conv_unsigned_of_lt (by omega) (by omega)]
        constructor
        · intro e
          have e' := hinj.2 e
          exact ⟨e', Or.inr (by rw [e']; simpa using hb)⟩
        · rintro ⟨e, _⟩; exact hinj.1 e
    · -- signed left operand
      simp only [numOf, Bool.false_and, Bool.false_eq_true, if_false, Bool.true_and, h1, decide_false,
        Bool.not_false, if_true]
      by_cases hf : hw n = n
      · rw [hf]
        have : (CTy.int n true).conv (y.bv.toNat : Int) = y.bv.toInt := by
          rw [CTy.conv, BitVec.toInt_eq_toNat_bmod]
        rw [this, BitVec.toInt_inj]
        simp
      · have hlt : (2 : Int) ^ n ≤ 2 ^ (hw n - 1) := pow_mono (by omega)
        rw [CTy.conv_signed_of_mem (hw_pos n) (by omega) (by omega)]
        rw [tox, hinj]
        by_cases hb : x.bv.msb = true
        · rw [if_pos hb]; constructor
          · intro e; omega
          · rintro ⟨_, e | e⟩
            · exact absurd e hf
            · rw [hb] at e; exact absurd e (by decide)
        · rw [if_neg hb]
          constructor
          · intro e; exact ⟨e, Or.inr (by simpa using hb)⟩
          · exact fun e => e.1

theorem eq_wide (h : ¬ n ≤ 64) (hst : (s && t) = false) {x : Bits n s} {y : Bits n t} (hx : x.Clean)
    (hy : y.Clean) : x.eq y = decide (x.bv = y.bv) := by
  rw [eq, dif_neg h, dif_neg h, Big.eq_same hst]
  rw [clean_big h] at hx hy
  rw [bv_big h, bv_big h, ← hx.toNat_bv, ← hy.toNat_bv]
  congr 1
  exact propext BitVec.toNat_inj

/-- equality of equally wide clean operands -/
theorem eq_clean (hn : 0 < n) (hc : ¬ (s = true ∧ t = true ∧ 64 < n)) {x : Bits n s} {y : Bits n t}
    (hx : x.Clean) (hy : y.Clean) :
    x.eq y = decide (x.bv = y.bv ∧ (s = t ∨ Full n ∨ x.bv.msb = false ∨ 64 < n)) := by
  by_cases h : n ≤ 64
  · by_cases hst : s = t
    · subst hst
      rw [eq_same_sign h hx hy]; simp
    · rw [eq_mixed hn h hst hx hy]
      congr 1
      apply propext
      rw [full_iff hn h]
      simp only [hst, false_or, show ¬ 64 < n by omega, or_false]
  · have : (s && t) = false := by
      cases s <;> cases t <;> simp at hc ⊢; omega
    rw [eq_wide h this hx hy]
    simp [show 64 < n by omega]

/-! ### different widths, unsigned -/

theorem eq_unsigned_native (h : n ≤ 64) (h1 : 1 < n) (hm : m ≤ 64) {x : Bits n false} {y : Bits m false}
    (hx : x.Clean) (hy : y.Clean) : x.eq y = decide (x.bv.toNat = y.bv.toNat % 2 ^ hw n) := by
  rw [eq_native h hm, clean_unsigned_num h hx, clean_unsigned_num hm hy, holderTy_ge (by omega), CTy.conv]
  congr 1
  apply propext
  norm_cast

theorem eq_unsigned_one (hm : m ≤ 64) {x : Bits 1 false} {y : Bits m false}
    (hx : x.Clean) (hy : y.Clean) : x.eq y = decide (x.bv.toNat = min 1 y.bv.toNat) := by
  rw [eq_native (by decide) hm, clean_unsigned_num (by decide) hx, clean_unsigned_num hm hy,
    holderTy_one (by decide), CTy.conv]
  congr 1
  apply propext
  split_ifs <;> omega

theorem eq_wide_native (h : ¬ n ≤ 64) (hm : m ≤ 64) {x : Bits n false} {y : Bits m false}
    (hx : x.Clean) (hy : y.Clean) :
    x.eq y = decide (x.bv.toNat = y.bv.toNat) ∧ y.eq x = decide (y.bv.toNat = x.bv.toNat) := by
  have hb := y.bv.isLt
  have hp : 2 ^ m ≤ 2 ^ 64 := Nat.pow_le_pow_right (by decide) hm
  have e : (BitVec.ofInt 64 y.nv.v).toNat = y.bv.toNat := by
    rw [clean_unsigned_num hm hy]
    simp
    omega
  have hx' := hx
  rw [clean_big h] at hx'
  constructor
  · rw [eq, dif_neg h, dif_pos hm, Big.eqNum_spec (by omega), bv_big h, hx'.toNat_bv, e]
  · rw [eq, dif_pos hm, dif_neg h, Big.eqNum_spec (by omega), bv_big h, hx'.toNat_bv, e]
    congr 1
    exact propext eq_comm

end Bits

namespace Big

variable {n m : Nat} {s t : Bool}

theorem pre_eq_val_iff (x : Big n s) (k : Nat) : val x.vals = x.pre k ↔ ∀ i, k ≤ i → x.limb i = 0 := by
  have key : ∀ j, x.pre (k + j) = x.pre k ↔ ∀ i, k ≤ i → i < k + j → x.limb i = 0 := by
    intro j
    have mono : ∀ j, x.pre k ≤ x.pre (k + j) := by
      intro j
      induction j with
      | zero => exact Nat.le_refl _
      | succ j ih => rw [← Nat.add_assoc, pre_succ]; exact Nat.le_trans ih (Nat.le_add_right _ _)
    induction j with
    | zero => simp; intro i h1 h2; omega
    | succ j ih =>
      rw [← Nat.add_assoc, pre_succ]
      have hm := mono j
      have hp : 0 < 2 ^ (64 * (k + j)) := Nat.pow_pos (by decide)
      constructor
      · intro h i h1 h2
        have hz : 2 ^ (64 * (k + j)) * (x.limb (k + j)).toNat = 0 := by omega
        have e : x.pre (k + j) = x.pre k := by omega
        by_cases hi : i = k + j
        · subst hi
          rcases Nat.mul_eq_zero.1 hz with h | h
          · omega
          · exact BitVec.eq_of_toNat_eq (by simpa using h)
        · exact ih.1 e i h1 (by omega)
      · intro h
        rw [ih.2 fun i h1 h2 => h i h1 (by omega), h (k + j) (by omega) (by omega)]
        simp
  have := key (limbs n)
  rw [pre_of_ge x (k := k + limbs n) (by omega)] at this
  rw [this]
  constructor
  · intro h i hi
    by_cases hl : i < k + limbs n
    · exact h i hi hl
    · exact x.limb_of_ge (by omega)
  · intro h i hi _; exact h i hi

theorem reduceOr_visible {x : Big n s} (hx : x.Visible) (k : Nat) :
    (reduceOr (x.vals.drop k) == 0) = decide (val x.vals = x.pre k) := by
  rw [Bool.eq_iff_iff, decide_eq_true_iff, reduceOr_drop, pre_eq_val_iff]
  constructor
  · intro h i hi
    by_contra hne
    obtain ⟨j, hj, hb⟩ := hx i hne
    rw [h i hi j hj] at hb
    exact absurd hb (by decide)
  · intro h i hi j _; rw [h i hi]; simp

theorem eq_visible (hst : (s && t) = false) {x : Big n s} {y : Big m t} (hx : x.Visible) (hy : y.Visible) :
    x.eq y = decide (val x.vals = val y.vals) := by
  rw [eq, if_neg (by simp [hst])]
  have aux : ∀ {a b : Nat} {u v : Bool} (p : Big a u) (q : Big b v), p.Visible → limbs b ≤ limbs a →
      ((p.pre (limbs b) = q.pre (limbs b) ∧ val p.vals = p.pre (limbs b)) ↔ val p.vals = val q.vals) := by
    intro a b u v p q _ _
    rw [pre_limbs q]
    constructor
    · rintro ⟨h1, h2⟩; omega
    · intro h
      have : val p.vals = p.pre (limbs b) := by
        rw [pre_eq_val_iff]
        intro i hi
        by_contra hne
        have hlt := q.val_lt'
        rw [← h] at hlt
        exact absurd (Bits.limb_lt hne hlt) (by omega)
      exact ⟨by omega, this⟩
  by_cases hl : limbs n ≥ limbs m
  · rw [if_pos hl, eqUpTo_spec]
    have := aux x y hx hl
    by_cases he : limbs n = limbs m
    · rw [if_pos he]
      by_cases e : x.pre (limbs m) = y.pre (limbs m)
      · have e' : val x.vals = val y.vals := by
          rw [← pre_limbs x, ← pre_limbs y, he]; exact e
        simp [e, e']
      · have e' : ¬ val x.vals = val y.vals := by
          rw [← pre_limbs x, ← pre_limbs y, he]; exact e
        simp [e, e']
    · rw [if_neg he, reduceOr_visible hx]
      by_cases e : x.pre (limbs m) = y.pre (limbs m)
      · rw [Bool.eq_iff_iff, decide_eq_true_iff (p := val x.vals = val y.vals), ← this]
        simp [e]
      · rw [Bool.eq_iff_iff, decide_eq_true_iff (p := val x.vals = val y.vals), ← this]
        simp [e]
  · rw [if_neg hl, eqUpTo_spec, reduceOr_visible hy]
    have := aux y x hy (by omega)
    rw [Bool.eq_iff_iff, decide_eq_true_iff (p := val x.vals = val y.vals), eq_comm (a := val x.vals), ← this]
    by_cases e : x.pre (limbs n) = y.pre (limbs n)
    · simp [e]
    · simp [e, Ne.symm e]

/-! ### signed order -/

theorem negative_eq (x : Big n s) (hn : 0 < n) : x.negative = x.bv.msb := by
  rw [negative, ← getLsbD_bv, BitVec.msb_eq_getLsbD_last]

theorem negate_negate (hn : 0 < n) (x : Big n s) : x.negate.negate = x := by
  apply ext'
  apply val_inj
  · rw [x.negate.negate.len, x.len]
  · rw [negate_spec hn, negate_spec hn]
    have h := x.val_lt'
    generalize hN : 2 ^ (64 * limbs n) = N at *
    by_cases h0 : val x.vals = 0
    · rw [h0]; simp
    · rw [Nat.mod_eq_of_lt (show N - val x.vals < N by omega),
        Nat.mod_eq_of_lt (show N - (N - val x.vals) < N by omega)]
      omega

theorem gtS_min (hn : 0 < n) (fuel : Nat) : ∀ (x y : Big n true), x.bv.msb = true → y.bv.msb = true →
    x.negate.bv.msb = true → y.negate.bv.msb = true → gtS fuel x y = .error .diverge := by
  induction fuel with
  | zero => intros; rfl
  | succ k ih =>
    intro x y h1 h2 h3 h4
    rw [gtS, negative_eq x hn, negative_eq y hn, h1, h2]
    exact ih y.negate x.negate h4 h3 (by rw [negate_negate hn]; exact h2) (by rw [negate_negate hn]; exact h1)

theorem msb_negate (hn : 0 < n) (x : Big n s) (hm : x.bv.msb = true) :
    x.negate.bv.msb = decide (x.bv = BitVec.intMin n) := by
  rw [bv_negate hn, BitVec.msb_neg, hm]
  have : x.bv ≠ 0#n := by rintro e; rw [e] at hm; simp at hm
  by_cases e : x.bv = BitVec.intMin n <;> simp [e, this]

theorem toInt_eq (b : BitVec n) : b.toInt = if b.msb then (b.toNat : Int) - 2 ^ n else b.toNat := by
  rw [BitVec.toInt_eq_msb_cond]; norm_cast

/-- signed `>` when no negation of the least number is involved -/
theorem gt_signed (hn : 0 < n) {x y : Big n true} (hx : x.Clean) (hy : y.Clean)
    (hmin : x.bv.msb = true → y.bv.msb = true → x.bv ≠ BitVec.intMin n ∧ y.bv ≠ BitVec.intMin n) :
    x.gt y = .ok (decide (y.bv.toInt < x.bv.toInt)) := by
  rw [gt, if_pos (by rfl)]
  show gtS (3 + 1) x y = _
  have bx := x.bv.isLt
  have by' := y.bv.isLt
  have bx' : (x.bv.toNat : Int) < 2 ^ n := by exact_mod_cast bx
  have by'' : (y.bv.toNat : Int) < 2 ^ n := by exact_mod_cast by'
  rw [gtS, negative_eq x hn, negative_eq y hn, toInt_eq, toInt_eq]
  cases h1 : x.bv.msb <;> cases h2 : y.bv.msb
  · show Except.ok _ = _
    rw [gtMag_spec, ← hx.toNat_bv, ← hy.toNat_bv]
    simp
  · show Except.ok true = _
    congr 1; symm; rw [decide_eq_true_iff, if_pos rfl, if_neg (by decide)]; omega
  · show Except.ok false = _
    congr 1; symm; rw [decide_eq_false_iff_not, if_pos rfl, if_neg (by decide)]; omega
  · obtain ⟨e1, e2⟩ := hmin h1 h2
    show gtS (2 + 1) y.negate x.negate = _
    rw [gtS, negative_eq _ hn, negative_eq _ hn, msb_negate hn x h1, msb_negate hn y h2, decide_eq_false e1,
      decide_eq_false e2]
    show Except.ok _ = _
    rw [gtMag_spec, negate_spec hn, negate_spec hn]
    have lx := x.val_lt'
    have ly := y.val_lt'
    have nx : val x.vals ≠ 0 := by
      rw [← hx.toNat_bv]; intro e
      have : x.bv = 0#n := BitVec.eq_of_toNat_eq (by simpa using e)
      rw [this] at h1; simp at h1
    have ny : val y.vals ≠ 0 := by
      rw [← hy.toNat_bv]; intro e
      have : y.bv = 0#n := BitVec.eq_of_toNat_eq (by simpa using e)
      rw [this] at h2; simp at h2
    rw [hx.toNat_bv, hy.toNat_bv]
    generalize 2 ^ (64 * limbs n) = N at *
    rw [Nat.mod_eq_of_lt (by omega), Nat.mod_eq_of_lt (by omega)]
    congr 1
    rw [Bool.eq_iff_iff, decide_eq_true_iff, decide_eq_true_iff, if_pos rfl, if_pos rfl]
    omega

theorem gt_min (hn : 0 < n) {x y : Big n true} (h1 : x.bv.msb = true) (h2 : y.bv.msb = true) :
    (x.bv = BitVec.intMin n → y.bv ≠ BitVec.intMin n → x.gt y = .ok true) ∧
    (x.bv ≠ BitVec.intMin n → y.bv = BitVec.intMin n → x.gt y = .ok false) ∧
    (x.bv = BitVec.intMin n → y.bv = BitVec.intMin n → ∀ fuel, gtS fuel x y = .error .diverge) := by
  refine ⟨fun e1 e2 => ?_, fun e1 e2 => ?_, fun e1 e2 fuel => ?_⟩
  · rw [gt, if_pos (by rfl)]
    show gtS (3 + 1) x y = _
    rw [gtS, negative_eq x hn, negative_eq y hn, h1, h2]
    show gtS (2 + 1) y.negate x.negate = _
    rw [gtS, negative_eq _ hn, negative_eq _ hn, msb_negate hn x h1, msb_negate hn y h2, decide_eq_true e1,
      decide_eq_false e2]
    rfl
  · rw [gt, if_pos (by rfl)]
    show gtS (3 + 1) x y = _
    rw [gtS, negative_eq x hn, negative_eq y hn, h1, h2]
    show gtS (2 + 1) y.negate x.negate = _
    rw [gtS, negative_eq _ hn, negative_eq _ hn, msb_negate hn x h1, msb_negate hn y h2, decide_eq_false e1,
      decide_eq_true e2]
    rfl
  · apply gtS_min hn fuel x y h1 h2
    · rw [msb_negate hn x h1, decide_eq_true e1]
    · rw [msb_negate hn y h2, decide_eq_true e2]

end Big

namespace Bits

variable {n m : Nat} {s t : Bool}

/-- the four native order operators on operands of the same signedness -/
theorem order_native (hn : n ≤ 64) (hm : m ≤ 64) (x : Bits n s) (y : Bits m s) :
    x.gt y = .ok (decide (y.nv.v < x.nv.v)) ∧ x.lt y = .ok (decide (x.nv.v < y.nv.v)) ∧
    x.ge y = .ok (decide (y.nv.v ≤ x.nv.v)) ∧ x.le y = .ok (decide (x.nv.v ≤ y.nv.v)) := by
  refine ⟨?_, ?_, ?_, ?_⟩
  · rw [gt, dif_pos hn, if_pos hm, TV.gt, cmpNat_same hn hm]
  · rw [lt, dif_pos hn, if_pos hm, TV.lt, cmpNat_same hn hm]
  · rw [ge, dif_pos hn, if_pos hm, TV.ge, cmpNat_same hn hm]
  · rw [le, dif_pos hn, if_pos hm, TV.le, cmpNat_same hn hm]

theorem order_wide (hn : ¬ n ≤ 64) (hm : ¬ m ≤ 64) (hst : (s && t) = false) {x : Bits n s} {y : Bits m t}
    (hx : x.Clean) (hy : y.Clean) :
    x.gt y = .ok (decide (y.bv.toNat < x.bv.toNat)) ∧ x.lt y = .ok (decide (x.bv.toNat < y.bv.toNat)) := by
  rw [clean_big hn] at hx
  rw [clean_big hm] at hy
  have hts : (t && s) = false := by rw [Bool.and_comm]; exact hst
  constructor
  · rw [gt, dif_neg hn, dif_neg hm, Big.gt, if_neg (by simp [hst]), Big.gtMag_spec, bv_big hn, bv_big hm,
      hx.toNat_bv, hy.toNat_bv]
  · rw [lt, dif_neg hn, dif_neg hm, Big.lt, Big.gt, if_neg (by simp [hts]), Big.gtMag_spec, bv_big hn,
      bv_big hm, hx.toNat_bv, hy.toNat_bv]

theorem eq_wide_visible (hn : ¬ n ≤ 64) (hm : ¬ m ≤ 64) (hst : (s && t) = false) {x : Bits n s} {y : Bits m t}
    (hx : x.Clean) (hy : y.Clean) (hv : limbs n = limbs m ∨ LowHalves x.bv ∧ LowHalves y.bv) :
    x.eq y = decide (x.bv.toNat = y.bv.toNat) := by
  rw [clean_big hn] at hx
  rw [clean_big hm] at hy
  rw [eq, dif_neg hn, dif_neg hm]
  rw [bv_big hn, bv_big hm] at hv ⊢
  rw [hx.toNat_bv, hy.toNat_bv]
  rcases hv with h | ⟨h1, h2⟩
  · exact Big.eq_limbs hst h _ _
  · exact Big.eq_visible hst (visible_of hx h1) (visible_of hy h2)

theorem big_ge_spec {x : Big n s} {y : Big m t} {a b : Nat} (hgt : x.gt y = .ok (decide (b < a)))
    (heq : x.eq y = decide (a = b)) : x.ge y = .ok (decide (b ≤ a)) := by
  rw [Big.ge, hgt]
  by_cases h : b < a
  · rw [decide_eq_true h]
    show Except.ok true = _
    rw [decide_eq_true (Nat.le_of_lt h)]
  · rw [decide_eq_false h]
    show Except.ok _ = _
    rw [heq]
    congr 1
    rw [Bool.eq_iff_iff, decide_eq_true_iff, decide_eq_true_iff]
    omega

theorem order_eq_wide (hn : ¬ n ≤ 64) (hm : ¬ m ≤ 64) (hst : (s && t) = false) {x : Bits n s} {y : Bits m t}
    (hx : x.Clean) (hy : y.Clean) (hv : limbs n = limbs m ∨ LowHalves x.bv ∧ LowHalves y.bv) :
    x.ge y = .ok (decide (y.bv.toNat ≤ x.bv.toNat)) ∧ x.le y = .ok (decide (x.bv.toNat ≤ y.bv.toNat)) := by
  have hts : (t && s) = false := by rw [Bool.and_comm]; exact hst
  have h1 := (order_wide hn hm hst hx hy).1
  have h2 := (order_wide hm hn hts hy hx).1
  have h3 := eq_wide_visible hn hm hst hx hy hv
  have h4 := eq_wide_visible hm hn hts hy hx (hv.imp Eq.symm And.symm)
  rw [gt, dif_neg hn, dif_neg hm] at h1
  rw [gt, dif_neg hm, dif_neg hn] at h2
  rw [eq, dif_neg hn, dif_neg hm] at h3
  rw [eq, dif_neg hm, dif_neg hn] at h4
  exact ⟨by rw [ge, dif_neg hn, dif_neg hm]; exact big_ge_spec h1 h3,
    by rw [le, dif_neg hn, dif_neg hm, Big.le]; exact big_ge_spec h2 h4⟩

end Bits
end Verif
