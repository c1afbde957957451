import Verif.Lemmas.BigOps

/-! Arithmetic and comparison of limb arrays as numbers. -/

namespace Verif
namespace Big

variable {n m : Nat} {s t : Bool}

/-- the number in the lowest `k` limbs -/
def pre (x : Big n s) (k : Nat) : Nat := val (x.vals.take k)

theorem pre_zero (x : Big n s) : x.pre 0 = 0 := by simp [pre, val]

theorem pre_succ (x : Big n s) (k : Nat) :
    x.pre (k + 1) = x.pre k + 2 ^ (64 * k) * (x.limb k).toNat := by
  by_cases hk : k < x.vals.length
  · rw [pre, pre, List.take_succ_eq_append_getElem hk, val_append]
    have : (x.vals.take k).length = k := by simp; omega
    rw [this, limb, List.getD_eq_getElem _ _ hk]
    simp [val]
  · have h0 : x.limb k = 0 := by
      rw [limb, List.getD_eq_default]; omega
    rw [h0, pre, pre, List.take_of_length_le (by omega), List.take_of_length_le (by omega)]
    simp

theorem pre_of_ge (x : Big n s) {k : Nat} (hk : limbs n ≤ k) : x.pre k = val x.vals := by
  rw [pre, List.take_of_length_le (by rw [x.len]; exact hk)]

theorem pre_limbs (x : Big n s) : x.pre (limbs n) = val x.vals := x.pre_of_ge (Nat.le_refl _)

theorem pre_lt (x : Big n s) (k : Nat) : x.pre k < 2 ^ (64 * k) := by
  induction k with
  | zero => simp [pre_zero]
  | succ k ih =>
    rw [pre_succ]
    have h1 : (x.limb k).toNat ≤ 2 ^ 64 - 1 := by have := (x.limb k).isLt; omega
    have h2 : 2 ^ (64 * k) * (x.limb k).toNat ≤ 2 ^ (64 * k) * (2 ^ 64 - 1) :=
      Nat.mul_le_mul_left _ h1
    have h3 : 2 ^ (64 * (k + 1)) = 2 ^ (64 * k) * 2 ^ 64 := by rw [← Nat.pow_add]; congr 1
    rw [h3]
    have h4 : 2 ^ (64 * k) * (2 ^ 64 - 1) = 2 ^ (64 * k) * 2 ^ 64 - 2 ^ (64 * k) := by
      rw [Nat.mul_sub]; simp
    have h5 : 2 ^ (64 * k) ≤ 2 ^ (64 * k) * 2 ^ 64 := Nat.le_mul_of_pos_right _ (by decide)
    omega

theorem pre_setLimb (x : Big n s) (i k : Nat) (v : BitVec 64) (h : k ≤ i) :
    (x.setLimb i v).pre k = x.pre k := by
  rw [pre, pre, setLimb]
  simp only
  rw [List.take_set_of_le h]

theorem val_ofU64 (hn : 0 < n) (v : BitVec 64) : val (ofU64 v : Big n s).vals = v.toNat := by
  have hl : 0 < limbs n := by have := le_limbs n; omega
  simp only [ofU64, setLimb, zero]
  obtain ⟨k, hk⟩ : ∃ k, limbs n = k + 1 := ⟨limbs n - 1, by omega⟩
  rw [hk, List.replicate_succ, List.set_cons_zero, val, val_replicate_zero]
  simp

theorem limb_mod_pre (x : Big n s) (k : Nat) : x.pre 1 = (x.limb 0).toNat := by
  rw [pre_succ, pre_zero]; simp

/-! ### addition -/

theorem add_spec (x : Big n s) (y : Big n t) :
    val (x.add y).vals = (val x.vals + val y.vals) % 2 ^ (64 * limbs n) := by
  have key := loop_induct 0 (limbs n) ((0 : BitVec 128), (zero : Big n (s && t))) (fun i st =>
    let v := st.1 + (x.limb i).setWidth 128 + (y.limb i).setWidth 128
    (v >>> 64, st.2.setLimb i (((v <<< 64) >>> 64).setWidth 64)))
    (fun k st => st.1.toNat ≤ 1 ∧
      st.2.pre k + 2 ^ (64 * k) * st.1.toNat = x.pre k + y.pre k)
    (Nat.zero_le _) (by simp [pre_zero]) ?_
  · obtain ⟨h1, h2⟩ := key
    rw [pre_limbs, pre_limbs, pre_limbs] at h2
    rw [← h2, Nat.add_mul_mod_self_left, Nat.mod_eq_of_lt]
    · rfl
    · exact val_lt' _
  · rintro i ⟨c, r⟩ - hi ⟨h1, h2⟩
    simp only at h1 h2 ⊢
    have hx := (x.limb i).isLt
    have hy := (y.limb i).isLt
    have hv : (c + (x.limb i).setWidth 128 + (y.limb i).setWidth 128).toNat =
        c.toNat + (x.limb i).toNat + (y.limb i).toNat := by
      simp only [BitVec.toNat_add, BitVec.toNat_setWidth]
      omega
    generalize hV : c + (x.limb i).setWidth 128 + (y.limb i).setWidth 128 = v at *
    have hvlt : v.toNat < 2 ^ 66 := by omega
    have hs : (v >>> 64).toNat = v.toNat / 2 ^ 64 := by
      rw [BitVec.toNat_ushiftRight, Nat.shiftRight_eq_div_pow]
    have hl : (((v <<< 64) >>> 64).setWidth 64).toNat = v.toNat % 2 ^ 64 := by
      simp only [BitVec.toNat_setWidth, BitVec.toNat_ushiftRight, BitVec.toNat_shiftLeft,
        Nat.shiftRight_eq_div_pow, Nat.shiftLeft_eq]
      omega
    refine ⟨by rw [hs]; omega, ?_⟩
    rw [pre_succ, pre_setLimb _ _ _ _ (Nat.le_refl _), limb_setLimb, pre_succ, pre_succ]
    rw [if_pos ⟨rfl, hi⟩, hs, hl]
    have e : 2 ^ (64 * (i + 1)) = 2 ^ (64 * i) * 2 ^ 64 := by rw [← Nat.pow_add]; congr 1
    rw [e, Nat.mul_assoc, Nat.add_assoc, ← Nat.mul_add]
    have := Nat.mod_add_div v.toNat (2 ^ 64)
    rw [this, hv]
    rw [Nat.mul_add, Nat.mul_add]
    omega

theorem not_spec (x : Big n s) : val x.not.vals + val x.vals + 1 = 2 ^ (64 * limbs n) := by
  have : ∀ k, k ≤ limbs n → x.not.pre k + x.pre k + 1 = 2 ^ (64 * k) := by
    intro k
    induction k with
    | zero => intro _; simp [pre_zero]
    | succ k ih =>
      intro hk
      have := ih (by omega)
      rw [pre_succ, pre_succ, limb_not _ _ (by omega)]
      have e : 2 ^ (64 * (k + 1)) = 2 ^ (64 * k) * 2 ^ 64 := by rw [← Nat.pow_add]; congr 1
      have hx := (x.limb k).isLt
      have h2 : (~~~ x.limb k).toNat + (x.limb k).toNat + 1 = 2 ^ 64 := by
        rw [BitVec.toNat_not]; omega
      rw [e, ← h2, ← this]
      ring
  have h := this _ (Nat.le_refl _)
  rwa [pre_limbs, pre_limbs] at h

theorem negate_spec (hn : 0 < n) (x : Big n s) :
    val x.negate.vals = (2 ^ (64 * limbs n) - val x.vals) % 2 ^ (64 * limbs n) := by
  have h : val x.negate.vals = val (x.not.add (ofU64 1 : Big n false)).vals := rfl
  rw [h, add_spec, val_ofU64 hn]
  have := x.not_spec
  congr 1
  rw [show (1 : BitVec 64).toNat = 1 from rfl]
  omega

theorem sub_spec (hn : 0 < n) (x : Big n s) (y : Big n t) :
    val (x.sub y).vals =
      (val x.vals + (2 ^ (64 * limbs n) - val y.vals)) % 2 ^ (64 * limbs n) := by
  rw [sub, add_spec, negate_spec hn]
  simp

theorem two_pow_dvd (n : Nat) : 2 ^ n ∣ 2 ^ (64 * limbs n) :=
  Nat.pow_dvd_pow 2 (by have := le_limbs n; omega)

theorem bv_toNat (x : Big n s) : x.bv.toNat = val x.vals % 2 ^ n := x.toNat_bv

theorem bv_add (x : Big n s) (y : Big n t) : (x.add y).bv = x.bv + y.bv := by
  apply BitVec.eq_of_toNat_eq
  rw [BitVec.toNat_add, toNat_bv, toNat_bv, toNat_bv, add_spec,
    Nat.mod_mod_of_dvd _ (two_pow_dvd n), ← Nat.add_mod]

theorem bv_not (hn : 0 < n) (x : Big n s) : x.not.bv = ~~~ x.bv := by
  apply BitVec.eq_of_getLsbD_eq
  intro i hi
  rw [getLsbD_bv, get_not x i hi, BitVec.getLsbD_not, getLsbD_bv]
  simp [hi]

theorem bv_ofU64 (hn : 0 < n) (v : BitVec 64) : (ofU64 v : Big n s).bv = v.setWidth n := by
  apply BitVec.eq_of_toNat_eq
  rw [toNat_bv, val_ofU64 hn, BitVec.toNat_setWidth]

theorem bv_negate (hn : 0 < n) (x : Big n s) : x.negate.bv = - x.bv := by
  have h : x.negate.bv = (x.not.add (ofU64 1 : Big n false)).bv := rfl
  rw [h, bv_add, bv_not hn, bv_ofU64 hn, BitVec.neg_eq_not_add]
  congr 1
  apply BitVec.eq_of_toNat_eq
  simp

theorem bv_sub (hn : 0 < n) (x : Big n s) (y : Big n t) : (x.sub y).bv = x.bv - y.bv := by
  rw [sub, bv_add, bv_negate hn, BitVec.sub_eq_add_neg]

/-! ### order -/

theorem gtLoop_spec (x : Big n s) (y : Big m t) (k : Nat) :
    gtLoop x y k = decide (y.pre k < x.pre k) := by
  induction k with
  | zero => simp [gtLoop, pre_zero]
  | succ k ih =>
    rw [gtLoop, ih, pre_succ, pre_succ]
    have hx := x.pre_lt k
    have hy := y.pre_lt k
    -- comparing a leading limb decides
    have lead : ∀ a b p q : Nat, p < 2 ^ (64 * k) → q < 2 ^ (64 * k) → a < b →
        p + 2 ^ (64 * k) * a < q + 2 ^ (64 * k) * b := by
      intro a b p q hp hq hab
      have : 2 ^ (64 * k) * (a + 1) ≤ 2 ^ (64 * k) * b := Nat.mul_le_mul_left _ hab
      rw [Nat.mul_add] at this
      omega
    by_cases h1 : k ≥ limbs n
    · have e : x.limb k = 0 := limb_of_ge x h1
      rw [if_pos h1, e]
      by_cases h2 : y.limb k = 0
      · simp [h2]
      · have : 0 < (y.limb k).toNat := by
          rcases Nat.eq_zero_or_pos (y.limb k).toNat with h | h
          · exact absurd (BitVec.eq_of_toNat_eq (by simpa using h)) h2
          · exact h
        have := lead 0 _ _ _ hx hy this
        have hb : (y.limb k != 0) = true := by simpa using h2
        rw [if_pos hb]; symm; apply decide_eq_false
        simp only [BitVec.ofNat_eq_ofNat, BitVec.toNat_ofNat] at *
        omega
    · rw [if_neg h1]
      by_cases h3 : k ≥ limbs m
      · have e : y.limb k = 0 := limb_of_ge y h3
        rw [if_pos h3, e]
        by_cases h2 : x.limb k = 0
        · simp [h2]
        · have : 0 < (x.limb k).toNat := by
            rcases Nat.eq_zero_or_pos (x.limb k).toNat with h | h
            · exact absurd (BitVec.eq_of_toNat_eq (by simpa using h)) h2
            · exact h
          have := lead 0 _ _ _ hy hx this
          have hb : (x.limb k != 0) = true := by simpa using h2
          rw [if_pos hb]; symm; apply decide_eq_true
          simp only [BitVec.ofNat_eq_ofNat, BitVec.toNat_ofNat] at *
          omega
      · rw [if_neg h3]
        by_cases h2 : x.limb k = y.limb k
        · simp [h2]
        · have hne : (x.limb k).toNat ≠ (y.limb k).toNat := fun h => h2 (BitVec.eq_of_toNat_eq h)
          have : (x.limb k != y.limb k) = true := by simp [h2]
          rw [if_pos this]
          congr 1
          rw [BitVec.lt_def]
          apply propext
          rcases Nat.lt_or_gt_of_ne hne with h | h
          · have := lead _ _ _ _ hx hy h
            omega
          · have := lead _ _ _ _ hy hx h
            omega

theorem gtMag_spec (x : Big n s) (y : Big m t) :
    gtMag x y = decide (val y.vals < val x.vals) := by
  rw [gtMag, gtLoop_spec, pre_of_ge x (by omega), pre_of_ge y (by omega)]

/-! ### equality -/

theorem pre_eq_iff (x : Big n s) (y : Big m t) (k : Nat) :
    x.pre k = y.pre k ↔ ∀ i, i < k → x.limb i = y.limb i := by
  induction k with
  | zero => simp [pre_zero]
  | succ k ih =>
    have hx := x.pre_lt k
    have hy := y.pre_lt k
    rw [pre_succ, pre_succ]
    constructor
    · intro h
      have h1 : x.pre k = y.pre k := by
        have := congrArg (· % 2 ^ (64 * k)) h
        simpa [Nat.add_mul_mod_self_left, Nat.mod_eq_of_lt hx, Nat.mod_eq_of_lt hy] using this
      have h2 : (x.limb k).toNat = (y.limb k).toNat := by
        have := congrArg (· / 2 ^ (64 * k)) h
        simpa [Nat.add_mul_div_left, Nat.pow_pos, Nat.div_eq_of_lt hx, Nat.div_eq_of_lt hy]
          using this
      intro i hi
      rcases Nat.lt_succ_iff_lt_or_eq.mp hi with h | rfl
      · exact ih.mp h1 i h
      · exact BitVec.eq_of_toNat_eq h2
    · intro h
      rw [ih.mpr fun i hi => h i (by omega), h k (by omega)]

theorem eqUpTo_spec (k : Nat) (x : Big n s) (y : Big m t) :
    eqUpTo k x y = decide (x.pre k = y.pre k) := by
  rw [Bool.eq_iff_iff, decide_eq_true_iff, pre_eq_iff, eqUpTo]
  simp [List.all_eq_true]

theorem reduceOr_get (l : List (BitVec 64)) (i : Nat) :
    (reduceOr l).getLsbD i = (decide (i < 32) && l.any fun v => v.getLsbD i) := by
  have : ∀ (l : List (BitVec 64)) (a : BitVec 32),
      (l.foldl (fun acc v => (acc.signExtend 64 ||| v).setWidth 32) a).getLsbD i =
        (decide (i < 32) && (a.getLsbD i || l.any fun v => v.getLsbD i)) := by
    intro l
    induction l with
    | nil =>
      intro a
      by_cases h : i < 32
      · simp [h]
      · simp [h, BitVec.getLsbD_of_ge _ _ (by omega : 32 ≤ i)]
    | cons v l ih =>
      intro a
      rw [List.foldl_cons, ih]
      by_cases h : i < 32
      · rw [BitVec.getLsbD_setWidth, BitVec.getLsbD_or, BitVec.getLsbD_signExtend]
        have : i < 64 := by omega
        simp [h, this, Bool.or_assoc]
      · simp [h]
  rw [reduceOr, this]
  simp

theorem reduceOr_eq_zero (l : List (BitVec 64)) :
    (reduceOr l == 0) = true ↔ ∀ v ∈ l, ∀ i, i < 32 → v.getLsbD i = false := by
  rw [beq_iff_eq]
  constructor
  · intro h v hv i hi
    have := congrArg (·.getLsbD i) h
    simp only [reduceOr_get] at this
    simp [hi] at this
    simpa using this v hv
  · intro h
    apply BitVec.eq_of_getLsbD_eq
    intro i hi
    rw [reduceOr_get]
    simp
    intro _ v hv
    simpa using h v hv i hi

theorem eqNum_spec (hn : 0 < n) (x : Big n s) (v : BitVec 64) :
    x.eqNum v = decide (val x.vals = v.toNat) := by
  have hl : 0 < limbs n := by have := le_limbs n; omega
  rw [eqNum, limb]
  obtain ⟨l, hlen⟩ := x
  cases l with
  | nil => simp at hlen; omega
  | cons a l =>
    simp only [List.getD_cons_zero, List.drop_succ_cons, List.drop_zero, val]
    have ha := a.isLt
    have hv := v.isLt
    have hz : (l.all fun c => c == 0) = decide (val l = 0) := by
      rw [Bool.eq_iff_iff, List.all_eq_true, decide_eq_true_iff]
      clear hlen
      induction l with
      | nil => simp [val]
      | cons b l ih =>
        simp only [val, List.mem_cons, forall_eq_or_imp, beq_iff_eq]
        simp only [beq_iff_eq] at ih
        rw [ih]
        constructor
        · rintro ⟨rfl, h⟩; simp [h]
        · intro h
          have h1 : b.toNat = 0 := by omega
          exact ⟨BitVec.eq_of_toNat_eq (by simpa using h1), by omega⟩
    by_cases h : v = a
    · subst h
      simp only [bne_self_eq_false, Bool.false_eq_true, if_false, hz]
      congr 1
      apply propext
      constructor
      · intro h; omega
      · intro h; omega
    · have : (v != a) = true := by simp [h]
      rw [if_pos this]
      symm
      apply decide_eq_false
      intro e
      apply h
      apply BitVec.eq_of_toNat_eq
      omega

theorem eq_limbs (hst : (s && t) = false) (h : limbs n = limbs m) (x : Big n s) (y : Big m t) :
    x.eq y = decide (val x.vals = val y.vals) := by
  rw [eq, if_neg (by simp [hst]), if_pos (by omega), eqUpTo_spec, pre_of_ge x (by omega), pre_of_ge y (by omega)]
  by_cases e : val x.vals = val y.vals <;> simp [e, h]

theorem eq_same (hst : (s && t) = false) (x : Big n s) (y : Big n t) :
    x.eq y = decide (val x.vals = val y.vals) := eq_limbs hst rfl x y

/-- the limbs from `k` on, as seen by `std::reduce` into an `int` -/
theorem reduceOr_drop (x : Big n s) (k : Nat) :
    (reduceOr (x.vals.drop k) == 0) = true ↔
      ∀ i, k ≤ i → ∀ j, j < 32 → (x.limb i).getLsbD j = false := by
  rw [reduceOr_eq_zero]
  constructor
  · intro h i hi j hj
    by_cases hl : i < x.vals.length
    · refine h _ ?_ j hj
      rw [limb, List.getD_eq_getElem _ _ hl, List.mem_iff_getElem]
      refine ⟨i - k, by simp; omega, ?_⟩
      simp only [List.getElem_drop]
      congr 1
      omega
    · rw [limb, List.getD_eq_default _ _ (by omega)]; simp
  · intro h v hv j hj
    rw [List.mem_iff_getElem] at hv
    obtain ⟨i, hi, rfl⟩ := hv
    simp only [List.length_drop] at hi
    have := h (k + i) (by omega) j hj
    rw [limb, List.getD_eq_getElem _ _ (by omega)] at this
    simpa using this

theorem reduceOr_all (x : Big n s) :
    (reduceOr x.vals == 0) = true ↔ ∀ i, i % 64 < 32 → x.raw i = false := by
  have := x.reduceOr_drop 0
  rw [List.drop_zero] at this
  rw [this]
  constructor
  · intro h i hi
    exact h (i / 64) (Nat.zero_le _) (i % 64) hi
  · intro h i _ j hj
    have := h (64 * i + j) (by omega)
    rw [raw] at this
    rwa [show (64 * i + j) / 64 = i by omega, show (64 * i + j) % 64 = j by omega] at this

/-- `any_set()` sees exactly the low half of each limb -/
theorem anySet_spec (x : Big n s) :
    x.anySet = true ↔ ∃ i, i % 64 < 32 ∧ x.raw i = true := by
  have h := x.reduceOr_all
  rw [anySet, bne]
  constructor
  · intro h1
    by_contra h2
    have : (reduceOr x.vals == 0) = true := h.mpr fun i hi => by
      by_contra h3
      exact h2 ⟨i, hi, by simpa using h3⟩
    rw [this] at h1
    simp at h1
  · rintro ⟨i, hi, hr⟩
    rw [Bool.not_eq_true']
    by_contra h2
    have := h.mp (by simpa using h2) i hi
    rw [this] at hr
    simp at hr

theorem fitIn64_of_lt {x : Big n s} (h : val x.vals < 2 ^ 64) : x.fitIn64 = true := by
  rw [fitIn64, reduceOr_drop]
  intro i hi j _
  have : (val x.vals).testBit (64 * i + j) = false := by
    apply Nat.testBit_lt_two_pow
    exact Nat.lt_of_lt_of_le h (Nat.pow_le_pow_right (by decide) (by omega))
  rw [testBit_val', raw] at this
  by_cases hj : j < 64
  · rwa [show (64 * i + j) / 64 = i by omega, show (64 * i + j) % 64 = j by omega] at this
  · omega

theorem limb_zero_val {x : Big n s} (h : val x.vals < 2 ^ 64) : (x.limb 0).toNat = val x.vals := by
  apply Nat.eq_of_testBit_eq
  intro i
  rw [testBit_val', raw]
  by_cases hi : i < 64
  · rw [Nat.div_eq_of_lt hi, Nat.mod_eq_of_lt hi, BitVec.testBit_toNat]
  · have h1 : (x.limb 0).toNat.testBit i = false := by
      apply Nat.testBit_lt_two_pow
      exact Nat.lt_of_lt_of_le (x.limb 0).isLt (Nat.pow_le_pow_right (by decide) (by omega))
    have h2 : (val x.vals).testBit i = false := by
      apply Nat.testBit_lt_two_pow
      exact Nat.lt_of_lt_of_le h (Nat.pow_le_pow_right (by decide) (by omega))
    rw [h1, ← raw_eq, ← testBit_val', h2]

theorem val_eq_zero_iff (x : Big n s) : val x.vals = 0 ↔ ∀ i, x.limb i = 0 := by
  constructor
  · intro h i
    have := (pre_eq_iff x (zero : Big n s) (limbs n + i + 1)).mp
      (by rw [pre_of_ge _ (by omega), pre_of_ge _ (by omega), h, val_zero]) i (by omega)
    rw [this, limb_zero]
  · intro h
    have := (pre_eq_iff x (zero : Big n s) (limbs n)).mpr fun i _ => by rw [h, limb_zero]
    rwa [pre_limbs, pre_limbs, val_zero] at this

end Big
end Verif
