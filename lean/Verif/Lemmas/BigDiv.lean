import Verif.Lemmas.BigMul

/-! Division of limb arrays. -/

namespace Verif
namespace Big

variable {n m : Nat} {s t : Bool}

theorem highestBitLoop_spec (x : Big n s) (k : Nat) (hk : x.pre k ≠ 0) :
    ∃ h, x.highestBitLoop k = some h ∧ 2 ^ h ≤ x.pre k ∧ x.pre k < 2 ^ (h + 1) := by
  induction k with
  | zero => simp [pre_zero] at hk
  | succ k ih =>
    rw [pre_succ] at *
    by_cases h0 : x.limb k = 0
    · have : (x.limb k != 0) = false := by simp [h0]
      rw [highestBitLoop, this, h0]
      rw [h0] at hk
      simpa using ih (by simpa using hk)
    · have : (x.limb k != 0) = true := by simpa using h0
      rw [highestBitLoop, if_pos this]
      refine ⟨_, rfl, ?_, ?_⟩
      · have h1 := BitVec.two_pow_sub_clz_le_toNat_of_ne_zero (by decide) h0
        have hc := BitVec.clz_lt_iff_ne_zero.mpr h0
        rw [BitVec.lt_def] at hc
        simp at hc
        have e : (k + 1) * 64 - (x.limb k).clz.toNat - 1 =
            64 * k + (64 - 1 - (x.limb k).clz.toNat) := by omega
        rw [e, Nat.pow_add]
        have := Nat.mul_le_mul_left (2 ^ (64 * k)) h1
        omega
      · have h1 := BitVec.toNat_lt_two_pow_sub_clz (x := x.limb k)
        have hc := BitVec.clz_lt_iff_ne_zero.mpr h0
        rw [BitVec.lt_def] at hc
        simp at hc
        have e : (k + 1) * 64 - (x.limb k).clz.toNat - 1 + 1 =
            64 * k + (64 - (x.limb k).clz.toNat) := by omega
        rw [e, Nat.pow_add]
        have h2 : 2 ^ (64 * k) * ((x.limb k).toNat + 1) ≤
            2 ^ (64 * k) * 2 ^ (64 - (x.limb k).clz.toNat) := Nat.mul_le_mul_left _ h1
        have := x.pre_lt k
        rw [Nat.mul_add] at h2
        omega

theorem highestBit_spec (x : Big n s) (h : val x.vals ≠ 0) :
    2 ^ x.highestBit ≤ val x.vals ∧ val x.vals < 2 ^ (x.highestBit + 1) := by
  have := x.highestBitLoop_spec (limbs n) (by rwa [pre_limbs])
  obtain ⟨k, hk, h1, h2⟩ := this
  rw [highestBit, hk]
  rw [pre_limbs] at h1 h2
  exact ⟨h1, h2⟩

theorem val_shl {y : Big n s} (hy : y.Clean) (i : Nat) :
    val (y.shl i).vals = (val y.vals * 2 ^ i) % 2 ^ n := by
  rw [← (clean_shl y i).toNat_bv, bv_shl, BitVec.toNat_shiftLeft, hy.toNat_bv, Nat.shiftLeft_eq]

theorem val_set_true {q : Big n s} {i : Nat} (hi : i < n) (hd : 2 ^ (i + 1) ∣ val q.vals) :
    val (q.set i true).vals = val q.vals + 2 ^ i := by
  obtain ⟨c, hc⟩ := hd
  have e : val q.vals + 2 ^ i = val q.vals ||| 2 ^ i := by
    rw [hc]
    exact Nat.two_pow_add_eq_or_of_lt (Nat.pow_lt_pow_right (by decide) (by omega)) c
  rw [e]
  apply Nat.eq_of_testBit_eq
  intro j
  rw [testBit_val', raw_set, Nat.testBit_or, testBit_val', Nat.testBit_two_pow]
  by_cases h : j = i
  · subst h; simp [hi]
  · simp [h, show ¬ i = j by omega]

/-- the shift-subtract loop computes quotient and remainder -/
theorem divLoop_spec (hn : 0 < n) (x y : Big n false) (hy : y.Clean) (i : Nat)
    (q r : Big n false) (hq : q.Clean) (hd : 2 ^ i ∣ val q.vals)
    (hin : val y.vals * 2 ^ i < 2 ^ (n + 1)) (hi : i ≤ n)
    (hr : val r.vals < val y.vals * 2 ^ i)
    (hx : val x.vals = val q.vals * val y.vals + val r.vals) :
    (divLoop y i (q, r)).1.Clean ∧ val (divLoop y i (q, r)).2.vals < val y.vals ∧
      val x.vals = val (divLoop y i (q, r)).1.vals * val y.vals +
        val (divLoop y i (q, r)).2.vals := by
  induction i generalizing q r with
  | zero => exact ⟨hq, by simpa [divLoop] using hr, hx⟩
  | succ i ih =>
    rw [divLoop]
    have hlt : val y.vals * 2 ^ i < 2 ^ n := by
      have e : 2 ^ (i + 1) = 2 * 2 ^ i := by rw [Nat.pow_succ]; ring
      have e2 : 2 ^ (n + 1) = 2 * 2 ^ n := by rw [Nat.pow_succ]; ring
      rw [e, e2] at hin
      nlinarith
    have hsh : val (y.shl i).vals = val y.vals * 2 ^ i := by
      rw [val_shl hy, Nat.mod_eq_of_lt hlt]
    have hdvd : 2 ^ i ∣ 2 ^ (i + 1) := Nat.pow_dvd_pow 2 (by omega)
    have hpow : 2 ^ (i + 1) = 2 ^ i + 2 ^ i := by rw [Nat.pow_succ]; ring
    have hpow' : 2 ^ (n + 1) = 2 ^ n + 2 ^ n := by rw [Nat.pow_succ]; ring
    have hin' : val y.vals * 2 ^ i < 2 ^ (n + 1) := by omega
    simp only [gtMag_spec, eq_same (by rfl : (false && false) = false), hsh]
    by_cases hge : val y.vals * 2 ^ i ≤ val r.vals
    · have hc : (decide (val y.vals * 2 ^ i < val r.vals) ||
          decide (val r.vals = val y.vals * 2 ^ i)) = true := by
        simp only [Bool.or_eq_true, decide_eq_true_eq]; omega
      rw [if_pos hc]
      have hsub : val ((r.sub (y.shl i)).toSign false).vals =
          val r.vals - val y.vals * 2 ^ i := by
        show val (r.sub (y.shl i)).vals = _
        rw [sub_spec hn, hsh]
        have h1 := val_lt' r
        have h2 := val_lt' (y.shl i)
        rw [hsh] at h2
        rw [show val r.vals + (2 ^ (64 * limbs n) - val y.vals * 2 ^ i) =
          (val r.vals - val y.vals * 2 ^ i) + 2 ^ (64 * limbs n) by omega,
          Nat.add_mod_right, Nat.mod_eq_of_lt (by omega)]
      apply ih
      · exact hq.set _ _
      · rw [val_set_true (by omega) hd]
        exact Nat.dvd_add (Nat.dvd_trans hdvd hd) (Nat.dvd_refl _)
      · exact hin'
      · omega
      · rw [hsub]
        rw [hpow, Nat.mul_add] at hr
        omega
      · rw [hsub, val_set_true (by omega) hd, hx, Nat.add_mul]
        have : 2 ^ i * val y.vals = val y.vals * 2 ^ i := Nat.mul_comm _ _
        omega
    · have hc : ¬ (decide (val y.vals * 2 ^ i < val r.vals) ||
          decide (val r.vals = val y.vals * 2 ^ i)) = true := by
        simp only [Bool.or_eq_true, decide_eq_true_eq]; omega
      rw [if_neg hc]
      exact ih q r hq (Nat.dvd_trans hdvd hd) hin' (by omega) (by omega) hx

/-- every non-zero limb has a bit in its low half, where `std::reduce` looks -/
def Visible (x : Big n s) : Prop :=
  ∀ i, x.limb i ≠ 0 → ∃ j, j < 32 ∧ (x.limb i).getLsbD j = true

theorem Visible.fitIn64 {x : Big n s} (h : x.Visible) (hf : x.fitIn64 = true) :
    ∀ i, 1 ≤ i → x.limb i = 0 := by
  intro i hi
  by_contra hne
  obtain ⟨j, hj, hb⟩ := h i hne
  rw [Big.fitIn64, reduceOr_drop] at hf
  rw [hf i hi j hj] at hb
  simp at hb

theorem val_of_high_zero {x : Big n s} (h : ∀ i, 1 ≤ i → x.limb i = 0) :
    val x.vals = (x.limb 0).toNat := by
  have : ∀ k, x.pre (k + 1) = (x.limb 0).toNat := by
    intro k
    induction k with
    | zero => rw [pre_succ, pre_zero]; simp
    | succ k ih => rw [pre_succ, ih, h (k + 1) (by omega)]; simp
  rw [← x.pre_of_ge (k := limbs n + 1) (by omega), this]

theorem Visible.anySet {x : Big n s} (h : x.Visible) : x.anySet = decide (val x.vals ≠ 0) := by
  rw [Bool.eq_iff_iff, anySet_spec, decide_eq_true_iff]
  constructor
  · rintro ⟨i, _, hr⟩ h0
    rw [← testBit_val', h0] at hr
    simp at hr
  · intro h0
    have : ∃ i, x.limb i ≠ 0 := by
      by_contra hc
      exact h0 ((val_eq_zero_iff x).mpr fun i => by by_contra h; exact hc ⟨i, h⟩)
    obtain ⟨i, hi⟩ := this
    obtain ⟨j, hj, hb⟩ := h i hi
    refine ⟨64 * i + j, by omega, ?_⟩
    rw [raw, show (64 * i + j) / 64 = i by omega, show (64 * i + j) % 64 = j by omega]
    exact hb

theorem divModUnsigned_spec (hn : 64 < n) (hN : n ≤ 2 ^ 32) (x y : Big n false) (hx : x.Clean)
    (hy : y.Clean) (hy0 : val y.vals ≠ 0) (vx : x.Visible) (vy : y.Visible) :
    ∃ q r, divModUnsigned x y = .ok (q, r) ∧ q.Clean ∧ r.Clean ∧
      val q.vals = val x.vals / val y.vals ∧ val r.vals = val x.vals % val y.vals := by
  have hn0 : 0 < n := by omega
  have hl := limbs_ge_two (n := n) (by omega)
  have clean64 : ∀ v : BitVec 64, (ofU64 v : Big n false).Clean := by
    intro v
    show val _ < _
    rw [val_ofU64 hn0]
    exact Nat.lt_of_lt_of_le v.isLt (Nat.pow_le_pow_right (by decide) (by omega))
  rw [divModUnsigned]
  by_cases h1 : y.isOne = true
  · rw [if_pos h1]
    have hy1 : val y.vals = 1 := by
      rw [isOne, if_neg (by omega), Bool.and_eq_true, beq_iff_eq] at h1
      rw [val_of_high_zero (vy.fitIn64 h1.2), h1.1]; rfl
    refine ⟨x, ofU64 0, rfl, hx, clean64 _, ?_, ?_⟩
    · rw [hy1, Nat.div_one]
    · rw [val_ofU64 hn0, hy1, Nat.mod_one]; rfl
  rw [if_neg h1]
  by_cases h2 : x.eq y = true
  · rw [if_pos h2]
    rw [eq_same (by rfl : (false && false) = false), decide_eq_true_iff] at h2
    refine ⟨_, _, rfl, clean64 _, clean64 _, ?_, ?_⟩
    · rw [val_ofU64 hn0, h2, Nat.div_self (by omega)]; rfl
    · rw [val_ofU64 hn0, h2, Nat.mod_self]; rfl
  rw [if_neg h2]
  by_cases h3 : gtMag y x = true
  · rw [if_pos h3]
    rw [gtMag_spec, decide_eq_true_iff] at h3
    refine ⟨_, _, rfl, clean64 _, hx, ?_, ?_⟩
    · rw [val_ofU64 hn0, Nat.div_eq_of_lt h3]; rfl
    · rw [Nat.mod_eq_of_lt h3]
  rw [if_neg h3]
  by_cases h4 : (x.fitIn64 && y.fitIn64) = true
  · rw [if_pos h4]
    rw [Bool.and_eq_true] at h4
    have ex := val_of_high_zero (vx.fitIn64 h4.1)
    have ey := val_of_high_zero (vy.fitIn64 h4.2)
    have hne : y.limb 0 ≠ 0 := by
      intro h; rw [h] at ey; exact hy0 ey
    rw [if_neg hne]
    refine ⟨_, _, rfl, clean64 _, clean64 _, ?_, ?_⟩
    · rw [val_ofU64 hn0, BitVec.toNat_udiv, ex, ey]
    · rw [val_ofU64 hn0, BitVec.toNat_umod, ex, ey]
  rw [if_neg h4]
  -- the long division
  rw [gtMag_spec, decide_eq_true_iff] at h3
  rw [eq_same (by rfl : (false && false) = false), decide_eq_true_iff] at h2
  have hx0 : val x.vals ≠ 0 := by omega
  obtain ⟨hx1, hx2⟩ := x.highestBit_spec hx0
  obtain ⟨hy1, hy2⟩ := y.highestBit_spec hy0
  have hbx : x.highestBit < n := by
    have : 2 ^ x.highestBit < 2 ^ n := Nat.lt_of_le_of_lt hx1 hx
    exact (Nat.pow_lt_pow_iff_right (by decide)).mp this
  have hby : y.highestBit ≤ x.highestBit := by
    have : 2 ^ y.highestBit < 2 ^ (x.highestBit + 1) := by omega
    have := (Nat.pow_lt_pow_iff_right (by decide : 1 < 2)).mp this
    omega
  have hdiff : (BitVec.ofNat 64 x.highestBit - BitVec.ofNat 64 y.highestBit).toNat =
      x.highestBit - y.highestBit := by
    rw [BitVec.toNat_sub, BitVec.toNat_ofNat, BitVec.toNat_ofNat]
    omega
  simp only [hdiff]
  generalize hD : x.highestBit - y.highestBit = d at *
  have hpow : 2 ^ (x.highestBit + 1) = 2 ^ y.highestBit * 2 ^ (d + 1) := by
    rw [← Nat.pow_add]; congr 1; omega
  obtain ⟨c1, c2, c3⟩ := divLoop_spec hn0 x y hy (d + 1) zero x clean_zero
    (by rw [val_zero]; exact Nat.dvd_zero _)
    (by
      have : val y.vals * 2 ^ (d + 1) < 2 ^ (y.highestBit + 1) * 2 ^ (d + 1) :=
        Nat.mul_lt_mul_of_pos_right hy2 (Nat.pow_pos (by decide))
      rw [← Nat.pow_add] at this
      refine Nat.lt_of_lt_of_le this (Nat.pow_le_pow_right (by decide) (by omega)))
    (by omega)
    (by
      rw [hpow] at hx2
      exact Nat.lt_of_lt_of_le hx2 (Nat.mul_le_mul_right _ hy1))
    (by rw [val_zero]; simp)
  generalize divLoop y (d + 1) (zero, x) = st at *
  refine ⟨_, _, rfl, c1, ?_, ?_, ?_⟩
  · exact Nat.lt_trans c2 hy
  · rw [c3, Nat.mul_comm, Nat.mul_add_div (by omega), Nat.div_eq_of_lt c2]; rfl
  · rw [c3, Nat.mul_comm, Nat.mul_add_mod, Nat.mod_eq_of_lt c2]

theorem divMod_spec (hn : 64 < n) (hN : n ≤ 2 ^ 32) (x : Big n false) (y : Big n t) (hx : x.Clean)
    (hy : y.Clean) (hy0 : val y.vals ≠ 0) (vx : x.Visible) (vy : y.Visible) :
    ∃ q r, divMod x y = .ok (q, r) ∧ q.Clean ∧ r.Clean ∧
      val q.vals = val x.vals / val y.vals ∧ val r.vals = val x.vals % val y.vals := by
  rw [divMod, vy.anySet]
  simp only [ne_eq, hy0, not_false_eq_true, decide_true, Bool.not_true, Bool.false_eq_true, if_false]
  exact divModUnsigned_spec hn hN x (y.toSign false) hx hy hy0 vx vy

theorem divMod_zero (x : Big n false) (y : Big n t) (hy0 : val y.vals = 0) :
    divMod x y = .ok (zero, zero) := by
  have : y.anySet = false := by
    rw [← Bool.not_eq_true, anySet_spec]
    rintro ⟨i, -, hr⟩
    rw [← testBit_val', hy0] at hr
    simp at hr
  rw [divMod, this]; rfl

end Big
end Verif
