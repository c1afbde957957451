import Verif.Lemmas.Arith

/-! Wide multiplication and division of arbitrary canonical operands. -/

namespace Verif

variable {n m : Nat} {s t : Bool}

/-- no chunk but the lowest has a one in its lower half: what `fit_in_64()` tests
(`big_num.hh`, lines 814-817) -/
def LowOnly (b : BitVec n) : Prop := ∀ p, 64 ≤ p → p % 64 < 32 → b.getLsbD p = false

/-- some chunk has a one in its lower half: what `any_set()` tests (`big_num.hh`,
lines 770-776) -/
def AnyLow (b : BitVec n) : Prop := ∃ p, p % 64 < 32 ∧ b.getLsbD p = true

namespace Big

theorem fitIn64_iff {x : Big n s} (hx : x.Clean) : x.fitIn64 = true ↔ LowOnly x.bv := by
  rw [fitIn64, reduceOr_drop]
  constructor
  · intro h p hp hj
    have := h (p / 64) (by omega) (p % 64) hj
    rw [Bits.limb_get hx _ _ (by omega), show 64 * (p / 64) + p % 64 = p by omega] at this
    exact this
  · intro h i hi j hj
    rw [Bits.limb_get hx i j (by omega)]
    exact h _ (by omega) (by omega)

theorem anySet_iff {x : Big n s} (hx : x.Clean) : x.anySet = true ↔ AnyLow x.bv := by
  rw [anySet_spec]
  constructor
  · rintro ⟨p, hp, hr⟩
    refine ⟨p, hp, ?_⟩
    rw [← testBit_val', ← hx.toNat_bv, BitVec.testBit_toNat] at hr
    exact hr
  · rintro ⟨p, hp, hr⟩
    refine ⟨p, hp, ?_⟩
    rw [← testBit_val', ← hx.toNat_bv, BitVec.testBit_toNat]
    exact hr

theorem limb_zero_mod (x : Big n s) : (x.limb 0).toNat = val x.vals % 2 ^ 64 := by
  apply Nat.eq_of_testBit_eq
  intro i
  rw [Nat.testBit_mod_two_pow, testBit_val', BitVec.testBit_toNat, raw]
  by_cases h : i < 64
  · rw [show i / 64 = 0 by omega, show i % 64 = i by omega]; simp [h]
  · rw [BitVec.getLsbD_of_ge _ _ (by omega)]; simp [h]

/-- the quotient and the remainder the library computes for canonical operands with
`any_set()` divisor -/
theorem divModUnsigned_exact (hn : 64 < n) (hN : n ≤ 2 ^ 32) (x y : Big n false) (hx : x.Clean)
    (hy : y.Clean) (ha : AnyLow y.bv) :
    ∃ q r, divModUnsigned x y = .ok (q, r) ∧ q.Clean ∧ r.Clean ∧
      (val y.vals % 2 ^ 64 = 1 ∧ LowOnly y.bv → val q.vals = val x.vals ∧ val r.vals = 0) ∧
      (¬ (val y.vals % 2 ^ 64 = 1 ∧ LowOnly y.bv) →
        (val y.vals < val x.vals ∧ LowOnly x.bv ∧ LowOnly y.bv →
          val q.vals = (val x.vals % 2 ^ 64) / (val y.vals % 2 ^ 64) ∧
          val r.vals = (val x.vals % 2 ^ 64) % (val y.vals % 2 ^ 64)) ∧
        (¬ (val y.vals < val x.vals ∧ LowOnly x.bv ∧ LowOnly y.bv) →
          val q.vals = val x.vals / val y.vals ∧ val r.vals = val x.vals % val y.vals)) := by
  have hn0 : 0 < n := by omega
  have hl := limbs_ge_two (n := n) (by omega)
  have hy0 : val y.vals ≠ 0 := by
    obtain ⟨p, -, hp⟩ := ha
    intro h0
    rw [← BitVec.testBit_toNat, hy.toNat_bv, h0] at hp
    simp at hp
  have clean64 : ∀ v : BitVec 64, (ofU64 v : Big n false).Clean := by
    intro v
    show val _ < _
    rw [val_ofU64 hn0]
    exact Nat.lt_of_lt_of_le v.isLt (Nat.pow_le_pow_right (by decide) (by omega))
  have hone : y.isOne = true ↔ val y.vals % 2 ^ 64 = 1 ∧ LowOnly y.bv := by
    rw [isOne, if_neg (by omega), Bool.and_eq_true, beq_iff_eq, ← fitIn64_iff hy, fitIn64,
      ← limb_zero_mod]
    constructor
    · rintro ⟨h1, h2⟩; exact ⟨by rw [h1]; rfl, h2⟩
    · rintro ⟨h1, h2⟩; exact ⟨BitVec.eq_of_toNat_eq h1, h2⟩
  rw [divModUnsigned]
  by_cases h1 : y.isOne = true
  · rw [if_pos h1]
    exact ⟨x, ofU64 0, rfl, hx, clean64 _, fun _ => ⟨rfl, by rw [val_ofU64 hn0]; rfl⟩,
      fun hc => absurd (hone.1 h1) hc⟩
  rw [if_neg h1]
  have h1' : ¬ (val y.vals % 2 ^ 64 = 1 ∧ LowOnly y.bv) := fun h => h1 (hone.2 h)
  by_cases h2 : x.eq y = true
  · rw [if_pos h2]
    rw [eq_same (by rfl : (false && false) = false), decide_eq_true_iff] at h2
    refine ⟨_, _, rfl, clean64 _, clean64 _, fun hc => absurd hc h1', fun _ =>
      ⟨fun hc => absurd hc.1 (by omega), fun _ => ⟨?_, ?_⟩⟩⟩
    · rw [val_ofU64 hn0, h2, Nat.div_self (by omega)]; rfl
    · rw [val_ofU64 hn0, h2, Nat.mod_self]; rfl
  rw [if_neg h2]
  by_cases h3 : gtMag y x = true
  · rw [if_pos h3]
    rw [gtMag_spec, decide_eq_true_iff] at h3
    refine ⟨_, _, rfl, clean64 _, hx, fun hc => absurd hc h1', fun _ =>
      ⟨fun hc => absurd hc.1 (by omega), fun _ => ⟨?_, ?_⟩⟩⟩
    · rw [val_ofU64 hn0, Nat.div_eq_of_lt h3]; rfl
    · rw [Nat.mod_eq_of_lt h3]
  rw [if_neg h3]
  have hlt : val y.vals < val x.vals := by
    rw [gtMag_spec, decide_eq_true_iff] at h3
    rw [eq_same (by rfl : (false && false) = false), decide_eq_true_iff] at h2
    omega
  by_cases h4 : (x.fitIn64 && y.fitIn64) = true
  · rw [if_pos h4]
    rw [Bool.and_eq_true, fitIn64_iff hx, fitIn64_iff hy] at h4
    have hne : y.limb 0 ≠ 0 := by
      obtain ⟨p, hp, hb⟩ := ha
      have hp64 : p < 64 := by
        by_contra hc
        rw [h4.2 p (by omega) hp] at hb
        cases hb
      intro h
      have := Bits.limb_get hy 0 p hp64
      rw [h, Nat.mul_zero, Nat.zero_add, hb] at this
      simp at this
    rw [if_neg hne]
    refine ⟨_, _, rfl, clean64 _, clean64 _, fun hc => absurd hc h1', fun _ =>
      ⟨fun _ => ⟨?_, ?_⟩, fun hc => absurd ⟨hlt, h4⟩ hc⟩⟩
    · rw [val_ofU64 hn0, BitVec.toNat_udiv, limb_zero_mod, limb_zero_mod]
    · rw [val_ofU64 hn0, BitVec.toNat_umod, limb_zero_mod, limb_zero_mod]
  rw [if_neg h4]
  rw [Bool.and_eq_true, fitIn64_iff hx, fitIn64_iff hy] at h4
  have hx0 : val x.vals ≠ 0 := by omega
  obtain ⟨hx1, hx2⟩ := x.highestBit_spec hx0
  obtain ⟨hy1, hy2⟩ := y.highestBit_spec hy0
  have hbx : x.highestBit < n := by
    have : 2 ^ x.highestBit < 2 ^ n := Nat.lt_of_le_of_lt hx1 hx
    exact (Nat.pow_lt_pow_iff_right (by decide)).mp this
  have hby : y.highestBit ≤ x.highestBit := by
    have : 2 ^ y.highestBit < 2 ^ (x.highestBit + 1) := by omega
    have := (Nat.pow_lt_pow_iff_right (by decide : 1 < 2)).mp this
    omega
  have hdiff : (BitVec.ofNat 64 x.highestBit - BitVec.ofNat 64 y.highestBit).toNat =
      x.highestBit - y.highestBit := by
    rw [BitVec.toNat_sub, BitVec.toNat_ofNat, BitVec.toNat_ofNat]
    omega
  simp only [hdiff]
  generalize hD : x.highestBit - y.highestBit = d at *
  have hpow : 2 ^ (x.highestBit + 1) = 2 ^ y.highestBit * 2 ^ (d + 1) := by
    rw [← Nat.pow_add]; congr 1; omega
  obtain ⟨c1, c2, c3⟩ := divLoop_spec hn0 x y hy (d + 1) zero x clean_zero
    (by rw [val_zero]; exact Nat.dvd_zero _)
    (by
      have : val y.vals * 2 ^ (d + 1) < 2 ^ (y.highestBit + 1) * 2 ^ (d + 1) :=
        Nat.mul_lt_mul_of_pos_right hy2 (Nat.pow_pos (by decide))
      rw [← Nat.pow_add] at this
      refine Nat.lt_of_lt_of_le this (Nat.pow_le_pow_right (by decide) (by omega)))
    (by omega)
    (by
      rw [hpow] at hx2
      exact Nat.lt_of_lt_of_le hx2 (Nat.mul_le_mul_right _ hy1))
    (by rw [val_zero]; simp)
  generalize divLoop y (d + 1) (zero, x) = st at *
  refine ⟨_, _, rfl, c1, Nat.lt_trans c2 hy, fun hc => absurd hc h1', fun _ =>
    ⟨fun hc => absurd hc.2 h4, fun _ => ⟨?_, ?_⟩⟩⟩
  · rw [c3, Nat.mul_comm, Nat.mul_add_div (by omega), Nat.div_eq_of_lt c2]; rfl
  · rw [c3, Nat.mul_comm, Nat.mul_add_mod, Nat.mod_eq_of_lt c2]

end Big

namespace Bits

/-- wide multiplication of canonical operands, every case -/
theorem mul_wide_exact (h : ¬ n ≤ 64) (x : Bits n s) (y : Bits n t) (hx : x.Clean) (hy : y.Clean) :
    (LowOnly x.bv ∧ LowOnly y.bv → ∃ z, x.mul y = .ok z ∧
      z.bv.toNat = (x.bv.toNat % 2 ^ 64) * (y.bv.toNat % 2 ^ 64) % 2 ^ n) ∧
    (¬ (LowOnly x.bv ∧ LowOnly y.bv) →
      ((∃ i j, x.bv.getLsbD i = true ∧ y.bv.getLsbD j = true ∧ n ≤ 64 * (i / 64 + j / 64 + 1)) →
        x.mul y = .error .oob) ∧
      (¬ (∃ i j, x.bv.getLsbD i = true ∧ y.bv.getLsbD j = true ∧
          n ≤ 64 * (i / 64 + j / 64 + 1)) →
        ∃ z, x.mul y = .ok z ∧ z.bv = x.bv * y.bv)) := by
  have h64 : 64 < n := by omega
  rw [clean_big h] at hx hy
  have bx := bv_big h x
  have bY := bv_big h y
  rw [bx, bY]
  have hmul : x.mul y = ((x.bg h).mul (y.bg h)).map (.big h ·) := by rw [mul, dif_neg h]
  have hbig : ∀ z : Big n (s && t), (Bits.big h z : Bits n (s && t)).bv = z.bv := fun z => bv_big h _
  rw [← Big.fitIn64_iff hx, ← Big.fitIn64_iff hy]
  have lim := le_limbs n
  have lim2 := limbs_lt n
  refine ⟨fun hf => ?_, fun hf => ⟨?_, fun hno => ?_⟩⟩
  · obtain ⟨z, hz, e⟩ := Big.mul_fast h64 _ _ hf.1 hf.2
    refine ⟨.big h z, by rw [hmul, hz]; rfl, ?_⟩
    rw [hbig, Big.toNat_bv, e, hx.toNat_bv, hy.toNat_bv, Big.limb_zero_mod, Big.limb_zero_mod]
  · rintro ⟨i, j, hi, hj, hij⟩
    have hin : i < n := by
      by_contra hc; rw [BitVec.getLsbD_of_ge _ _ (by omega)] at hi; cases hi
    have hjn : j < n := by
      by_contra hc; rw [BitVec.getLsbD_of_ge _ _ (by omega)] at hj; cases hj
    have nx : (x.bg h).limb (i / 64) ≠ 0 := (limb_ne_zero hx _).2
      ⟨i % 64, by omega, by rw [show 64 * (i / 64) + i % 64 = i by omega]; exact hi⟩
    have ny : (y.bg h).limb (j / 64) ≠ 0 := (limb_ne_zero hy _).2
      ⟨j % 64, by omega, by rw [show 64 * (j / 64) + j % 64 = j by omega]; exact hj⟩
    rw [hmul, Big.mul_eq _ _ hf, Big.mulSlow_oob h64 _ _ (by omega) (by omega) nx ny (by omega)]
    rfl
  · rw [Big.mul_eq _ _ hf] at hmul
    obtain ⟨z, hz, e⟩ := Big.mulSlow_spec h64 (x.bg h) (y.bg h) (by
      intro i j hi hj
      obtain ⟨a, ha, hxa⟩ := (limb_ne_zero hx i).1 hi
      obtain ⟨b, hb, hyb⟩ := (limb_ne_zero hy j).1 hj
      by_contra hc
      exact hno ⟨_, _, hxa, hyb, by
        rw [show (64 * i + a) / 64 = i by omega, show (64 * j + b) / 64 = j by omega]; omega⟩)
    refine ⟨.big h z, by rw [hmul, hz]; rfl, ?_⟩
    apply BitVec.eq_of_toNat_eq
    rw [hbig, BitVec.toNat_mul, Big.toNat_bv, hx.toNat_bv, hy.toNat_bv, e,
      Nat.mod_mod_of_dvd _ (Big.two_pow_dvd n)]

/-- wide division of canonical operands, every case -/
theorem div_wide_exact (h : ¬ n ≤ 64) (hN : n ≤ 2 ^ 32) (x y : Bits n false) (hx : x.Clean)
    (hy : y.Clean) :
    ∃ q r, x.div y = .ok q ∧ x.mod y = .ok r ∧ q.Clean ∧ r.Clean ∧
      (¬ AnyLow y.bv → q.bv = 0 ∧ r.bv = 0) ∧
      (AnyLow y.bv →
        (y.bv.toNat % 2 ^ 64 = 1 ∧ LowOnly y.bv → q.bv = x.bv ∧ r.bv = 0) ∧
        (¬ (y.bv.toNat % 2 ^ 64 = 1 ∧ LowOnly y.bv) →
          (y.bv.toNat < x.bv.toNat ∧ LowOnly x.bv ∧ LowOnly y.bv →
            q.bv.toNat = (x.bv.toNat % 2 ^ 64) / (y.bv.toNat % 2 ^ 64) ∧
            r.bv.toNat = (x.bv.toNat % 2 ^ 64) % (y.bv.toNat % 2 ^ 64)) ∧
          (¬ (y.bv.toNat < x.bv.toNat ∧ LowOnly x.bv ∧ LowOnly y.bv) →
            q.bv = x.bv / y.bv ∧ r.bv = x.bv % y.bv))) := by
  have h64 : 64 < n := by omega
  rw [clean_big h] at hx hy
  have bx := bv_big h x
  have bY := bv_big h y
  have hdiv : x.div y = (Big.divMod ((x.bg h).toSign false) (y.bg h)).map
      (fun p => .big h (p.1.toSign _)) := by
    rw [div, dif_neg h, Big.div]
    cases Big.divMod ((x.bg h).toSign false) (y.bg h) <;> rfl
  have hmod : x.mod y = (Big.divMod ((x.bg h).toSign false) (y.bg h)).map
      (fun p => .big h (p.2.toSign _)) := by
    rw [mod, dif_neg h, Big.mod]
    cases Big.divMod ((x.bg h).toSign false) (y.bg h) <;> rfl
  have hb : ∀ z : Big n false, (Bits.big h (z.toSign (false && false)) : Bits n (false && false)).bv = z.bv := fun z => rfl
  rw [hdiv, hmod, bx, bY]
  by_cases ha : AnyLow (y.bg h).bv
  · obtain ⟨q, r, e, cq, cr, h1, h2⟩ := Big.divModUnsigned_exact h64 hN ((x.bg h).toSign false)
      ((y.bg h).toSign false) hx hy ha
    have hd : Big.divMod ((x.bg h).toSign false) (y.bg h) = .ok (q, r) := by
      rw [Big.divMod, (Big.anySet_iff hy).2 ha]
      exact e
    rw [hd]
    refine ⟨_, _, rfl, rfl, cq, cr, fun hc => absurd ha hc, fun _ => ?_⟩
    rw [hb, hb]
    have ex : (x.bg h).bv.toNat = val ((x.bg h).toSign false).vals := hx.toNat_bv
    have ey : (y.bg h).bv.toNat = val ((y.bg h).toSign false).vals := hy.toNat_bv
    rw [ex, ey]
    refine ⟨fun hc => ?_, fun hc => ⟨fun hl => ?_, fun hl => ?_⟩⟩
    · obtain ⟨e1, e2⟩ := h1 hc
      constructor
      · apply BitVec.eq_of_toNat_eq; rw [cq.toNat_bv, e1, ex]
      · apply BitVec.eq_of_toNat_eq; rw [cr.toNat_bv, e2]; simp
    · obtain ⟨e1, e2⟩ := (h2 hc).1 hl
      rw [cq.toNat_bv, cr.toNat_bv]
      exact ⟨e1, e2⟩
    · obtain ⟨e1, e2⟩ := (h2 hc).2 hl
      constructor
      · apply BitVec.eq_of_toNat_eq; rw [cq.toNat_bv, e1, BitVec.toNat_udiv, ex, ey]
      · apply BitVec.eq_of_toNat_eq; rw [cr.toNat_bv, e2, BitVec.toNat_umod, ex, ey]
  · have hd : Big.divMod ((x.bg h).toSign false) (y.bg h) = .ok (Big.zero, Big.zero) := by
      have : (y.bg h).anySet = false := by
        rw [← Bool.not_eq_true, Big.anySet_iff hy]; exact ha
      rw [Big.divMod, this]; rfl
    rw [hd]
    refine ⟨_, _, rfl, rfl, Big.clean_zero, Big.clean_zero, fun _ => ?_, fun hc => absurd hc ha⟩
    rw [hb]
    have : (Big.zero : Big n false).bv = 0 := by
      apply BitVec.eq_of_toNat_eq; rw [Big.toNat_bv, Big.val_zero]; simp
    exact ⟨this, this⟩

end Bits
end Verif
