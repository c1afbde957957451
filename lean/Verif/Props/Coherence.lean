import Verif.Props.SignMix
import Verif.Props.SignedWide
import Verif.Lemmas.ShiftExact

/-!
# Comparisons taken together

C149: is `==` symmetric and transitive when the operands have different types? C150: is the
order transitive? Each comparison of two types is settled by C38-C41, C119, C123 and C137;
here several comparisons are put together, as sorting and searching do.
-/

namespace Verif

variable {n m k : Nat} {s t u : Bool}

/-! ## C149: equality -/

/-- native `==`, on the denoted numbers: the right one is converted to the holder type of the
left one -/
theorem Bits.eq_conv (h : n ≤ 64) (hm : m ≤ 64) (x : Bits n s) (y : Bits m t)
    (hx : x.Clean) (hy : y.Clean) :
    x.eq y = true ↔ numOf s x.bv = (holderTy n s).conv (numOf t y.bv) := by
  rw [Bits.eq_native h hm, decide_eq_true_iff, (Bits.clean_native h x).1 hx,
    (Bits.clean_native hm y).1 hy]

/-- the number of an operand that is not wider than the holder, as a number modulo the
holder -/
theorem numOf_mem (h1 : 1 < n) (hm0 : 0 < m) (hm : m ≤ hw n) (b : BitVec m) :
    (holderTy n s).conv (numOf s b) = numOf s b := by
  have h8 := hw_ge_eight (n := n) (by omega)
  have hb := Bits.numOf_bounds (s := s) hm0 b
  have p1 : (2 : Int) ^ (m - 1) ≤ 2 ^ (hw n - 1) := Bits.pow_mono (by omega)
  have p2 : (2 : Int) ^ m ≤ 2 ^ hw n := Bits.pow_mono hm
  rw [holderTy, if_neg (by omega)]
  cases s with
  | false =>
    simp only [Bool.false_and, if_neg Bool.false_ne_true] at hb
    exact CTy.conv_unsigned_of_lt hb.1 (by omega)
  | true =>
    by_cases hm1 : m ≤ 1
    · have : m = 1 := by omega
      subst this
      have p3 : (2 : Int) ^ 7 ≤ 2 ^ (hw n - 1) := Bits.pow_mono (by omega)
      simp at hb
      exact CTy.conv_signed_of_mem (by omega) (by omega) (by omega)
    · rw [if_pos (by simp [hm1])] at hb
      exact CTy.conv_signed_of_mem (by omega) (by omega) (by omega)

theorem conv_congr (h1 : 1 < n) (v : Int) :
    ((holderTy n s).conv v) % (2 ^ hw n : Nat) = v % (2 ^ hw n : Nat) := by
  rw [holderTy, if_neg (by omega)]; exact CTy.conv_mod v

/-- conversion to the holder type depends on the number modulo the holder only -/
theorem conv_eq_mod_iff (h1 : 1 < n) (v w : Int) :
    (holderTy n s).conv v = (holderTy n s).conv w ↔ v % (2 ^ hw n : Nat) = w % (2 ^ hw n : Nat) := by
  constructor
  · intro e
    rw [← conv_congr (s := s) h1 v, e, conv_congr h1]
  · intro e
    rw [holderTy, if_neg (by omega)]
    cases s with
    | false => exact e
    | true =>
      show v.bmod _ = w.bmod _
      rw [← Int.emod_bmod, e, Int.emod_bmod]

/-- `==` of two native operands, of any signedness: the numbers agree modulo the holder of
the left one -/
theorem Bits.eq_mod (h1 : 1 < n) (h : n ≤ 64) (hm : m ≤ 64) (x : Bits n s) (y : Bits m t)
    (hx : x.Clean) (hy : y.Clean) :
    x.eq y = true ↔ numOf s x.bv % (2 ^ hw n : Nat) = numOf t y.bv % (2 ^ hw n : Nat) := by
  rw [Bits.eq_conv h hm x y hx hy, ← conv_eq_mod_iff (s := s) h1,
    numOf_mem h1 (by omega) (le_hw h) x.bv]

/-- a non-zero number of `m` bits that is zero modulo `2^w` -/
theorem exists_pow {w : Nat} (h8 : 0 < w) (h : w < m) : ∃ y : Bits m s, y.Clean ∧
    (numOf s y.bv = 2 ^ w ∨ numOf s y.bv = -2 ^ w) := by
  have hp : 2 ^ w < 2 ^ m := Nat.pow_lt_pow_right (by decide) h
  cases s with
  | false =>
    obtain ⟨y, cy, ey⟩ := Bits.exists_clean (s := false) (BitVec.ofNat m (2 ^ w))
    refine ⟨y, cy, Or.inl ?_⟩
    rw [ey, numOf, if_neg (by simp), BitVec.toNat_ofNat, Nat.mod_eq_of_lt hp]
    simp
  | true =>
    obtain ⟨y, cy, ey⟩ := Bits.exists_clean (s := true) (BitVec.ofInt m (-2 ^ w))
    refine ⟨y, cy, Or.inr ?_⟩
    have e : numOf true y.bv = y.bv.toInt := by rw [numOf, if_pos]; simp; omega
    rw [e, ey, BitVec.toInt_ofInt]
    have p : (2 : Int) ^ w ≤ 2 ^ (m - 1) := Bits.pow_mono (by omega)
    have p0 : (0 : Int) < 2 ^ w := by positivity
    exact CTy.conv_signed_of_mem (w := m) (by omega) (by omega) (by omega)

theorem exists_zero : ∃ x : Bits n s, x.Clean ∧ numOf s x.bv = 0 := by
  obtain ⟨x, cx, ex⟩ := Bits.exists_clean (s := s) (0 : BitVec n)
  exact ⟨x, cx, by rw [ex]; simp [numOf]⟩

theorem pow_mod {w : Nat} {v : Int} (h : v = 2 ^ w ∨ v = -2 ^ w) : v % (2 ^ w : Nat) = 0 := by
  apply Int.emod_eq_zero_of_dvd
  rcases h with rfl | rfl
  · simp
  · simp

theorem pow_mod_ne {w W : Nat} {v : Int} (hW : w < W) (h : v = 2 ^ w ∨ v = -2 ^ w) :
    v % (2 ^ W : Nat) ≠ 0 := by
  intro e
  have hd := Int.dvd_of_emod_eq_zero e
  have p0 : (0 : Int) < 2 ^ w := by positivity
  have p : (2 : Int) ^ w < (2 ^ W : Nat) := by
    push_cast; exact pow_lt_pow_right₀ (by decide) hW
  have hd' : ((2 ^ W : Nat) : Int) ∣ 2 ^ w := by
    rcases h with rfl | rfl
    · exact hd
    · exact (Int.dvd_neg).1 hd
  have := Int.le_of_dvd p0 hd'
  omega

/-- **C149, reflexivity**, for every object whose comparison with itself compiles. -/
theorem C149_refl (h1 : 0 < n) (hc : ¬ (s = true ∧ 64 < n)) (x : Bits n s) (hx : x.Clean) :
    x.eq x = true := by
  rw [C38_eq_same_sign h1 hc x x hx hx]; exact fun _ _ => rfl

/-- **C149, symmetry of native operands, exactly.** `a == b` and `b == a` agree for all
operands of two types, of any signedness, if and only if both types have holders of one
size. -/
theorem C149_symm_iff (h1 : 1 < n) (h : n ≤ 64) (hm1 : 1 < m) (hm : m ≤ 64) :
    (∀ (x : Bits n s) (y : Bits m t), x.Clean → y.Clean → x.eq y = y.eq x) ↔ hw n = hw m := by
  have aux : ∀ {n m : Nat} {s t : Bool}, 1 < n → n ≤ 64 → 1 < m → m ≤ 64 → hw n < hw m →
      ∃ (x : Bits n s) (y : Bits m t), x.Clean ∧ y.Clean ∧ x.eq y = true ∧ y.eq x = false := by
    intro n m s t h1 h hm1 hm hlt
    have hnm : hw n < m := by
      rcases Nat.lt_or_ge (hw n) m with g | g
      · exact g
      · exfalso
        revert hlt g; simp only [hw]; split_ifs <;> omega
    obtain ⟨x, cx, ex⟩ := exists_zero (n := n) (s := s)
    obtain ⟨y, cy, ey⟩ := exists_pow (m := m) (s := t) (hw_pos n) hnm
    refine ⟨x, y, cx, cy, ?_, ?_⟩
    · rw [Bits.eq_mod h1 h hm x y cx cy, ex, pow_mod ey]; simp
    · rw [← Bool.not_eq_true, Bits.eq_mod hm1 hm h y x cy cx, ex]
      simpa using pow_mod_ne hlt ey
  constructor
  · intro hs
    rcases Nat.lt_trichotomy (hw n) (hw m) with g | g | g
    · obtain ⟨x, y, cx, cy, e1, e2⟩ := aux (s := s) (t := t) h1 h hm1 hm g
      have := hs x y cx cy
      rw [e1, e2] at this; exact absurd this (by decide)
    · exact g
    · obtain ⟨y, x, cy, cx, e1, e2⟩ := aux (s := t) (t := s) hm1 hm h1 h g
      have := hs x y cx cy
      rw [e1, e2] at this; exact absurd this (by decide)
  · intro e x y cx cy
    rw [Bool.eq_iff_iff, Bits.eq_mod h1 h hm x y cx cy, Bits.eq_mod hm1 hm h y x cy cx, e]
    exact eq_comm

/-- **C149, symmetry fails for one-bit objects** against every wider native one: `1 == 2`. -/
theorem C149_symm_one_refuted (hm1 : 1 < m) (hm : m ≤ 64) :
    ∃ (x : Bits 1 false) (y : Bits m false), x.Clean ∧ y.Clean ∧ x.bv.toNat = 1 ∧ y.bv.toNat = 2 ∧
      x.eq y = true ∧ y.eq x = false := by
  obtain ⟨x, cx, ex⟩ := Bits.exists_clean (s := false) (1 : BitVec 1)
  obtain ⟨y, cy, ey⟩ := Bits.exists_clean (s := false) (BitVec.ofNat m 2)
  have h8 := hw_ge_eight (n := m) (by omega)
  have p : 2 ^ 2 ≤ 2 ^ m := Nat.pow_le_pow_right (by decide) (by omega)
  have e1 : x.bv.toNat = 1 := by rw [ex]; rfl
  have e2 : y.bv.toNat = 2 := by rw [ey, BitVec.toNat_ofNat, Nat.mod_eq_of_lt (by omega)]
  have p8 : 2 ^ 8 ≤ 2 ^ hw m := Nat.pow_le_pow_right (by decide) h8
  refine ⟨x, y, cx, cy, e1, e2, ?_, ?_⟩
  · rw [C39_eq_native_exact (by omega) (by omega) hm x y cx cy, e1, e2]; rfl
  · rw [C39_eq_native_exact (by omega) hm (by omega) y x cy cx, e1, e2, if_neg (by omega),
      Nat.mod_eq_of_lt (by omega)]
    rfl

/-- **C149, symmetry of a wide and a native object**: always, whatever they hold. -/
theorem C149_symm_wide_native (h : 64 < n) (hm : m ≤ 64) (x : Bits n s) (y : Bits m t) :
    x.eq y = y.eq x := by
  rw [Bits.eq, dif_neg (by omega), dif_pos hm, Bits.eq, dif_pos hm, dif_neg (by omega)]

/-- **C149, symmetry of two wide objects**, not both signed (those do not compile in both
orders). -/
theorem C149_symm_wide (h : 64 < n) (hm : 64 < m) (x : Bits n s) (y : Bits m t)
    (hst : (s && t) = false) (hx : x.Clean) (hy : y.Clean) : x.eq y = y.eq x := by
  rw [Bool.eq_iff_iff, C39_wide_exact h hm x y hst hx hy,
    C39_wide_exact hm h y x (by rw [Bool.and_comm]; exact hst) hy hx]
  exact ⟨LimbEq.symm, LimbEq.symm⟩

/-- **C149, transitivity of native operands, partial.** `a == b` and `b == c` imply `a == c`
when the holder of the middle type is not smaller than that of the first, for any
signedness. Missing: the other types (`C149_trans_iff`). -/
theorem C149_trans_partial (h1 : 1 < n) (h : n ≤ 64) (hm1 : 1 < m) (hm : m ≤ 64) (hk : k ≤ 64)
    (hnm : n ≤ hw m) (x : Bits n s) (y : Bits m t) (z : Bits k u)
    (hx : x.Clean) (hy : y.Clean) (hz : z.Clean) (e1 : x.eq y = true) (e2 : y.eq z = true) :
    x.eq z = true := by
  rw [Bits.eq_mod h1 h hm x y hx hy] at e1
  rw [Bits.eq_mod hm1 hm hk y z hy hz] at e2
  rw [Bits.eq_mod h1 h hk x z hx hz, e1]
  have hle : hw n ≤ hw m := by
    revert hnm; simp only [hw]; split_ifs <;> omega
  have hd : ((2 ^ hw n : Nat) : Int) ∣ ((2 ^ hw m : Nat) : Int) := by
    exact_mod_cast Nat.pow_dvd_pow 2 hle
  rw [← Int.emod_emod_of_dvd (numOf t y.bv) hd, e2, Int.emod_emod_of_dvd _ hd]

/-- **C149, transitivity of native operands of one signedness, exactly.** Equality of three
types is transitive if and only if the holder of the middle one can hold the first or the
last one. -/
theorem C149_trans_iff (h1 : 1 < n) (h : n ≤ 64) (hm1 : 1 < m) (hm : m ≤ 64) (hk1 : 0 < k) (hk : k ≤ 64) :
    (∀ (x : Bits n s) (y : Bits m s) (z : Bits k s), x.Clean → y.Clean → z.Clean →
      x.eq y = true → y.eq z = true → x.eq z = true) ↔ n ≤ hw m ∨ k ≤ hw m := by
  constructor
  · intro ht
    by_contra hc
    push Not at hc
    obtain ⟨x, cx, ex⟩ := exists_zero (n := n) (s := s)
    obtain ⟨y, cy, ey⟩ := exists_zero (n := m) (s := s)
    obtain ⟨z, cz, ez⟩ := exists_pow (m := k) (s := s) (hw_pos m) hc.2
    have hlt : hw m < hw n := lt_of_lt_of_le hc.1 (le_hw h)
    have := ht x y z cx cy cz (by rw [Bits.eq_mod h1 h hm x y cx cy, ex, ey])
      (by rw [Bits.eq_mod hm1 hm hk y z cy cz, ey, pow_mod ez]; simp)
    rw [Bits.eq_mod h1 h hk x z cx cz, ex] at this
    exact pow_mod_ne hlt ez (by rw [← this]; simp)
  · rintro (hnm | hkm) x y z cx cy cz e1 e2
    · exact C149_trans_partial h1 h hm1 hm hk hnm x y z cx cy cz e1 e2
    · rw [Bits.eq_conv hm hk y z cy cz, numOf_mem hm1 hk1 hkm] at e2
      rw [Bits.eq_mod h1 h hm x y cx cy, e2] at e1
      rw [Bits.eq_mod h1 h hk x z cx cz, e1]

/-- **C149, transitivity of wide unsigned operands, exactly**: if and only if the middle type
has all 64-bit chunks of the first or of the last one, or both of them end before the upper
half of the first chunk that it lacks. -/
theorem C149_trans_wide_iff (h : 64 < n) (hm : 64 < m) (hk : 64 < k) :
    (∀ (x : Bits n false) (y : Bits m false) (z : Bits k false), x.Clean → y.Clean → z.Clean →
      x.eq y = true → y.eq z = true → x.eq z = true) ↔
      n ≤ 64 * ((m + 63) / 64) ∨ k ≤ 64 * ((m + 63) / 64) ∨
      n ≤ 64 * ((m + 63) / 64) + 32 ∧ k ≤ 64 * ((m + 63) / 64) + 32 := by
  constructor
  · intro ht
    by_contra hc
    set P := 64 * ((m + 63) / 64) + 32 with hP
    obtain ⟨y, cy, ey⟩ := Bits.exists_clean (s := false) (0 : BitVec m)
    by_cases hn : P < n
    · obtain ⟨x, cx, ex⟩ := Bits.exists_clean (s := false) (BitVec.ofNat n (2 ^ P))
      obtain ⟨z, cz, ez⟩ := Bits.exists_clean (s := false) (0 : BitVec k)
      have e := ht x y z cx cy cz
        ((C39_wide_exact h hm x y rfl cx cy).2 (by rw [ex, ey]; exact limbEq_pow (by omega) (by omega)))
        ((C39_wide_exact hm hk y z rfl cy cz).2 (by rw [ey, ez]; exact ⟨by simp, by simp⟩))
      have := ((C39_wide_exact h hk x z rfl cx cz).1 e).1 P (by omega)
      rw [ex, ez, BitVec.getLsbD_ofNat, Nat.testBit_two_pow] at this
      simp [hn] at this
    · have hk' : P < k := by omega
      obtain ⟨x, cx, ex⟩ := Bits.exists_clean (s := false) (0 : BitVec n)
      obtain ⟨z, cz, ez⟩ := Bits.exists_clean (s := false) (BitVec.ofNat k (2 ^ P))
      have e := ht x y z cx cy cz
        ((C39_wide_exact h hm x y rfl cx cy).2 (by rw [ex, ey]; exact ⟨by simp, by simp⟩))
        ((C39_wide_exact hm hk y z rfl cy cz).2
          (by rw [ey, ez]; exact (limbEq_pow (by omega) (by omega)).symm))
      have := ((C39_wide_exact h hk x z rfl cx cz).1 e).1 P (by omega)
      rw [ex, ez, BitVec.getLsbD_ofNat, Nat.testBit_two_pow] at this
      simp [hk'] at this
  · intro hc x y z cx cy cz e1 e2
    obtain ⟨a1, a2⟩ := (C39_wide_exact h hm x y rfl cx cy).1 e1
    obtain ⟨b1, b2⟩ := (C39_wide_exact hm hk y z rfl cy cz).1 e2
    rw [C39_wide_exact h hk x z rfl cx cz]
    have ov : ∀ {w : Nat} (b : BitVec w) p, w ≤ p → b.getLsbD p = false :=
      fun b p hp => BitVec.getLsbD_of_ge b p hp
    constructor
    · intro p hp
      by_cases hpm : p < 64 * ((m + 63) / 64)
      · rw [a1 p (by omega), b1 p (by omega)]
      · -- beyond the middle operand: lower halves are zero, upper halves absent
        by_cases hl : p % 64 < 32
        · rw [(a2 p (by omega) hl).1, (b2 p (by omega) hl).2]
        · rw [ov x.bv p (by omega), ov z.bv p (by omega)]
    · intro p hp hl
      constructor
      · by_cases hpn : n ≤ p
        · exact ov _ _ hpn
        · by_cases hpm : p < 64 * ((m + 63) / 64)
          · rw [a1 p (by omega)]
            exact (b2 p (by omega) hl).1
          · exact (a2 p (by omega) hl).1
      · by_cases hpk : k ≤ p
        · exact ov _ _ hpk
        · by_cases hpm : p < 64 * ((m + 63) / 64)
          · rw [← b1 p (by omega)]
            exact (a2 p (by omega) hl).2
          · exact (b2 p (by omega) hl).2

-- 8-bit 0 == 16-bit 256, but 256 != 0; and 16-bit 0 == 8-bit 0 == 16-bit 256
example : (Bits.ofInt 0 : Bits 8 false).eq (Bits.ofInt 256 : Bits 16 false) = true ∧
    (Bits.ofInt 256 : Bits 16 false).eq (Bits.ofInt 0 : Bits 8 false) = false ∧
    (Bits.ofInt 0 : Bits 16 false).eq (Bits.ofInt 0 : Bits 8 false) = true ∧
    (Bits.ofInt 0 : Bits 16 false).eq (Bits.ofInt 256 : Bits 16 false) = false := by decide +kernel

/-! ## C150: the order -/

/-- native `<` unless both operands are signed -/
theorem Bits.lt_mod (h : n ≤ 64) (hm : m ≤ 64) (hst : (s && t) = false) (x : Bits n s) (y : Bits m t)
    (hx : x.Clean) (hy : y.Clean) :
    x.lt y = .ok (decide (numOf s x.bv % 2 ^ 64 < numOf t y.bv % 2 ^ 64)) ∧
    x.le y = .ok (decide (numOf s x.bv % 2 ^ 64 ≤ numOf t y.bv % 2 ^ 64)) := by
  by_cases e : s = t
  · subst e
    have : s = false := by simpa using hst
    subst this
    have fits : ∀ {w : Nat} (b : BitVec w), w ≤ 64 → numOf false b % 2 ^ 64 = b.toNat := by
      intro w b hw
      have := b.isLt
      have p : 2 ^ w ≤ 2 ^ 64 := Nat.pow_le_pow_right (by decide) hw
      rw [numOf, if_neg (by simp)]; omega
    rw [(C40_gt_lt (by omega) x y hx hy).2, (C40_ge_le_partial (by omega) x y hx hy (by omega)).2,
      fits _ h, fits _ hm]
    simp
  · have := C123_order_exact h hm e x y hx hy
    exact ⟨this.2.1, this.2.2.2⟩

/-- **C150, native operands, exactly.** `<` and `<=` on three types are transitive if and
only if not exactly two of the types are signed. -/
theorem C150_trans_iff (h1 : 1 < n) (h : n ≤ 64) (hm1 : 1 < m) (hm : m ≤ 64) (hk1 : 1 < k) (hk : k ≤ 64) :
    ((∀ (x : Bits n s) (y : Bits m t) (z : Bits k u), x.Clean → y.Clean → z.Clean →
      x.lt y = .ok true → y.lt z = .ok true → x.lt z = .ok true) ↔
        ¬ (s.toNat + t.toNat + u.toNat = 2)) ∧
    ((∀ (x : Bits n s) (y : Bits m t) (z : Bits k u), x.Clean → y.Clean → z.Clean →
      x.le y = .ok true → y.le z = .ok true → x.le z = .ok true) ↔
        ¬ (s.toNat + t.toNat + u.toNat = 2)) := by
  have ok : ∀ {p : Prop} [Decidable p], (Except.ok (decide p) : Res Bool) = .ok true ↔ p := by
    intro p _
    constructor
    · intro e; simpa using e
    · intro hp; rw [decide_eq_true hp]
  have ex : ∀ (w : Nat) (r : Bool) (v : Int), 1 < w → (r = true ∨ 0 ≤ v) → -1 ≤ v → v ≤ 1 →
      ∃ x : Bits w r, x.Clean ∧ numOf r x.bv = v := by
    intro w r v hw hr l1 l2
    obtain ⟨x, cx, e⟩ := Bits.exists_clean (s := r) (BitVec.ofInt w v)
    refine ⟨x, cx, ?_⟩
    have p : (2 : Int) ^ 1 ≤ 2 ^ (w - 1) := Bits.pow_mono (by omega)
    have p' : (2 : Int) ^ 1 ≤ 2 ^ w := Bits.pow_mono (by omega)
    rw [e]
    cases r with
    | true =>
      have : numOf true (BitVec.ofInt w v) = (BitVec.ofInt w v).toInt := by rw [numOf, if_pos]; simp; omega
      rw [this, BitVec.toInt_ofInt]
      exact CTy.conv_signed_of_mem (w := w) (by omega) (by omega) (by omega)
    | false =>
      have hv : 0 ≤ v := by simpa using hr
      rw [numOf, if_neg (by simp), BitVec.toNat_ofInt, Int.toNat_of_nonneg (Int.emod_nonneg _ (by positivity)),
        Int.emod_eq_of_lt hv (by push_cast; omega)]
  by_cases h2 : s.toNat + t.toNat + u.toNat = 2
  · -- a cycle of 0, 1 and -1
    have bad : ∀ (a b c : Int), (s = true ∨ 0 ≤ a) → (t = true ∨ 0 ≤ b) → (u = true ∨ 0 ≤ c) →
        -1 ≤ a → a ≤ 1 → -1 ≤ b → b ≤ 1 → -1 ≤ c → c ≤ 1 →
        (if s && t then a < b else a % 2 ^ 64 < b % 2 ^ 64) →
        (if t && u then b < c else b % 2 ^ 64 < c % 2 ^ 64) →
        (if s && u then c < a else c % 2 ^ 64 < a % 2 ^ 64) →
        ∃ (x : Bits n s) (y : Bits m t) (z : Bits k u), x.Clean ∧ y.Clean ∧ z.Clean ∧
          x.lt y = .ok true ∧ y.lt z = .ok true ∧ x.lt z = .ok false ∧
          x.le y = .ok true ∧ y.le z = .ok true ∧ x.le z = .ok false := by
      intro a b c ha hb hc a1 a2 b1 b2 c1 c2 i1 i2 i3
      obtain ⟨x, cx, exx⟩ := ex n s a h1 ha a1 a2
      obtain ⟨y, cy, exy⟩ := ex m t b hm1 hb b1 b2
      obtain ⟨z, cz, exz⟩ := ex k u c hk1 hc c1 c2
      have cmp : ∀ {n m : Nat} {s t : Bool} (hn : n ≤ 64) (hm : m ≤ 64) (x : Bits n s) (y : Bits m t),
          x.Clean → y.Clean → x.lt y = .ok (decide (if s && t then numOf s x.bv < numOf t y.bv
            else numOf s x.bv % 2 ^ 64 < numOf t y.bv % 2 ^ 64)) ∧
          x.le y = .ok (decide (if s && t then numOf s x.bv ≤ numOf t y.bv
            else numOf s x.bv % 2 ^ 64 ≤ numOf t y.bv % 2 ^ 64)) := by
        intro n m s t hn hm x y cx cy
        by_cases hst : (s && t) = true
        · obtain ⟨rfl, rfl⟩ : s = true ∧ t = true := by simpa using hst
          obtain ⟨-, e1, -, e2⟩ := C41_signed_order hn hm x y cx cy
          rw [e1, e2]; simp
        · have hf : (s && t) = false := by simpa using hst
          obtain ⟨e1, e2⟩ := Bits.lt_mod hn hm hf x y cx cy
          rw [e1, e2]; simp [hf]
      refine ⟨x, y, z, cx, cy, cz, ?_, ?_, ?_, ?_, ?_, ?_⟩
      · rw [(cmp h hm x y cx cy).1, exx, exy, decide_eq_true i1]
      · rw [(cmp hm hk y z cy cz).1, exy, exz, decide_eq_true i2]
      · rw [(cmp h hk x z cx cz).1, exx, exz, decide_eq_false]
        split_ifs at i3 ⊢ <;> omega
      · rw [(cmp h hm x y cx cy).2, exx, exy, decide_eq_true]
        split_ifs at i1 ⊢ <;> omega
      · rw [(cmp hm hk y z cy cz).2, exy, exz, decide_eq_true]
        split_ifs at i2 ⊢ <;> omega
      · rw [(cmp h hk x z cx cz).2, exx, exz, decide_eq_false]
        split_ifs at i3 ⊢ <;> omega
    have : ∃ (x : Bits n s) (y : Bits m t) (z : Bits k u), x.Clean ∧ y.Clean ∧ z.Clean ∧
          x.lt y = .ok true ∧ y.lt z = .ok true ∧ x.lt z = .ok false ∧
          x.le y = .ok true ∧ y.le z = .ok true ∧ x.le z = .ok false := by
      cases s <;> cases t <;> cases u <;> simp at h2
      · exact bad 1 (-1) 0 (by simp) (by simp) (by simp) (by simp) (by simp) (by simp) (by simp)
          (by simp) (by simp) (by decide) (by decide) (by decide)
      · exact bad 0 1 (-1) (by simp) (by simp) (by simp) (by simp) (by simp) (by simp) (by simp)
          (by simp) (by simp) (by decide) (by decide) (by decide)
      · exact bad (-1) 0 1 (by simp) (by simp) (by simp) (by simp) (by simp) (by simp) (by simp)
          (by simp) (by simp) (by decide) (by decide) (by decide)
    obtain ⟨x, y, z, cx, cy, cz, a1, a2, a3, b1, b2, b3⟩ := this
    refine ⟨⟨fun hh => ?_, fun hh => absurd h2 hh⟩, ⟨fun hh => ?_, fun hh => absurd h2 hh⟩⟩
    · have := hh x y z cx cy cz a1 a2
      rw [a3] at this; exact absurd this (by simp)
    · have := hh x y z cx cy cz b1 b2
      rw [b3] at this; exact absurd this (by simp)
  · by_cases hall : s = true ∧ t = true ∧ u = true
    · obtain ⟨rfl, rfl, rfl⟩ := hall
      refine ⟨⟨fun _ => h2, fun _ x y z cx cy cz e1 e2 => ?_⟩, ⟨fun _ => h2, fun _ x y z cx cy cz e1 e2 => ?_⟩⟩
      · rw [(C41_signed_order h hm x y cx cy).2.1, ok] at e1
        rw [(C41_signed_order hm hk y z cy cz).2.1, ok] at e2
        rw [(C41_signed_order h hk x z cx cz).2.1, ok]
        omega
      · rw [(C41_signed_order h hm x y cx cy).2.2.2, ok] at e1
        rw [(C41_signed_order hm hk y z cy cz).2.2.2, ok] at e2
        rw [(C41_signed_order h hk x z cx cz).2.2.2, ok]
        omega
    · have f1 : (s && t) = false ∧ (t && u) = false ∧ (s && u) = false := by
        revert h2 hall; cases s <;> cases t <;> cases u <;> simp
      obtain ⟨f1, f2, f3⟩ := f1
      refine ⟨⟨fun _ => h2, fun _ x y z cx cy cz e1 e2 => ?_⟩, ⟨fun _ => h2, fun _ x y z cx cy cz e1 e2 => ?_⟩⟩
      · rw [(Bits.lt_mod h hm f1 x y cx cy).1, ok] at e1
        rw [(Bits.lt_mod hm hk f2 y z cy cz).1, ok] at e2
        rw [(Bits.lt_mod h hk f3 x z cx cz).1, ok]
        omega
      · rw [(Bits.lt_mod h hm f1 x y cx cy).2, ok] at e1
        rw [(Bits.lt_mod hm hk f2 y z cy cz).2, ok] at e2
        rw [(Bits.lt_mod h hk f3 x z cx cz).2, ok]
        omega

/-- **C150 for wide unsigned operands**: `<` is transitive. -/
theorem C150_trans_wide (h : 64 < n) (hm : 64 < m) (hk : 64 < k) (x : Bits n false) (y : Bits m false)
    (z : Bits k false) (hx : x.Clean) (hy : y.Clean) (hz : z.Clean)
    (e1 : x.lt y = .ok true) (e2 : y.lt z = .ok true) : x.lt z = .ok true := by
  rw [(C40_gt_lt (by omega) x y hx hy).2] at e1
  rw [(C40_gt_lt (by omega) y z hy hz).2] at e2
  rw [(C40_gt_lt (by omega) x z hx hz).2]
  simp at e1 e2 ⊢
  omega

/-- **C150 is false for `<=` on wide unsigned operands** when the first type has an upper half
of a chunk that the middle one lacks: `2^k <= 0` and `0 <= 1`, but not `2^k <= 1`. -/
theorem C150_le_refuted (hm : 64 < m) (j : Nat) (hj : 64 * ((m + 63) / 64) ≤ j)
    (h32 : 32 ≤ j % 64) (hjn : j < n) :
    ∃ (x : Bits n false) (y : Bits m false) (z : Bits n false), x.Clean ∧ y.Clean ∧ z.Clean ∧
      x.bv.toNat = 2 ^ j ∧ y.bv.toNat = 0 ∧ z.bv.toNat = 1 ∧
      x.le y = .ok true ∧ y.le z = .ok true ∧ x.le z = .ok false := by
  obtain ⟨x, y, cx, cy, ex, ey, e1, -⟩ := C39_wide_refuted_all hm j hj h32 hjn
  obtain ⟨z, cz, ez⟩ := Bits.exists_clean (s := false) (BitVec.ofNat n 1)
  have hz : z.bv.toNat = 1 := by
    rw [ez, BitVec.toNat_ofNat, Nat.mod_eq_of_lt (Nat.one_lt_two_pow (by omega))]
  have hy0 : y.bv.toNat = 0 := by rw [ey]; simp
  have p : 2 ^ 1 ≤ 2 ^ j := Nat.pow_le_pow_right (by decide) (by omega)
  refine ⟨x, y, z, cx, cy, cz, ex, hy0, hz, ?_, ?_, ?_⟩
  · obtain ⟨-, b, hb, e⟩ := C40_ge_le_exact (by omega) hm x y rfl cx cy
    rw [hb, e.2 (Or.inr ((C39_wide_exact (by omega) hm x y rfl cx cy).1 e1))]
  · obtain ⟨-, b, hb, e⟩ := C40_ge_le_exact hm (by omega) y z rfl cy cz
    rw [hb, e.2 (Or.inl (by omega))]
  · rw [(C40_ge_le_partial (by omega) x z cx cz (fun _ => Or.inl rfl)).2, ex, hz,
      decide_eq_false (by omega)]

/-- the number by which `<` sorts wide signed operands: the least number comes right below
zero, the other negative ones below it, reduced by the unused bits of the last chunk -/
def sortKey (b : BitVec n) : Int :=
  if b.msb = true then (if b = BitVec.intMin n then -1 else 2 * (b.toInt - spare n)) else 2 * b.toInt

theorem spare_nonneg (n : Nat) : 0 ≤ spare n := by
  rw [spare]
  have : (2 : Int) ^ n ≤ 2 ^ (64 * ((n + 63) / 64)) := Bits.pow_mono (by omega)
  omega

theorem lt_sortKey (h : 64 < n) (hm : 64 < m) (x : Bits n true) (y : Bits m true)
    (hx : x.Clean) (hy : y.Clean) : x.lt y = .ok true ↔ sortKey x.bv < sortKey y.bv := by
  obtain ⟨e, -⟩ := C137_gt_exact h hm x y hx hy
  obtain ⟨-, e1, e2⟩ := C137_gt_exact hm h y x hy hx
  have ok : ∀ {p : Prop} [Decidable p], (Except.ok (decide p) : Res Bool) = .ok true ↔ p := by
    intro p _
    constructor
    · intro e; simpa using e
    · intro hp; rw [decide_eq_true hp]
  have sn := spare_nonneg n
  have sm := spare_nonneg m
  rw [e]
  by_cases mx : x.bv.msb = true
  · have nx := BitVec.toInt_neg_of_msb_true mx
    by_cases my : y.bv.msb = true
    · have ny := BitVec.toInt_neg_of_msb_true my
      obtain ⟨f1, f2, f3, f4⟩ := e2 my mx
      rw [sortKey, sortKey, if_pos mx, if_pos my]
      by_cases ix : x.bv = BitVec.intMin n
      · rw [if_pos ix]
        by_cases iy : y.bv = BitVec.intMin m
        · rw [if_pos iy]
          have : y.gt x = .error .diverge := by
            rw [Bits.gt, dif_neg (by omega), dif_neg (by omega)]
            exact f4 iy ix _
          rw [this]; simp
        · rw [if_neg iy, f3 iy ix]
          simp; omega
      · rw [if_neg ix]
        by_cases iy : y.bv = BitVec.intMin m
        · rw [if_pos iy, f2 iy ix]
          simp; omega
        · rw [if_neg iy, f1 iy ix, ok]
          omega
    · rw [e1 (fun c => my c.1), ok, sortKey, sortKey, if_pos mx, if_neg my]
      have ny := BitVec.toInt_nonneg_of_msb_false (by simpa using my : y.bv.msb = false)
      split_ifs <;> omega
  · have nx := BitVec.toInt_nonneg_of_msb_false (by simpa using mx : x.bv.msb = false)
    rw [e1 (fun c => mx c.2), ok, sortKey, sortKey, if_neg mx]
    by_cases my : y.bv.msb = true
    · have ny := BitVec.toInt_neg_of_msb_true my
      rw [if_pos my]
      split_ifs <;> omega
    · rw [if_neg my]; omega

/-- **C150 for wide signed operands**: `<` is transitive, also where it is not the order of
the numbers (`C137_gt_exact`): whenever `a < b` and `b < c` answer true, so does `a < c`. -/
theorem C150_trans_wide_signed (h : 64 < n) (hm : 64 < m) (hk : 64 < k) (x : Bits n true)
    (y : Bits m true) (z : Bits k true) (hx : x.Clean) (hy : y.Clean) (hz : z.Clean)
    (e1 : x.lt y = .ok true) (e2 : y.lt z = .ok true) : x.lt z = .ok true := by
  rw [lt_sortKey h hm x y hx hy] at e1
  rw [lt_sortKey hm hk y z hy hz] at e2
  rw [lt_sortKey h hk x z hx hz]
  omega

-- 70-bit 3 < 80-bit 5 < 100-bit 9; the widths of `C150_le_refuted`
example : (Bits.ofInt 3 : Bits 70 false).lt (Bits.ofInt 5 : Bits 80 false) = .ok true ∧
    (Bits.ofInt 5 : Bits 80 false).lt (Bits.ofInt 9 : Bits 100 false) = .ok true := by decide +kernel
example : 64 * ((65 + 63) / 64) ≤ 160 ∧ 32 ≤ 160 % 64 ∧ 160 < 161 := by decide

end Verif
