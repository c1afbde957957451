import Verif.Props.SignMix

/-!
# Wide quotients and remainders by signed divisors (C123)

`big_num::div_mod` converts a signed divisor to unsigned, lines 819-846 of `big_num.hh`; the extension to the
larger width comes before and is that of the divisor's own signedness.
-/

namespace Verif

variable {n m : Nat} {s t : Bool}

/-- the sign of a wide divisor does not enter the division -/
theorem Bits.div_wide_sign (h : 64 < n) (x : Bits n false) (y : Bits n t) :
    x.div y = x.div (y.toSign false) ∧ x.mod y = x.mod (y.toSign false) := by
  have h' : ¬ n ≤ 64 := by omega
  have e : (y.toSign false).bg h' = (y.bg h').toSign false := by rw [Bits.toSign, dif_neg h']; rfl
  constructor
  · rw [Bits.div, Bits.div, dif_neg h', dif_neg h', e]; rfl
  · rw [Bits.mod, Bits.mod, dif_neg h', dif_neg h', e]; rfl

theorem Bits.clean_toSign_wide (h : 64 < n) {y : Bits n s} (hy : y.Clean) : (y.toSign t).Clean := by
  have h' : ¬ n ≤ 64 := by omega
  rw [Bits.clean_big h'] at hy ⊢
  rw [Bits.toSign, dif_neg h']
  exact hy

/-- **C123, wide quotient and remainder by a signed divisor, exactly.** The divisor is first extended
with its own sign, then its bits are read as an unsigned number; on that number the division is that of
`C31_wide_exact`. Wide signed divisors narrower than the dividend are not meant here (`C122_wide_exact` shows
what their extension gives). -/
theorem C123_wide_div_exact (hn : 0 < n) (hm : 0 < m) (h : 64 < max n m) (hN : max n m ≤ 2 ^ 32) (x : Bits n false)
    (y : Bits m true) (hx : x.Clean) (hy : y.Clean) (hm' : m ≤ 64 ∨ n ≤ m) (D : BitVec (max n m))
    (hD : D = BitVec.ofInt (max n m) (numOf true y.bv)) :
    ∃ q r, x.divMix y = .ok q ∧ x.modMix y = .ok r ∧ q.Clean ∧ r.Clean ∧
      (¬ AnyLow D → q.bv = 0 ∧ r.bv = 0) ∧
      (AnyLow D →
        (D.toNat % 2 ^ 64 = 1 ∧ LowOnly D → q.bv.toNat = x.bv.toNat ∧ r.bv = 0) ∧
        (¬ (D.toNat % 2 ^ 64 = 1 ∧ LowOnly D) →
          (D.toNat < x.bv.toNat ∧ LowOnly x.bv ∧ LowOnly D →
            q.bv.toNat = (x.bv.toNat % 2 ^ 64) / (D.toNat % 2 ^ 64) ∧
            r.bv.toNat = (x.bv.toNat % 2 ^ 64) % (D.toNat % 2 ^ 64)) ∧
          (¬ (D.toNat < x.bv.toNat ∧ LowOnly x.bv ∧ LowOnly D) →
            q.bv.toNat = x.bv.toNat / D.toNat ∧ r.bv.toNat = x.bv.toNat % D.toNat))) := by
  have ex := Bits.bv_extend_unsigned hn (Nat.le_max_left n m) hx
  have cx := Bits.Clean.extend_unsigned hn (Nat.le_max_left n m) hx
  have ey : (y.extend (max n m)).bv = D := by
    rw [Bits.bv_extend_num hm (Nat.le_max_right n m) hy, hD, extNum, if_neg (by omega)]
  have cy : (y.extend (max n m)).Clean := by
    rcases Nat.lt_or_ge 64 m with hw | hw
    · have e : max n m = m := by omega
      rw [e, Bits.extend_self]; exact hy
    · exact Bits.Clean.extend_native hm hw (Nat.le_max_right n m) hy
  obtain ⟨d1, d2⟩ := Bits.div_wide_sign h (x.extend (max n m)) (y.extend (max n m))
  have ey' : ((y.extend (max n m)).toSign false).bv = D := by rw [Bits.bv_toSign, ey]
  obtain ⟨q, r, hq, hr, cq, cr, h0, h1⟩ :=
    C31_wide_exact h hN (x.extend (max n m)) _ cx (Bits.clean_toSign_wide (t := false) h cy)
  rw [ey'] at h0
  rw [ex, ey'] at h1
  simp only [lowOnly_setWidth (Nat.le_max_left n m), toNat_setWidth_le (Nat.le_max_left n m)] at h1
  refine ⟨q, r, d1.trans hq, d2.trans hr, cq, cr, h0, fun ha => ?_⟩
  obtain ⟨a, b⟩ := h1 ha
  refine ⟨fun h => ?_, fun h => ⟨(b h).1, fun hc => ?_⟩⟩
  · obtain ⟨a1, a2⟩ := a h
    exact ⟨by rw [a1, toNat_setWidth_le (Nat.le_max_left n m)], a2⟩
  · obtain ⟨b1, b2⟩ := (b h).2 hc
    rw [b1, b2, BitVec.toNat_udiv, BitVec.toNat_umod, toNat_setWidth_le (Nat.le_max_left n m)]
    exact ⟨rfl, rfl⟩

/-- **C123 is false for every wide dividend by a native negative divisor**: the divisor is sign-extended
although the operation is unsigned; `(2^m - 1) / -1`, where SystemVerilog reads the divisor as `2^m - 1`,
is 0 with the dividend as remainder. -/
theorem C123_wide_div_refuted (h : 64 < n) (hN : n ≤ 2 ^ 32) (h1 : 1 < m) (hm : m ≤ 64) :
    ∃ (x : Bits n false) (y : Bits m true), x.Clean ∧ y.Clean ∧ x.bv.toNat = 2 ^ m - 1 ∧ y.bv.toNat = 2 ^ m - 1 ∧
      ∃ q r, x.divMix y = .ok q ∧ x.modMix y = .ok r ∧ q.bv.toNat = 0 ∧ r.bv.toNat = 2 ^ m - 1 := by
  have hmx : max n m = n := by omega
  have plt : 2 ^ m < 2 ^ n := Nat.pow_lt_pow_right (by decide) (by omega)
  have p0 : 0 < 2 ^ m := Nat.two_pow_pos m
  obtain ⟨x, cx, ex⟩ := Bits.exists_clean (s := false) (BitVec.ofNat n (2 ^ m - 1))
  obtain ⟨y, cy, ey⟩ := Bits.exists_clean (s := true) (BitVec.allOnes m)
  have nx : x.bv.toNat = 2 ^ m - 1 := by rw [ex, BitVec.toNat_ofNat, Nat.mod_eq_of_lt (by omega)]
  have ny : numOf true y.bv = -1 := by
    rw [toInt_of_num (by omega), ey, BitVec.toInt_allOnes, if_pos (by omega)]
  have hD : BitVec.ofInt (max n m) (-1) = BitVec.allOnes (max n m) := by
    rw [BitVec.ofInt_neg, ← BitVec.neg_one_eq_allOnes]; rfl
  obtain ⟨q, r, hq, hr, -, -, -, hh⟩ := C123_wide_div_exact (by omega) (by omega) (by omega) (by omega) x y cx cy
    (Or.inl hm) _ rfl
  rw [ny, hD] at hh
  have g : ∀ i, (BitVec.allOnes (max n m)).getLsbD i = decide (i < max n m) := fun i => BitVec.getLsbD_allOnes
  have nl : ¬ LowOnly (BitVec.allOnes (max n m)) := fun hc => by
    have := hc 64 (by omega) (by decide)
    rw [g] at this
    simp at this
    omega
  have key := ((hh ⟨0, by decide, by rw [g]; simp; omega⟩).2 (fun hc => nl hc.2)).2 (fun hc => nl hc.2.2)
  have dn : (BitVec.allOnes (max n m)).toNat = 2 ^ n - 1 := by rw [BitVec.toNat_allOnes, hmx]
  rw [dn, nx, Nat.div_eq_of_lt (by omega), Nat.mod_eq_of_lt (by omega)] at key
  exact ⟨x, y, cx, cy, nx, by rw [ey, BitVec.toNat_allOnes], q, r, hq, hr, key⟩

/-- **C123, 4-state wide quotient and remainder by a signed divisor**: for operands without x/z whose divisor
passes `any_set()`, the planes are those of the 2-state results. -/
theorem C123_wide_div_logic (hn : 0 < n) (hm : 0 < m) (h : 64 < max n m) (x : Lg n false) (y : Lg m true)
    (hx : x.Known) (hy : y.Known) (cy : y.value.Clean) (hm' : m ≤ 64 ∨ n ≤ m)
    (ha : AnyLow (BitVec.ofInt (max n m) (numOf true y.value.bv))) :
    (∀ q, x.value.divMix y.value = .ok q → x.divMix y = .ok ⟨q, Bits.zero⟩) ∧
    ∀ r, x.value.modMix y.value = .ok r → x.modMix y = .ok ⟨r, Bits.zero⟩ := by
  have kx := hx.extend hn (Nat.le_max_left n m)
  have ky := hy.extend hm (Nat.le_max_right n m)
  have ey : (y.value.extend (max n m)).bv = BitVec.ofInt (max n m) (numOf true y.value.bv) := by
    rw [Bits.bv_extend_num hm (Nat.le_max_right n m) cy, extNum, if_neg (by omega)]
  have cy' : (y.value.extend (max n m)).Clean := by
    rcases Nat.lt_or_ge 64 m with hw | hw
    · have e : max n m = m := by omega
      rw [e, Bits.extend_self]; exact cy
    · exact Bits.Clean.extend_native hm hw (Nat.le_max_right n m) cy
  have h' : ¬ max n m ≤ 64 := by omega
  have hs : (y.extend (max n m)).value.anySet = true := by
    show (y.value.extend (max n m)).anySet = true
    rw [Bits.anySet, dif_neg h', Big.anySet_iff ((Bits.clean_big h' _).1 cy'), ← Bits.bv_big h', ey]
    exact ha
  exact ⟨fun q hq => Lg.divWith_known kx ky hs hq, fun r hr => Lg.divWith_known kx ky hs hr⟩

end Verif
