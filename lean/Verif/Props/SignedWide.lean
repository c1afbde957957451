import Verif.Props.CompareExact
import Verif.Show

/-!
# C137: signed order of limb-based values of different widths

`operator>` of two negative operands compares the magnitudes `negate()` (`big_num.hh`
490-522, 750-756). `negate()` complements whole limbs, so the unused bits of the top limb
become ones and count in the comparison of the magnitudes. Between equal widths they cancel
(C42), between different widths they do not.
-/

namespace Verif

variable {n m : Nat} {s t : Bool}

/-- the number that the unused bits of the last 64-bit chunk of an `n`-bit vector denote when
they are all one -/
def spare (n : Nat) : Int := 2 ^ (64 * ((n + 63) / 64)) - 2 ^ n

theorem spare_eq (n : Nat) : spare n = 2 ^ (64 * limbs n) - 2 ^ n := by
  rw [spare, limbs]; congr 3; split_ifs <;> omega

namespace Big

theorem val_ne_zero {x : Big n s} (hx : x.Clean) (h1 : x.bv.msb = true) : val x.vals ≠ 0 := by
  rw [← hx.toNat_bv]; intro e
  have : x.bv = 0#n := BitVec.eq_of_toNat_eq (by simpa using e)
  rw [this] at h1; simp at h1

theorem neg_mag (hn : 0 < n) {x : Big n s} (hx : x.Clean) (h1 : x.bv.msb = true) :
    (val x.negate.vals : Int) = spare n - x.bv.toInt := by
  have l := x.val_lt'
  have nz := val_ne_zero hx h1
  rw [negate_spec hn, spare_eq, toInt_eq, if_pos h1, hx.toNat_bv]
  have e : (2 ^ (64 * limbs n) : Int) = ((2 ^ (64 * limbs n) : Nat) : Int) := by norm_cast
  rw [e]
  generalize 2 ^ (64 * limbs n) = N at *
  rw [Nat.mod_eq_of_lt (by omega)]
  omega

/-- signed `>` of any two widths -/
theorem gt_signed_mix (hn : 0 < n) (hm : 0 < m) {x : Big n true} {y : Big m true} (hx : x.Clean) (hy : y.Clean) :
    (¬ (x.bv.msb = true ∧ y.bv.msb = true) → x.gt y = .ok (decide (y.bv.toInt < x.bv.toInt))) ∧
    (x.bv.msb = true → y.bv.msb = true →
      (x.bv ≠ BitVec.intMin n → y.bv ≠ BitVec.intMin m →
        x.gt y = .ok (decide (spare n - x.bv.toInt < spare m - y.bv.toInt))) ∧
      (x.bv = BitVec.intMin n → y.bv ≠ BitVec.intMin m → x.gt y = .ok true) ∧
      (x.bv ≠ BitVec.intMin n → y.bv = BitVec.intMin m → x.gt y = .ok false)) := by
  have bx' : (x.bv.toNat : Int) < 2 ^ n := by exact_mod_cast x.bv.isLt
  have by'' : (y.bv.toNat : Int) < 2 ^ m := by exact_mod_cast y.bv.isLt
  refine ⟨fun h => ?_, fun h1 h2 => ⟨fun e1 e2 => ?_, fun e1 e2 => ?_, fun e1 e2 => ?_⟩⟩
  · rw [gt, if_pos (by rfl)]
    show gtS (3 + 1) x y = _
    rw [gtS, negative_eq x hn, negative_eq y hm, toInt_eq, toInt_eq]
    cases h1 : x.bv.msb <;> cases h2 : y.bv.msb
    · show Except.ok _ = _
      rw [gtMag_spec, ← hx.toNat_bv, ← hy.toNat_bv]
      simp
    · show Except.ok true = _
      congr 1; symm; rw [decide_eq_true_iff, if_pos rfl, if_neg (by decide)]; omega
    · show Except.ok false = _
      congr 1; symm; rw [decide_eq_false_iff_not, if_pos rfl, if_neg (by decide)]; omega
    · exact absurd ⟨h1, h2⟩ h
  · rw [gt, if_pos (by rfl)]
    show gtS (3 + 1) x y = _
    rw [gtS, negative_eq x hn, negative_eq y hm, h1, h2]
    show gtS (2 + 1) y.negate x.negate = _
    rw [gtS, negative_eq _ hn, negative_eq _ hm, msb_negate hn x h1, msb_negate hm y h2, decide_eq_false e1,
      decide_eq_false e2]
    show Except.ok _ = _
    rw [gtMag_spec, ← neg_mag hn hx h1, ← neg_mag hm hy h2]
    simp only [Nat.cast_lt]
  · rw [gt, if_pos (by rfl)]
    show gtS (3 + 1) x y = _
    rw [gtS, negative_eq x hn, negative_eq y hm, h1, h2]
    show gtS (2 + 1) y.negate x.negate = _
    rw [gtS, negative_eq _ hn, negative_eq _ hm, msb_negate hn x h1, msb_negate hm y h2, decide_eq_true e1,
      decide_eq_false e2]
    rfl
  · rw [gt, if_pos (by rfl)]
    show gtS (3 + 1) x y = _
    rw [gtS, negative_eq x hn, negative_eq y hm, h1, h2]
    show gtS (2 + 1) y.negate x.negate = _
    rw [gtS, negative_eq _ hn, negative_eq _ hm, msb_negate hn x h1, msb_negate hm y h2, decide_eq_false e1,
      decide_eq_true e2]
    rfl

/-- two least numbers: the recursion does not end -/
theorem gtS_min_mix (hn : 0 < n) (hm : 0 < m) (fuel : Nat) :
    (∀ (x : Big n true) (y : Big m true), x.bv.msb = true → y.bv.msb = true →
      x.negate.bv.msb = true → y.negate.bv.msb = true → gtS fuel x y = .error .diverge) ∧
    (∀ (x : Big n true) (y : Big m true), x.bv.msb = true → y.bv.msb = true →
      x.negate.bv.msb = true → y.negate.bv.msb = true → gtS fuel y x = .error .diverge) := by
  induction fuel with
  | zero => exact ⟨fun _ _ _ _ _ _ => rfl, fun _ _ _ _ _ _ => rfl⟩
  | succ k ih =>
    refine ⟨fun x y h1 h2 h3 h4 => ?_, fun x y h1 h2 h3 h4 => ?_⟩
    · rw [gtS, negative_eq x hn, negative_eq y hm, h1, h2]
      exact ih.2 x.negate y.negate h3 h4 (by rw [negate_negate hn]; exact h1) (by rw [negate_negate hm]; exact h2)
    · rw [gtS, negative_eq x hn, negative_eq y hm, h1, h2]
      exact ih.1 x.negate y.negate h3 h4 (by rw [negate_negate hn]; exact h1) (by rw [negate_negate hm]; exact h2)

end Big

theorem wide_gt_eq (h : 64 < n) (hm : 64 < m) (x : Bits n s) (y : Bits m t) :
    x.gt y = (x.bg (by omega)).gt (y.bg (by omega)) ∧ x.lt y = y.gt x := by
  have h1 : ¬ n ≤ 64 := by omega
  have h2 : ¬ m ≤ 64 := by omega
  constructor
  · rw [Bits.gt, dif_neg h1, dif_neg h2]
  · rw [Bits.lt, Bits.gt, dif_neg h1, dif_neg h2, dif_neg h2, dif_neg h1, Big.lt]

/-! ## C137 -/

/-- **C137, exact.** Two canonical signed operands of more than 64 bits and of any widths:
`a > b` is right when not both are negative. Two negative operands other than the least
numbers are compared by their magnitudes, each increased by the unused bits of its last
chunk. The least number is greater than the others, and against a least number the
comparison does not end. `a < b` is `b > a`. -/
theorem C137_gt_exact (h : 64 < n) (hm : 64 < m) (x : Bits n true) (y : Bits m true)
    (hx : x.Clean) (hy : y.Clean) :
    x.lt y = y.gt x ∧
    (¬ (x.bv.msb = true ∧ y.bv.msb = true) → x.gt y = .ok (decide (y.bv.toInt < x.bv.toInt))) ∧
    (x.bv.msb = true → y.bv.msb = true →
      (x.bv ≠ BitVec.intMin n → y.bv ≠ BitVec.intMin m →
        x.gt y = .ok (decide (spare n - x.bv.toInt < spare m - y.bv.toInt))) ∧
      (x.bv = BitVec.intMin n → y.bv ≠ BitVec.intMin m → x.gt y = .ok true) ∧
      (x.bv ≠ BitVec.intMin n → y.bv = BitVec.intMin m → x.gt y = .ok false) ∧
      (x.bv = BitVec.intMin n → y.bv = BitVec.intMin m →
        ∀ fuel, Big.gtS fuel (x.bg (by omega)) (y.bg (by omega)) = .error .diverge)) := by
  have h1 : ¬ n ≤ 64 := by omega
  have h2 : ¬ m ≤ 64 := by omega
  obtain ⟨e1, e2⟩ := wide_gt_eq h hm x y
  refine ⟨e2, ?_⟩
  rw [e1]
  rw [Bits.clean_big h1] at hx
  rw [Bits.clean_big h2] at hy
  rw [Bits.bv_big h1 x, Bits.bv_big h2 y]
  obtain ⟨a, b⟩ := Big.gt_signed_mix (by omega) (by omega) hx hy
  refine ⟨a, fun m1 m2 => ⟨(b m1 m2).1, (b m1 m2).2.1, (b m1 m2).2.2, fun q1 q2 fuel => ?_⟩⟩
  exact (Big.gtS_min_mix (by omega) (by omega) fuel).1 _ _ m1 m2
    (by rw [Big.msb_negate (by omega) _ m1]; simpa using q1) (by rw [Big.msb_negate (by omega) _ m2]; simpa using q2)

/-- **C137, partial.** `a > b` and `a < b` are the order of the numbers when one of them is
not negative, and also for negative numbers when both widths are multiples of 64 and neither
is the least number of its width. Missing: other negative operands (`C137_refuted_chunks`,
`C137_refuted_same`, `C137_gt_exact`). -/
theorem C137_order_partial (h : 64 < n) (hm : 64 < m) (x : Bits n true) (y : Bits m true)
    (hx : x.Clean) (hy : y.Clean)
    (hc : x.bv.msb = true → y.bv.msb = true →
      n % 64 = 0 ∧ m % 64 = 0 ∧ x.bv ≠ BitVec.intMin n ∧ y.bv ≠ BitVec.intMin m) :
    x.gt y = .ok (decide (y.bv.toInt < x.bv.toInt)) ∧ x.lt y = .ok (decide (x.bv.toInt < y.bv.toInt)) := by
  obtain ⟨e, a, b⟩ := C137_gt_exact h hm x y hx hy
  obtain ⟨-, a', b'⟩ := C137_gt_exact hm h y x hy hx
  rw [e]
  by_cases hb : x.bv.msb = true ∧ y.bv.msb = true
  · obtain ⟨hn0, hm0, i1, i2⟩ := hc hb.1 hb.2
    have z1 : spare n = 0 := by rw [spare, show 64 * ((n + 63) / 64) = n by omega, sub_self]
    have z2 : spare m = 0 := by rw [spare, show 64 * ((m + 63) / 64) = m by omega, sub_self]
    rw [(b hb.1 hb.2).1 i1 i2, (b' hb.2 hb.1).1 i2 i1, z1, z2]
    constructor <;> congr 2 <;> simp only [eq_iff_iff] <;> omega
  · exact ⟨a hb, a' (fun c => hb c.symm)⟩

theorem neg_bounds (b : BitVec n) (hb : b.msb = true) : -2 ^ (n - 1) ≤ b.toInt ∧ b.toInt < 0 := by
  refine ⟨BitVec.le_toInt b, ?_⟩
  rw [BitVec.toInt_eq_msb_cond, if_pos hb]
  have := b.isLt
  omega

/-- **C137 is false for negative operands of different widths within the same number of
64-bit chunks**: the operand of the wider type is always reported the greater. -/
theorem C137_refuted_same (h : 64 < n) (hnm : n < m) (hc : (n + 63) / 64 = (m + 63) / 64)
    (x : Bits n true) (y : Bits m true) (hx : x.Clean) (hy : y.Clean) (mx : x.bv.msb = true) (my : y.bv.msb = true)
    (ix : x.bv ≠ BitVec.intMin n) (iy : y.bv ≠ BitVec.intMin m) :
    x.gt y = .ok false ∧ y.gt x = .ok true := by
  have g1 := ((C137_gt_exact h (by omega) x y hx hy).2.2 mx my).1 ix iy
  have g2 := ((C137_gt_exact (by omega) h y x hy hx).2.2 my mx).1 iy ix
  obtain ⟨b1, b2⟩ := neg_bounds x.bv mx
  obtain ⟨b3, b4⟩ := neg_bounds y.bv my
  have p : (2 : Int) ^ n ≤ 2 ^ (m - 1) := Bits.pow_mono (by omega)
  have q : (2 : Int) ^ m = 2 * 2 ^ (m - 1) := by rw [← pow_succ', show m - 1 + 1 = m by omega]
  rw [g1, g2, spare, spare, hc]
  constructor
  · congr 1; rw [decide_eq_false_iff_not]; omega
  · congr 1; rw [decide_eq_true_iff]; omega

/-- **C137 is false for negative operands with different numbers of 64-bit chunks**, unless
the width of the longer one is a multiple of 64: the shorter one is always reported the
greater. -/
theorem C137_refuted_chunks (h : 64 < n) (hc : (n + 63) / 64 < (m + 63) / 64) (hm : m % 64 ≠ 0)
    (x : Bits n true) (y : Bits m true) (hx : x.Clean) (hy : y.Clean) (mx : x.bv.msb = true) (my : y.bv.msb = true)
    (ix : x.bv ≠ BitVec.intMin n) (iy : y.bv ≠ BitVec.intMin m) :
    x.gt y = .ok true ∧ y.gt x = .ok false := by
  have g1 := ((C137_gt_exact h (by omega) x y hx hy).2.2 mx my).1 ix iy
  have g2 := ((C137_gt_exact (by omega) h y x hy hx).2.2 my mx).1 iy ix
  obtain ⟨b1, b2⟩ := neg_bounds x.bv mx
  obtain ⟨b3, b4⟩ := neg_bounds y.bv my
  have p : (2 : Int) ^ (64 * ((n + 63) / 64)) ≤ 2 ^ (64 * ((m + 63) / 64) - 1) := Bits.pow_mono (by omega)
  have r : (2 : Int) ^ m ≤ 2 ^ (64 * ((m + 63) / 64) - 1) := Bits.pow_mono (by omega)
  have q : (2 : Int) ^ (64 * ((m + 63) / 64)) = 2 * 2 ^ (64 * ((m + 63) / 64) - 1) := by
    rw [← pow_succ', show 64 * ((m + 63) / 64) - 1 + 1 = 64 * ((m + 63) / 64) by omega]
  have o : (2 : Int) ^ n = 2 * 2 ^ (n - 1) := by rw [← pow_succ', show n - 1 + 1 = n by omega]
  have o1 : (0 : Int) < 2 ^ (n - 1) := by positivity
  rw [g1, g2, spare, spare]
  constructor
  · congr 1; rw [decide_eq_true_iff]; omega
  · congr 1; rw [decide_eq_false_iff_not]; omega

/-- a negative number of `n` bits, `-k`, as the library makes it -/
private def neg (n k : Nat) : Bits n true := ((Bits.ofInt k : Bits n true).negate.toOption.get!).toSigned
private def clean (n k : Nat) : Bits n true := ((neg n k).toUnsigned.maskOff.toOption.get!).toSigned

-- 70 against 100 bits: -5 is reported greater than -3; 70 against 130 bits: too
example : (clean 70 5).Clean ∧ (clean 70 5).bv.toInt = -5 ∧ (clean 100 3).Clean ∧ (clean 100 3).bv.toInt = -3 ∧
    (clean 70 3).gt (clean 100 5) = .ok false ∧ (clean 100 5).gt (clean 70 3) = .ok true ∧
    (clean 70 5).gt (clean 130 3) = .ok true := by decide +kernel
example : (clean 128 5).gt (clean 192 3) = .ok false ∧ (clean 128 3).gt (clean 192 5) = .ok true ∧
    (clean 128 5).Clean ∧ (clean 192 3).Clean := by decide +kernel

end Verif
