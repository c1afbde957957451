import Verif.Model.Static
import Verif.Lemmas.BigDiv
import Verif.Props.Reduction
import Verif.Props.Arith
import Verif.Props.Convert
import Verif.Props.Canonical
import Verif.Show

/-!
# Highest bit, negation and population count: C96, C97, C98
-/

namespace Verif

variable {n m : Nat} {s t : Bool}

/-! ## C96 -/

/-- a number between two consecutive powers of two has its highest one there -/
theorem top_bit {b : BitVec n} {k : Nat} (h1 : 2 ^ k ≤ b.toNat) (h2 : b.toNat < 2 ^ (k + 1)) :
    k < n ∧ b.getLsbD k = true ∧ ∀ j, k < j → b.getLsbD j = false := by
  have ht : b.getLsbD k = true := by
    show b.toNat.testBit k = true
    rw [Nat.testBit_eq_decide_div_mod_eq]
    have : b.toNat / 2 ^ k = 1 := Nat.div_eq_of_lt_le (by omega) (by rw [Nat.pow_succ] at h2; omega)
    rw [this]; rfl
  refine ⟨BitVec.lt_of_getLsbD ht, ht, fun j hj => ?_⟩
  show b.toNat.testBit j = false
  exact Nat.testBit_lt_two_pow (Nat.lt_of_lt_of_le h2 (Nat.pow_le_pow_right (by decide) hj))

/-- **C96, partial.** `highest_bit()` of a canonical non-zero value is the position of its
highest one: wide values, unsigned values, native signed values that are not negative,
and 64 bit ones. Missing: negative signed values of fewer bits (`C96_negative`) and zero
(`C96_zero`). -/
theorem C96_highest_bit_partial (x : Bits n s) (hx : x.Clean) (h0 : x.bv ≠ 0)
    (hs : n ≤ 64 → s = true → 1 < n → x.bv.msb = false ∨ n = 64) :
    x.highestBit < n ∧ x.bv.getLsbD x.highestBit = true ∧ ∀ j, x.highestBit < j → x.bv.getLsbD j = false := by
  have h0' : x.bv.toNat ≠ 0 := fun e => h0 (BitVec.eq_of_toNat_eq (by simpa using e))
  by_cases h : n ≤ 64
  · have e := (Bits.clean_native h x).1 hx
    have key : BitVec.ofInt 64 x.nv.v = x.bv.setWidth 64 ∧ x.nv.v ≠ 0 := by
      rw [e, numOf]
      split_ifs with hc
      · simp only [Bool.and_eq_true, Bool.not_eq_true', decide_eq_false_iff_not] at hc
        rcases hs h hc.1 (by omega) with hm | rfl
        · rw [BitVec.toInt_eq_toNat_of_msb hm]
          refine ⟨?_, by simpa using h0'⟩
          rw [ofInt_natCast, BitVec.ofNat_toNat]
        · refine ⟨?_, fun e => h0 (BitVec.eq_of_toInt_eq (by simpa using e))⟩
          rw [BitVec.setWidth_eq, BitVec.ofInt_toInt]
      · refine ⟨?_, by simpa using h0'⟩
        rw [ofInt_natCast, BitVec.ofNat_toNat]
    have hb : (x.bv.setWidth 64).toNat = x.bv.toNat := by
      rw [BitVec.toNat_setWidth, Nat.mod_eq_of_lt]
      exact Nat.lt_of_lt_of_le x.bv.isLt (Nat.pow_le_pow_right (by decide) h)
    have hne : x.bv.setWidth 64 ≠ 0 := fun e => h0' (by rw [← hb, e]; rfl)
    have hk : x.highestBit = 64 - 1 - (x.bv.setWidth 64).clz.toNat := by
      rw [Bits.highestBit, dif_pos h, if_neg key.2, key.1]; omega
    rw [hk]
    have h1 := BitVec.two_pow_sub_clz_le_toNat_of_ne_zero (by decide) hne
    have h2 := BitVec.toNat_lt_two_pow_sub_clz (x := x.bv.setWidth 64)
    have hc := BitVec.clz_lt_iff_ne_zero.mpr hne
    rw [BitVec.lt_def] at hc
    simp at hc
    rw [hb] at h1 h2
    exact top_bit h1 (by rwa [show 64 - 1 - (x.bv.setWidth 64).clz.toNat + 1 = 64 - (x.bv.setWidth 64).clz.toNat by omega])
  · have hc := (Bits.clean_big h x).1 hx
    have e : x.bv.toNat = val (x.bg h).vals := by rw [Bits.bv_big h, hc.toNat_bv]
    have := (x.bg h).highestBit_spec (by rwa [← e])
    rw [← e] at this
    have hk : x.highestBit = (x.bg h).highestBit := by rw [Bits.highestBit, dif_neg h]
    rw [hk]
    exact top_bit this.1 this.2

/-- **C96 is false for negative values** of signed types of 2 to 63 bits: the answer is
63, which is no position. -/
theorem C96_negative (h : n < 64) (h1 : 1 < n) (x : Bits n true) (hx : x.Clean) (hm : x.bv.msb = true) :
    x.highestBit = 63 ∧ ¬ x.highestBit < n := by
  obtain ⟨e, b0, b1⟩ := Bits.clean_signed_bounds (by omega) h1 hx
  have hneg : x.nv.v < 0 := by
    rw [e]; have := BitVec.msb_eq_toInt (x := x.bv); rw [hm] at this; simpa using this.symm
  have h64 : (2 : Int) ^ (n - 1) ≤ 2 ^ 63 := by
    exact_mod_cast Nat.pow_le_pow_right (by decide) (show n - 1 ≤ 63 by omega)
  have hmsb : (BitVec.ofInt 64 x.nv.v).msb = true := by
    rw [BitVec.msb_eq_toInt, decide_eq_true_iff, BitVec.toInt_ofInt, Int.bmod_eq_of_le (by norm_num; omega) (by norm_num; omega)]
    exact hneg
  have hc : (BitVec.ofInt 64 x.nv.v).clz.toNat = 0 := by
    rw [BitVec.clz_eq_zero_iff (by decide)]
    have := BitVec.msb_eq_true_iff_two_mul_ge.1 hmsb
    omega
  have : x.highestBit = 63 := by
    rw [Bits.highestBit, dif_pos (by omega), if_neg (by omega), hc]
  omega

/-- **C96 for zero**: a native zero gives the width; a wide one gives the number of its
limbs, which is the position of a bit. -/
theorem C96_zero (x : Bits n s) (hx : x.Clean) (h0 : x.bv = 0) :
    (n ≤ 64 → x.highestBit = n) ∧ (64 < n → x.highestBit = limbs n ∧ x.highestBit < n) := by
  constructor
  · intro h
    have e := (Bits.clean_native h x).1 hx
    rw [Bits.highestBit, dif_pos h, if_pos]
    rw [e, h0, numOf]; simp
  · intro h
    have hc := (Bits.clean_big (by omega) x).1 hx
    have e : val (x.bg (by omega)).vals = 0 := by
      rw [← hc.toNat_bv, ← Bits.bv_big (by omega), h0]; rfl
    have hz : ∀ j, (x.bg (by omega)).limb j = 0 := fun j =>
      ((x.bg (by omega)).pre_eq_val_iff 0).1 (by rw [e, Big.pre_zero]) j (Nat.zero_le _)
    have hl : ∀ k, (x.bg (by omega)).highestBitLoop k = none := by
      intro k
      induction k with
      | zero => rfl
      | succ k ih => rw [Big.highestBitLoop, hz k]; exact ih
    have : x.highestBit = limbs n := by
      rw [Bits.highestBit, dif_neg (by omega), Big.highestBit, hl]; rfl
    have := limbs_lt n
    omega

example : (Bits.ofInt 0x50 : Bits 12 false).highestBit = 6 ∧ (Bits.ofInt (-1) : Bits 12 true).highestBit = 63 ∧
    ((Bits.ofInt 5 : Bits 100 false).extend 200).highestBit = 2 := by decide +kernel

/-- **C96 is false as stated**: -1 in twelve bits, and the 100 bit zero, which gives 2. -/
theorem C96_refuted : (Bits.ofInt (-1) : Bits 12 true).highestBit = 63 ∧
    (Bits.zero : Bits 100 false).highestBit = 2 ∧ (Bits.ofInt 4 : Bits 100 false).highestBit = 2 := by
  decide +kernel

/-! ## C97 -/

/-- zeros above the width and a clear sign bit: canonical for signed types too -/
theorem Bits.clean_of_masked (h : n ≤ 64) (hn : 0 < n) (z : Bits n s) (hr : ∀ i, n ≤ i → z.raw i = false)
    (hm : s = false ∨ Full n ∨ z.bv.msb = false) : z.Clean := by
  by_cases hf : Full n
  · exact (C16_full_widths hn (Or.inl hf) z z).1
  cases s with
  | false => exact (Bits.clean_unsigned_iff z).2 hr
  | true =>
    have hm : z.bv.msb = false := by simpa [hf] using hm
    have hlt : z.hold.toNat < 2 ^ n := Nat.lt_pow_two_of_testBit _ fun i hi => by
      rw [← hr i hi, Bits.raw_native h]; rfl
    have hne : hw n ≠ n := fun e => hf ((Bits.full_iff hn h).2 e)
    have hle := le_hw h
    have hb : z.bv.toNat = z.hold.toNat := by
      rw [Bits.bv_native h, BitVec.toNat_setWidth, Nat.mod_eq_of_lt hlt]
    have hmh : z.hold.msb = false := by
      rw [BitVec.msb_eq_getLsbD_last, ← Bits.raw_native h, hr _ (by omega)]
    rw [Bits.clean_native h, Bits.nv_v h, numOf, BitVec.toInt_eq_toNat_of_msb hm, BitVec.toInt_eq_toNat_of_msb hmh, hb]

/-- **C97, constant, partial.** `negate()` of a constant object: the result is unsigned and
has the bits of the two's complement, for all values except the least 32 and 64 bit
signed numbers (`C35_min_overflow`); it is canonical for native widths and multiples of
64. Missing: the others (`C97_refuted`). -/
theorem C97_negate_const_partial (hn : 0 < n) (x : Bits n s) (hx : x.Clean) (hm : ¬ IsMin x) :
    ∃ z, x.negate = .ok z ∧ z.bv = - x.bv ∧ (n ≤ 64 ∨ n % 64 = 0 → z.Clean) := by
  by_cases h : n ≤ 64
  · obtain ⟨z, hz, hc, hb⟩ := Bits.negate_native h hn x (not_min h (fun _ _ => hx) hm)
    exact ⟨z, hz, hb, fun _ => hc⟩
  · obtain ⟨z, hz, hb⟩ := Bits.negate_wide h x
    exact ⟨z, hz, hb, fun hc => (C16_full_widths hn (Or.inr (by omega)) z z).1⟩

/-- **C97, in place, partial.** `x.negate()` on a variable: the bits are those of the two's
complement, and the result is canonical for unsigned types, for the widths of the C++
types and when the negated number is not negative. Missing: negative results of other
signed types (`C97_refuted`); the wide form does not compile. -/
theorem C97_negate_partial (hn : 0 < n) (h : n ≤ 64) (x : Bits n s) (hx : x.Clean) (hm : ¬ IsMin x) :
    ∃ z, x.negateMut h = .ok z ∧ z.bv = - x.bv ∧
      (s = false ∨ Full n ∨ (- x.bv).msb = false → z.Clean) := by
  obtain ⟨v, hv, e⟩ := Bits.bnot_inc h x (not_min h (fun _ _ => hx) hm)
  obtain ⟨z, hz, hr⟩ := Bits.maskOff_ok hn (Bits.mkN h v : Bits n s)
  have hb : (Bits.mkN h v : Bits n s).bv = - x.bv := by
    by_cases h1 : n ≤ 1
    · have : n = 1 := by omega
      subst this
      rcases Bits.bv_one_cases x with ⟨hx, bx⟩ | ⟨hx, bx⟩ <;> rw [hx] at hv <;> rw [bx] <;>
        cases hv <;> rw [Bits.bv_mkN_one (by decide) (by decide)] <;> decide
    · rw [Bits.bv_mkN h h1, Bits.bv_ofInt h x, ← BitVec.ofInt_neg]
      have := congrArg (BitVec.setWidth n) e
      rwa [setWidth_ofInt (le_hw h), setWidth_ofInt (le_hw h)] at this
  have hzb : z.bv = - x.bv := by
    rw [← hb]
    apply BitVec.eq_of_getLsbD_eq
    intro i hi
    rw [Bits.getLsbD_bv, Bits.getLsbD_bv, hr]; simp [hi]
  refine ⟨z, by rw [Bits.negateMut, hv]; exact hz, hzb, fun hc => ?_⟩
  refine Bits.clean_of_masked h hn z (fun i hi => by rw [hr]; simp; omega) ?_
  rwa [hzb]

example : (((Bits.ofInt 5 : Bits 8 true).negateMut (by decide)).map (·.bv.toInt)) = .ok (-5) := by decide +kernel

/-- **C97 is false as stated**: `negate()` in place turns a four bit signed 1 into a
value that compares greater than 0, although its bits read -1; the negation of a 70 bit
1 is not equal to the 70 bit value with the same bits. -/
theorem C97_refuted :
    ((Bits.ofInt 1 : Bits 4 true).negateMut (by decide)).bind
      (fun z => (z.gt (Bits.zero : Bits 4 true)).map fun g => (z.bv.toInt, g)) = .ok (-1, true) ∧
    (∃ z m : Bits 70 false, (Bits.ofInt 1 : Bits 70 false).negate = .ok z ∧ (Bits.zero : Bits 70 false).mask = .ok m ∧
      z.bv = m.bv ∧ z.eq m = false) := by
  refine ⟨by decide +kernel, ?_⟩
  refine ⟨.big (by decide) (((Bits.ofInt 1 : Bits 70 false).bg (by decide)).negate),
    .big (by decide) (Big.mask Big.zero), ?_⟩
  decide +kernel

/-! ## C98 -/

/-- **C98, partial.** `popcount()` of a canonical unsigned native value is the number of
its ones. Missing: values with stored bits above the width (`C98_refuted`); signed, one
bit and wide types do not compile. -/
theorem C98_popcount_partial (h : n ≤ 64) (x : Bits n false) (hx : x.Clean) :
    x.popcount = (List.range n).countP fun i => x.bv.getLsbD i := popcount_eq h x hx

/-- **C98 is false for results of `~`**: for every native width that is not that of a C++
type the complement of 0 counts all the bits of the holder. -/
theorem C98_refuted (h1 : 1 < n) (h : n ≤ 64) (hf : ¬ Full n) :
    (Bits.zero : Bits n false).not.popcount = hw n ∧ n < hw n ∧
    (List.range n).countP (fun i => (Bits.zero : Bits n false).not.bv.getLsbD i) = n := by
  have hle := le_hw h
  have hne : hw n ≠ n := fun e => hf ((Bits.full_iff (by omega) h).2 e)
  have hr : ∀ i, i < hw n → (Bits.zero : Bits n false).not.raw i = true := fun i hi => by
    rw [Bits.raw_not_native h (by omega) _ hi, Bits.raw_zero]; rfl
  have all : ∀ (w : Nat) (f : Nat → Bool), (∀ i, i < w → f i = true) → (List.range w).countP f = w := by
    intro w f hf
    rw [List.countP_eq_length.2 (fun i hi => hf i (List.mem_range.1 hi)), List.length_range]
  refine ⟨?_, by omega, all n _ fun i hi => ?_⟩
  · have e : (Bits.zero : Bits n false).not.popcount = Bits.countOnes (Bits.zero : Bits n false).not.hold := by
      rw [← Bits.nat_hold h (Bits.zero : Bits n false).not]; rfl
    rw [e, Bits.countOnes]
    exact all _ _ fun i hi => by rw [← Bits.raw_native h, hr i hi]
  · rw [Bits.getLsbD_bv, hr i (by omega)]; simp [hi]

example : (Bits.ofInt 0xb5 : Bits 12 false).popcount = 5 := by decide +kernel

end Verif
