import Verif.Props.Crc
import Mathlib.Data.Finset.Card
import Mathlib.Logic.Function.Iterate
import Mathlib.Order.Interval.Finset.Nat
import Mathlib.RingTheory.Prime
import Mathlib.RingTheory.PrincipalIdealDomain
import Mathlib.Algebra.Polynomial.FieldDivision
import Mathlib.Algebra.Polynomial.SpecificDegree

/-!
# C174: a linear feedback shift register

`top = r[n-1]; r = r << 1; if (top) r = r ^ p;` repeated. When the register returns is a question about
polynomials over the field with two elements.
-/

namespace Verif

open Polynomial

variable {n : Nat}

/-- one step of the register -/
def Bits.lfsrStep (p r : Bits n false) : Res (Bits n false) :=
  (r.get (Rng.down n) (n - 1 : Nat)).bind fun top =>
    (r.shl (amount 1)).map fun q => if top then q.xor p else q

/-- the register after `k` steps -/
def Bits.lfsr (p : Bits n false) : Nat → Bits n false → Res (Bits n false)
  | 0, r => .ok r
  | k + 1, r => (p.lfsrStep r).bind fun r => p.lfsr k r

/-- one step on the bits -/
def shiftReg (p r : BitVec n) : BitVec n := if r.getLsbD (n - 1) then (r <<< 1) ^^^ p else r <<< 1

theorem Bits.lfsrStep_eq (p r : Bits n false) : p.lfsrStep r = p.crcStep r false := by
  rw [Bits.lfsrStep, Bits.crcStep]; simp only [Bool.xor_false]

theorem Bits.lfsr_eq (p : Bits n false) : (k : Nat) → (r : Bits n false) → p.lfsr k r = p.crc r (List.replicate k false)
  | 0, _ => rfl
  | k + 1, r => by
    rw [Bits.lfsr, List.replicate_succ, Bits.crc, Bits.lfsrStep_eq]
    congr 1
    funext r'
    exact Bits.lfsr_eq p k r'

theorem Bits.lfsr_spec (h1 : 1 < n) (hN : n ≤ 2 ^ 32) (p : Bits n false) : (k : Nat) → (r : Bits n false) →
    ∃ z, p.lfsr k r = .ok z ∧ z.bv = (shiftReg p.bv)^[k] r.bv
  | 0, r => ⟨r, rfl, rfl⟩
  | k + 1, r => by
    obtain ⟨r', hr, e⟩ := Bits.crcStep_spec h1 hN p r false
    obtain ⟨z, hz, ez⟩ := Bits.lfsr_spec h1 hN p k r'
    refine ⟨z, by rw [Bits.lfsr, Bits.lfsrStep_eq, hr, res_bind_ok, hz], ?_⟩
    rw [ez, Function.iterate_succ_apply]
    congr 1
    rw [e, shiftReg, Bool.xor_false]

theorem msgPoly_zeros (k : Nat) : msgPoly (List.replicate k false) = 0 := by
  induction k with
  | zero => rfl
  | succ k ih => rw [List.replicate_succ, msgPoly, ih]; simp

/-- **C174, exactly when the register returns.** After `k` steps the register holds its first value again
exactly if `X^n + p` divides `(X^k - 1) * r`. -/
theorem C174_return_iff (h1 : 1 < n) (hN : n ≤ 2 ^ 32) (p r : Bits n false) (k : Nat) :
    ∃ z, p.lfsr k r = .ok z ∧
      (z.bv = r.bv ↔ (X ^ n + bvPoly p.bv) ∣ (X ^ k - 1) * bvPoly r.bv) := by
  obtain ⟨z, hz, e⟩ := C169_crc_partial h1 hN p (List.replicate k false) r
  refine ⟨z, by rw [Bits.lfsr_eq, hz], ?_⟩
  rw [msgPoly_zeros, zero_mul, add_zero, List.length_replicate] at e
  have hr : bvPoly r.bv = bvPoly r.bv %ₘ (X ^ n + bvPoly p.bv) :=
    ((modByMonic_eq_self_iff (monic_gen p.bv)).mpr (by rw [degree_gen]; exact degree_bvPoly _)).symm
  have hd : (X ^ k - 1) * bvPoly r.bv = bvPoly r.bv * X ^ k - bvPoly r.bv := by ring
  rw [hd]
  change _ ↔ genPoly p.bv ∣ _
  rw [← modByMonic_eq_zero_iff_dvd (monic_gen p.bv), sub_modByMonic, sub_eq_zero]
  constructor
  · intro h
    rw [h] at e
    exact e.symm.trans hr
  · intro h
    apply bvPoly_inj
    exact e.trans (h.trans hr.symm)

theorem shiftReg_inj {p : BitVec n} (h1 : 1 < n) (hp : p.getLsbD 0 = true) : Function.Injective (shiftReg p) := by
  intro a b h
  have h0 : ∀ r : BitVec n, (shiftReg p r).getLsbD 0 = r.getLsbD (n - 1) := by
    intro r
    rw [shiftReg]
    cases ht : r.getLsbD (n - 1) <;> simp [BitVec.getLsbD_shiftLeft, hp]
  have hS : ∀ (r : BitVec n) i, i + 1 < n → (shiftReg p r).getLsbD (i + 1) = (r.getLsbD i ^^ (r.getLsbD (n - 1) && p.getLsbD (i + 1))) := by
    intro r i hi
    have hs : (r <<< 1).getLsbD (i + 1) = r.getLsbD i := by
      rw [BitVec.getLsbD_shiftLeft, decide_eq_true hi, decide_eq_false (by omega), Nat.add_sub_cancel]; rfl
    rw [shiftReg]
    cases ht : r.getLsbD (n - 1)
    · rw [if_neg (by decide), hs]; simp
    · rw [if_pos rfl, BitVec.getLsbD_xor, hs]; simp
  apply BitVec.eq_of_getLsbD_eq
  intro i hi
  have ht : a.getLsbD (n - 1) = b.getLsbD (n - 1) := by rw [← h0 a, ← h0 b, h]
  by_cases hl : i = n - 1
  · rw [hl]; exact ht
  · have e := hS a i (by omega)
    rw [h, hS b i (by omega), ht] at e
    generalize (b.getLsbD (n - 1) && p.getLsbD (i + 1)) = q at e
    revert e
    cases a.getLsbD i <;> cases b.getLsbD i <;> cases q <;> decide

theorem shiftReg_zero (p : BitVec n) : shiftReg p 0 = 0 := by
  rw [shiftReg, if_neg (by simp)]; simp

/-- **C174, no lock-up.** When bit 0 of `p` is set, a register that is not zero never becomes zero. -/
theorem C174_nonzero (h1 : 1 < n) (hN : n ≤ 2 ^ 32) (p r : Bits n false) (hp : p.bv.getLsbD 0 = true)
    (hr : r.bv ≠ 0) (k : Nat) : ∃ z, p.lfsr k r = .ok z ∧ z.bv ≠ 0 := by
  obtain ⟨z, hz, e⟩ := Bits.lfsr_spec h1 hN p k r
  refine ⟨z, hz, fun h0 => hr ?_⟩
  have hi := (shiftReg_inj h1 hp).iterate k
  apply hi
  rw [← e, h0, Function.iterate_fixed (shiftReg_zero p.bv)]

/-- **C174, the run is a cycle.** When bit 0 of `p` is set, every register returns to its value after at
most `2^n` steps. -/
theorem C174_periodic (h1 : 1 < n) (hN : n ≤ 2 ^ 32) (p r : Bits n false) (hp : p.bv.getLsbD 0 = true) :
    ∃ k z, 0 < k ∧ k ≤ 2 ^ n ∧ p.lfsr k r = .ok z ∧ z.bv = r.bv := by
  obtain ⟨i, hi, j, hj, hne, he⟩ := Finset.exists_ne_map_eq_of_card_lt_of_maps_to
    (s := Finset.range (2 ^ n + 1)) (t := Finset.range (2 ^ n)) (by simp)
    (f := fun k => ((shiftReg p.bv)^[k] r.bv).toNat) (fun k _ => by simpa using BitVec.isLt _)
  have key : ∀ i j, i < j → j ≤ 2 ^ n → (shiftReg p.bv)^[i] r.bv = (shiftReg p.bv)^[j] r.bv →
      ∃ k z, 0 < k ∧ k ≤ 2 ^ n ∧ p.lfsr k r = .ok z ∧ z.bv = r.bv := by
    intro i j hij hj he
    obtain ⟨z, hz, e⟩ := Bits.lfsr_spec h1 hN p (j - i) r
    refine ⟨j - i, z, by omega, by omega, hz, ?_⟩
    rw [e]
    apply (shiftReg_inj h1 hp).iterate i
    rw [← Function.iterate_add_apply, show i + (j - i) = j by omega, he]
  have he' := BitVec.eq_of_toNat_eq he
  simp only [Finset.mem_range] at hi hj
  rcases Nat.lt_or_ge i j with h | h
  · exact key i j h (by omega) he'
  · exact key j i (by omega) (by omega) he'.symm

/-- **C174, maximal length.** When `X^n + p` is irreducible and divides no `X^k - 1` for `k` below
`2^n - 1`, a register that is not zero runs through every value but zero. -/
theorem C174_maximal (h1 : 1 < n) (hN : n ≤ 2 ^ 32) (p r : Bits n false)
    (hirr : Irreducible (X ^ n + bvPoly p.bv : (ZMod 2)[X]))
    (hord : ∀ k, 0 < k → k < 2 ^ n - 1 → ¬ (X ^ n + bvPoly p.bv : (ZMod 2)[X]) ∣ X ^ k - 1)
    (hr : r.bv ≠ 0) (w : BitVec n) (hw : w ≠ 0) :
    ∃ k z, k < 2 ^ n - 1 ∧ p.lfsr k r = .ok z ∧ z.bv = w := by
  have hp : p.bv.getLsbD 0 = true := by
    by_contra hc
    have hx : (X : (ZMod 2)[X]) ∣ X ^ n + bvPoly p.bv := by
      rw [X_dvd_iff, coeff_add, coeff_bvPoly, coeff_X_pow, if_neg (by omega), if_neg (by simpa using hc)]; simp
    obtain ⟨q, hq⟩ := hx
    rcases hirr.isUnit_or_isUnit hq with hu | hu
    · exact absurd hu not_isUnit_X
    · have hdeg := degree_gen p.bv
      rw [genPoly, hq, degree_mul, degree_X, degree_eq_zero_of_isUnit hu] at hdeg
      have : (1 : WithBot ℕ) = (n : WithBot ℕ) := by simpa using hdeg
      have : (1 : ℕ) = n := by exact_mod_cast this
      omega
  have hne : ∀ k, (shiftReg p.bv)^[k] r.bv ≠ 0 := by
    intro k h0
    apply hr
    apply (shiftReg_inj h1 hp).iterate k
    rw [h0, Function.iterate_fixed (shiftReg_zero p.bv)]
  have hprime : Prime (X ^ n + bvPoly p.bv : (ZMod 2)[X]) := hirr.prime
  have hR : ¬ (X ^ n + bvPoly p.bv : (ZMod 2)[X]) ∣ bvPoly r.bv := by
    intro hd
    have h0 := eq_zero_of_dvd_of_degree_lt hd (by
      show _ < (genPoly p.bv).degree
      rw [degree_gen]; exact degree_bvPoly _)
    apply hr
    apply bvPoly_inj
    rw [h0]
    ext k; simp [coeff_bvPoly]
  have hinj : ∀ i j, i < j → j < 2 ^ n - 1 → (shiftReg p.bv)^[i] r.bv ≠ (shiftReg p.bv)^[j] r.bv := by
    intro i j hij hj he
    obtain ⟨z, hz, e⟩ := Bits.lfsr_spec h1 hN p (j - i) r
    obtain ⟨z', hz', hiff⟩ := C174_return_iff h1 hN p r (j - i)
    obtain rfl := Except.ok.inj (hz.symm.trans hz')
    have hb : z.bv = r.bv := by
      rw [e]
      apply (shiftReg_inj h1 hp).iterate i
      rw [← Function.iterate_add_apply, show i + (j - i) = j by omega, he]
    rcases hprime.dvd_or_dvd (hiff.mp hb) with h | h
    · exact hord (j - i) (by omega) (by omega) h
    · exact hR h
  have hsurj := Finset.surj_on_of_inj_on_of_card_le (s := Finset.range (2 ^ n - 1)) (t := Finset.Ico 1 (2 ^ n))
    (fun k _ => ((shiftReg p.bv)^[k] r.bv).toNat)
    (fun k _ => by
      rw [Finset.mem_Ico]
      refine ⟨?_, BitVec.isLt _⟩
      rcases Nat.eq_zero_or_pos ((shiftReg p.bv)^[k] r.bv).toNat with h | h
      · exact absurd (BitVec.eq_of_toNat_eq (by rw [h]; simp)) (hne k)
      · exact h)
    (fun i j hi hj he => by
      have he' := BitVec.eq_of_toNat_eq he
      rw [Finset.mem_range] at hi hj
      rcases Nat.lt_trichotomy i j with h | h | h
      · exact absurd he' (hinj i j h hj)
      · exact h
      · exact absurd he'.symm (hinj j i h hi))
    (by rw [Finset.card_range, Nat.card_Ico])
  obtain ⟨k, hk, e⟩ := hsurj w.toNat (by
    rw [Finset.mem_Ico]
    refine ⟨?_, w.isLt⟩
    rcases Nat.eq_zero_or_pos w.toNat with h | h
    · exact absurd (BitVec.eq_of_toNat_eq (by rw [h]; simp)) hw
    · exact h)
  obtain ⟨z, hz, ez⟩ := Bits.lfsr_spec h1 hN p k r
  exact ⟨k, z, by simpa using hk, hz, by rw [ez]; exact (BitVec.eq_of_toNat_eq e).symm⟩

/-- the hypotheses of `C174_maximal` hold for two bits and `X^2 + X + 1` -/
example : Irreducible (X ^ 2 + bvPoly (3 : BitVec 2) : (ZMod 2)[X]) ∧
    ∀ k, 0 < k → k < 2 ^ 2 - 1 → ¬ (X ^ 2 + bvPoly (3 : BitVec 2) : (ZMod 2)[X]) ∣ X ^ k - 1 := by
  have hg := monic_gen (3 : BitVec 2)
  have hd : (genPoly (3 : BitVec 2)).natDegree = 2 := natDegree_eq_of_degree_eq_some (degree_gen _)
  have he : ∀ a, eval a (genPoly (3 : BitVec 2)) ≠ 0 := by
    have h3 : genPoly (3 : BitVec 2) = X ^ 2 + (1 + X) := by
      rw [genPoly, bvPoly]; simp [Finset.sum_range_succ, BitVec.getLsbD, Nat.testBit]
    intro a
    rw [h3]
    simp only [eval_add, eval_pow, eval_X, eval_one]
    revert a; decide
  constructor
  · show Irreducible (genPoly (3 : BitVec 2))
    rw [hg.irreducible_iff_roots_eq_zero_of_degree_le_three (by omega) (by omega)]
    apply Multiset.eq_zero_of_forall_notMem
    intro a ha
    exact he a (isRoot_of_mem_roots ha)
  · intro k h0 h3 hdv
    have hdv : genPoly (3 : BitVec 2) ∣ X ^ k - 1 := hdv
    obtain ⟨q, hq⟩ := hdv
    have h1 : eval 1 (X ^ k - 1 : (ZMod 2)[X]) = 0 := by simp
    have hk : k = 1 ∨ k = 2 := by omega
    have hq1 : eval 1 q = 0 := by
      rw [hq, eval_mul] at h1
      exact (mul_eq_zero.mp h1).resolve_left (he 1)
    have hqd : q ≠ 0 → 1 ≤ q.natDegree := fun h => by
      by_contra hc
      have hc : q = C (q.coeff 0) := eq_C_of_natDegree_eq_zero (by omega)
      rw [hc, eval_C] at hq1
      rw [hq1, C_0] at hc
      exact h hc
    have hne : (X ^ k - 1 : (ZMod 2)[X]) ≠ 0 := X_pow_sub_C_ne_zero h0 1
    have hq0 : q ≠ 0 := by rintro rfl; rw [mul_zero] at hq; exact hne hq
    have := congrArg natDegree hq
    rw [natDegree_mul hg.ne_zero hq0, hd, show (X ^ k - 1 : (ZMod 2)[X]) = X ^ k - C 1 by simp,
      natDegree_X_pow_sub_C] at this
    have := hqd hq0
    omega

/-- the register of three bits with `X^3 + X + 1` runs through its seven values -/
example : ∃ p r : Bits 3 false, p.Clean ∧ r.Clean ∧ p.bv = 3 ∧ r.bv = 1 ∧ p.bv.getLsbD 0 = true ∧
    (∃ z, p.lfsr 7 r = .ok z ∧ z.bv = 1) ∧ ∃ z, p.lfsr 3 r = .ok z ∧ z.bv = 3 :=
  ⟨Bits.ofInt 3, Bits.ofInt 1, by decide +kernel, by decide +kernel, by decide +kernel, by decide +kernel,
    by decide +kernel, ⟨_, rfl, by decide +kernel⟩, ⟨_, rfl, by decide +kernel⟩⟩

/-- **C174 is false for one bit**: `<<` keeps a one-bit vector as it is (C25), so the register with
`p = 1` goes from 1 to 0 and stays there. -/
theorem C174_one_bit_refuted : ∃ p r : Bits 1 false, p.Clean ∧ r.Clean ∧ p.bv = 1 ∧ r.bv = 1 ∧
    ∃ z, p.lfsr 1 r = .ok z ∧ z.bv = 0 :=
  ⟨Bits.ofInt 1, Bits.ofInt 1, by decide +kernel, by decide +kernel, by decide +kernel, by decide +kernel,
    _, rfl, by decide +kernel⟩

end Verif
