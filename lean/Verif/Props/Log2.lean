import Verif.Props.BinaryGcd
import Verif.Lemmas.Arith
import Verif.Show

/-!
# A program: the position of the highest one, by halving (C230)

`for (i = k - 1; i >= 0; i--) { t = x >> (1 << i); if (!(t < 1)) { x = t; r.set(i, true); } }` with `2^(k-1) < n ≤ 2^k`.
`if (t)` in place of the comparison is what one writes first; that one is wrong of wide vectors.
-/

namespace Verif

variable {n k : Nat}

/-- the loop; `nz` is the test of the shifted vector -/
def Bits.log2 (nz : Bits n false → Res Bool) (x : Bits n false) : Res (Bits n false × Bits k false) :=
  loopM 0 k (x, Bits.zero) fun j st =>
    (st.1.shr (amount (2 ^ (k - 1 - j)))).bind fun (t : Bits n false) => (nz t).bind fun c =>
      if c then (st.2.set (Rng.down k) (k - 1 - j : Nat) true).bind fun r => .ok (t, r) else .ok st

/-- `!(t < 1)` -/
def Bits.nzLt (t : Bits n false) : Res Bool := (t.lt (Bits.oneN n)).bind fun b => .ok !b

/-- `bool(t)` -/
def Bits.nzBool (t : Bits n false) : Res Bool := .ok t.anySet

/-- a shift by an amount below the width -/
theorem Bits.shift_clean (hN : n ≤ 2 ^ 32) (x : Bits n false) {a : Nat} (h1 : a < n) :
    ∃ z : Bits n false, x.shr (amount a) = .ok z ∧ z.Clean ∧ z.bv.toNat = x.bv.toNat / 2 ^ a := by
  obtain ⟨c1, e1⟩ := amount_spec (i := a) (by omega)
  obtain ⟨z, hz, ez⟩ := C24_shr_partial (by omega) hN x (amount a) c1 a e1 (fun _ => ⟨by decide, h1⟩)
  refine ⟨z, hz, ?_, by rw [ez, BitVec.toNat_ushiftRight, Nat.shiftRight_eq_div_pow]⟩
  by_cases h : n ≤ 64
  · obtain ⟨w, hw, hr⟩ := Bits.shr_native h (by omega) (by decide) x (amount a) (Bits.amount_native (by decide) c1 e1) h1
    rw [hz] at hw; cases hw
    rw [Bits.clean_unsigned_iff]
    intro i hi
    rw [hr, decide_eq_false (by omega), Bool.false_and]
  · obtain ⟨w, hw, hc, -⟩ := Bits.shr_wide h hN x c1 e1
    rw [hz] at hw; cases hw; exact hc

theorem div_split (L j : Nat) : L / 2 ^ j = 2 * (L / 2 ^ (j + 1)) + (if L.testBit j then 1 else 0) := by
  rw [Nat.testBit_eq_decide_div_mod_eq, pow_succ, ← Nat.div_div_eq_div_mul]
  by_cases h : L / 2 ^ j % 2 = 1
  · rw [decide_eq_true h, if_pos rfl]; omega
  · rw [decide_eq_false h, if_neg (by decide)]; omega

/-- the test of round `j`, of the exponent -/
theorem half_test (L j : Nat) : 2 ^ j + L / 2 ^ (j + 1) * 2 ^ (j + 1) ≤ L ↔ L.testBit j = true := by
  have h1 := Nat.div_mul_le_self L (2 ^ j)
  have h2 := Nat.lt_div_mul_add (a := L) (b := 2 ^ j) (Nat.two_pow_pos j)
  have h3 := div_split L j
  have h4 : L / 2 ^ (j + 1) * 2 ^ (j + 1) = 2 * (L / 2 ^ (j + 1)) * 2 ^ j := by rw [pow_succ]; ring
  rw [h4]
  rw [h3] at h1 h2
  generalize L / 2 ^ (j + 1) = q at *
  cases hb : L.testBit j
  · simp only [hb, Bool.false_eq_true, if_false, add_zero] at h1 h2 ⊢
    simp; omega
  · simp only [hb, if_true, add_mul, one_mul] at h1 h2 ⊢
    simp; omega

/-- the loop with any test that sees every bit -/
theorem Bits.log2_of (hn : 1 < n) (hN : n ≤ 2 ^ 32) (hk0 : 0 < k) (hlo : 2 ^ (k - 1) < n) (hhi : n ≤ 2 ^ k) (x : Bits n false)
    (hx : x.Clean) (h0 : x.bv.toNat ≠ 0) (nz : Bits n false → Res Bool) (hnz : ∀ t : Bits n false, t.Clean → nz t = .ok (decide (1 ≤ t.bv.toNat))) :
    ∃ y r, Bits.log2 (k := k) nz x = .ok (y, r) ∧ r.bv.toNat = Nat.log2 x.bv.toNat ∧ y.bv.toNat = 1 := by
  have hk : k ≤ 2 ^ 32 := by have := Nat.lt_two_pow_self (n := k - 1); omega
  generalize hX : x.bv.toNat = X at *
  generalize hL : Nat.log2 X = L
  have hXn : X < 2 ^ n := hX ▸ x.bv.isLt
  have hLn : L < n := hL ▸ (Nat.log2_lt h0).2 hXn
  have hle : ∀ e, 2 ^ e ≤ X ↔ e ≤ L := fun e => by rw [← hL, Nat.le_log2 h0]
  obtain ⟨⟨y, r⟩, hr, -, hy, hb⟩ := loopM_induct 0 k (x, (Bits.zero : Bits k false))
    (fun j st =>
      (st.1.shr (amount (2 ^ (k - 1 - j)))).bind fun (t : Bits n false) => (nz t).bind fun c =>
        if c then (st.2.set (Rng.down k) (k - 1 - j : Nat) true).bind fun r => .ok (t, r) else .ok st)
    (fun j st => st.1.Clean ∧ st.1.bv.toNat = X / 2 ^ (L / 2 ^ (k - j) * 2 ^ (k - j)) ∧
      ∀ i, i < k → st.2.bv.getLsbD i = (decide (k - j ≤ i) && L.testBit i)) (by omega)
    ⟨hx, by rw [hX, Nat.sub_zero, Nat.div_eq_of_lt (show L < 2 ^ k by omega), zero_mul, pow_zero, Nat.div_one], fun i hi => by
      rw [Bits.bv_zero, decide_eq_false (by omega)]; simp⟩ (by
    rintro j ⟨y, r⟩ - hj ⟨hc, hv, hb⟩
    obtain ⟨d, hd⟩ : ∃ d, k = d + 1 + j := ⟨k - 1 - j, by omega⟩
    have e1 : k - 1 - j = d := by omega
    have e2 : k - j = d + 1 := by omega
    have e3 : k - (j + 1) = d := by omega
    simp only [e1, e2, e3] at hv hb ⊢
    have hdn : 2 ^ d < n := lt_of_le_of_lt (Nat.pow_le_pow_right (by norm_num) (by omega)) hlo
    obtain ⟨t, ht, tc, tv⟩ := Bits.shift_clean hN y hdn
    have hsp := div_split L d
    have hlt : nz t = .ok (L.testBit d) := by
      rw [hnz t tc, tv, hv]
      congr 1
      rw [Bool.eq_iff_iff, decide_eq_true_iff, ← half_test, ← hle, Nat.div_div_eq_div_mul, ← pow_add,
        Nat.le_div_iff_mul_le (by positivity), one_mul, add_comm]
    rw [ht, res_bind_ok, hlt, res_bind_ok]
    cases hbit : L.testBit d
    · refine ⟨(y, r), rfl, hc, ?_, fun i hi => ?_⟩
      · rw [hbit] at hsp
        rw [hv, hsp]
        simp only [Bool.false_eq_true, if_false, add_zero]
        congr 2; rw [pow_succ]; ring
      · rw [hb i hi]
        by_cases hid : i = d
        · subst hid; rw [hbit, Bool.and_false, Bool.and_false]
        · congr 2; rw [eq_iff_iff]; omega
    · obtain ⟨z, hz, -, hzi, hzo⟩ := C01_write_read (by omega) hk r d (by omega) true
      refine ⟨(t, z), ?_, tc, ?_, fun i hi => ?_⟩
      · simp only [if_true]; rw [hz, res_bind_ok]
      · rw [hbit] at hsp
        rw [tv, hv, hsp, Nat.div_div_eq_div_mul, ← pow_add]
        simp only [if_true]
        congr 2; rw [pow_succ]; ring
      · by_cases hid : i = d
        · subst hid
          rw [C01_read (by omega) hk z i hi] at hzi
          injection hzi with hzi
          rw [hzi, hbit]; simp
        · obtain ⟨b, h1, h2⟩ := hzo i hi hid
          rw [C01_read (by omega) hk _ i hi] at h1 h2
          injection h1 with h1; injection h2 with h2
          show z.bv.getLsbD i = _
          rw [h2, ← h1, hb i hi]
          congr 2; rw [eq_iff_iff]; omega)
  refine ⟨y, r, hr, ?_, ?_⟩
  · have : r.bv = BitVec.ofNat k L := by
      apply BitVec.eq_of_getLsbD_eq
      intro i hi
      rw [hb i hi, Nat.sub_self, BitVec.getLsbD_ofNat]; simp [hi]
    rw [this, BitVec.toNat_ofNat, Nat.mod_eq_of_lt (by omega)]
  · rw [show y.bv.toNat = _ from hy, Nat.sub_self, pow_zero, Nat.div_one, Nat.mul_one]
    have h1 := (hle L).2 le_rfl
    have h2 : ¬ 2 ^ (L + 1) ≤ X := fun h => by have := (hle _).1 h; omega
    rw [pow_succ] at h2
    apply Nat.div_eq_of_lt_le <;> omega

/-- **C230.** Of every width above one bit: for a vector that is not zero, the loop ends without a fault, its result is the position of the highest one and what is
left of the vector is 1. -/
theorem C230_log2 (hn : 1 < n) (hN : n ≤ 2 ^ 32) (hk0 : 0 < k) (hlo : 2 ^ (k - 1) < n) (hhi : n ≤ 2 ^ k) (x : Bits n false)
    (hx : x.Clean) (h0 : x.bv.toNat ≠ 0) :
    ∃ y r, Bits.log2 (k := k) Bits.nzLt x = .ok (y, r) ∧ r.bv.toNat = Nat.log2 x.bv.toNat ∧ y.bv.toNat = 1 := by
  obtain ⟨one_c, one_v⟩ := Bits.oneN_spec (n := n) (by omega)
  refine Bits.log2_of hn hN hk0 hlo hhi x hx h0 _ fun t tc => ?_
  have e : (1 : BitVec n).toNat = 1 := by
    show (1#n).toNat = 1
    rw [BitVec.toNat_ofNat]; exact Nat.mod_eq_of_lt (Nat.one_lt_two_pow (by omega))
  rw [Bits.nzLt, Bits.lt_sto, Bits.sto_clean tc, Bits.sto_clean one_c, one_v, e, res_bind_ok, ← decide_not]
  simp only [not_lt]

/-- **C230, with `if (t)`, up to 64 bits.** The conversion to `bool` will do there. -/
theorem C230_bool (hn : 1 < n) (h64 : n ≤ 64) (hk0 : 0 < k) (hlo : 2 ^ (k - 1) < n) (hhi : n ≤ 2 ^ k) (x : Bits n false)
    (hx : x.Clean) (h0 : x.bv.toNat ≠ 0) :
    ∃ y r, Bits.log2 (k := k) Bits.nzBool x = .ok (y, r) ∧ r.bv.toNat = Nat.log2 x.bv.toNat ∧ y.bv.toNat = 1 := by
  refine Bits.log2_of hn (by omega) hk0 hlo hhi x hx h0 _ fun t tc => ?_
  rw [Bits.nzBool, Bits.anySet, dif_pos h64]
  have := (Bits.clean_native h64 t).1 tc
  simp only [numOf, Bool.false_and, Bool.false_eq_true, if_false] at this
  rw [this]
  congr 1
  rw [Bool.eq_iff_iff, bne_iff_ne, decide_eq_true_iff]
  omega

/-- a vector of 70 bits meets the hypotheses, and the position is beyond the first limb -/
example : ∃ x : Bits 70 false, x.Clean ∧ x.bv.toNat = 2 ^ 67 + 5 ∧ ∃ y r, Bits.log2 (k := 7) Bits.nzLt x = .ok (y, r) ∧ r.bv.toNat = 67 := by
  obtain ⟨x, hx, e⟩ := Bits.exists_clean (n := 70) (s := false) (BitVec.ofNat 70 (2 ^ 67 + 5))
  have e' : x.bv.toNat = 2 ^ 67 + 5 := by rw [e]; decide
  obtain ⟨y, r, h, hr, -⟩ := C230_log2 (k := 7) (by norm_num) (by norm_num) (by norm_num) (by norm_num) (by norm_num) x hx (by rw [e']; norm_num)
  refine ⟨x, hx, e', y, r, h, ?_⟩
  rw [hr, e']; decide +kernel

/-- **C230, with `if (t)`, fails above 64 bits**: of 128 bits the loop gives 36 for `2^100`, for the first test does not see bit 36 of the shifted vector. -/
theorem C230_bool_wide : ∃ x : Bits 128 false, x.Clean ∧ x.bv.toNat = 2 ^ 100 ∧
    (Bits.log2 (k := 7) Bits.nzLt x).map (·.2.bv.toNat) = .ok 100 ∧ (Bits.log2 (k := 7) Bits.nzBool x).map (·.2.bv.toNat) = .ok 36 :=
  ⟨.big (by decide) ((Big.zero).set 100 true), by decide +kernel⟩

end Verif
