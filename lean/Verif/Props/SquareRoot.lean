import Verif.Props.LongDivision
import Mathlib.Data.Nat.Sqrt

/-!
# A program: square root by digits (C173)

The textbook loop that finds the bits of the root from the highest down, with a shift, a
comparison and a subtraction per bit, on `bit<n-1, 0>`.
-/

namespace Verif

variable {n : Nat}

/-- one bit of the root; the state is the rest of the radicand and the root so far:
`t = r << (i + 1); t[2 * i] = 1; if (x >= t) { x = x - t; r[i] = 1; }` -/
def Bits.sqrtStep (i : Nat) (st : Bits n false × Bits n false) : Res (Bits n false × Bits n false) :=
  (st.2.shl (amount (i + 1))).bind fun t =>
  (t.set (Rng.down n) (2 * i : Nat) true).bind fun t =>
  (st.1.ge t).bind fun c =>
    if c then (st.1.sub t).bind fun x => (st.2.set (Rng.down n) i true).map fun r => (x, r) else .ok st

/-- `for (i = k - 1; i >= 0; i--)` over the bits of the root -/
def Bits.sqrtFrom : Nat → Bits n false × Bits n false → Res (Bits n false × Bits n false)
  | 0, st => .ok st
  | i + 1, st => (Bits.sqrtStep i st).bind fun st => Bits.sqrtFrom i st

/-- `r = 0;` followed by the loop over the `(n + 1) / 2` bits of the root -/
def Bits.sqrtLoop (x : Bits n false) : Res (Bits n false × Bits n false) := Bits.sqrtFrom ((n + 1) / 2) (x, Bits.zero)

theorem Bits.shl_clean (hn : 0 < n) (hN : n ≤ 2 ^ 31) (x : Bits n false) (hx : x.Clean) {k : Nat} (hk : k < n ∨ n = 1 ∧ k < 2)
    (h : x.bv.toNat * 2 ^ k < 2 ^ n) :
    ∃ z, x.shl (amount k) = .ok z ∧ z.Clean ∧ z.bv.toNat = x.bv.toNat * 2 ^ k := by
  obtain ⟨ca, na⟩ := amount_spec (i := k) (by omega)
  by_cases h1 : n = 1
  · subst h1
    obtain ⟨z, hz, e⟩ := (C25_one_bit_exact (by decide) x (amount k) ca).1
    refine ⟨z, hz, Bits.clean_one (by decide) (by decide) _, ?_⟩
    rw [e]
    rcases Nat.eq_zero_or_pos k with rfl | hk
    · simp
    · have h2 : 2 ^ 1 ≤ 2 ^ k := Nat.pow_le_pow_right (by decide) hk
      have : x.bv.toNat = 0 := by
        rcases Nat.eq_zero_or_pos x.bv.toNat with h0 | h0
        · exact h0
        · nlinarith
      rw [this]; simp
  have h1 : 1 < n := by omega
  have nk : (amount k).bv.toNat = k := by
    rw [numOf, if_neg (by decide)] at na; exact_mod_cast na
  have hr : n ≤ 64 → 32 ≤ 64 ∧ k < if n ≤ 32 then 32 else 64 := fun _ => ⟨by decide, by split_ifs <;> omega⟩
  obtain ⟨z, hz, hc⟩ := C16_shl_iff h1 (by omega) x (amount k) hx ca k nk hr
  obtain ⟨z', hz', e⟩ := C25_shl_partial (by omega) x (amount k) ca k na (fun h => ⟨(hr h).1, h1, (hr h).2⟩)
  obtain rfl := Except.ok.inj (hz.symm.trans hz')
  refine ⟨z, hz, hc.mpr ?_, ?_⟩
  · by_cases h64 : 64 < n
    · exact Or.inl h64
    · exact Or.inr (lt_of_le_of_lt (Nat.mod_le _ _) h)
  · rw [e, BitVec.toNat_shiftLeft, Nat.shiftLeft_eq, Nat.mod_eq_of_lt h]

/-- the next bit of a root -/
theorem sqrt_half (X i : Nat) :
    Nat.sqrt (X / 4 ^ i) = 2 * Nat.sqrt (X / 4 ^ (i + 1)) +
      if 4 ^ i * (2 * Nat.sqrt (X / 4 ^ (i + 1)) + 1) ^ 2 ≤ X then 1 else 0 := by
  have hq : X / 4 ^ (i + 1) = X / 4 ^ i / 4 := by rw [pow_succ, Nat.div_div_eq_div_mul]
  have hp : 0 < 4 ^ i := Nat.pow_pos (by decide)
  rw [hq]
  have hc : (4 ^ i * (2 * Nat.sqrt (X / 4 ^ i / 4) + 1) ^ 2 ≤ X) ↔
      (2 * Nat.sqrt (X / 4 ^ i / 4) + 1) ^ 2 ≤ X / 4 ^ i := by
    rw [Nat.le_div_iff_mul_le hp, Nat.mul_comm]
  generalize X / 4 ^ i = Y at *
  have a1 := Nat.sqrt_le' (Y / 4)
  have a2 := Nat.lt_succ_sqrt' (Y / 4)
  generalize Nat.sqrt (Y / 4) = u at *
  simp only [hc]
  have hlo : (2 * u) ^ 2 ≤ Y := by
    have : 4 * u ^ 2 ≤ Y := by omega
    nlinarith
  have hhi : Y < (2 * u + 2) ^ 2 := by
    have : Y < 4 * (u + 1) ^ 2 := by rw [Nat.succ_eq_add_one] at a2; omega
    nlinarith
  split_ifs with h
  · rw [← Nat.eq_sqrt'.mpr]
    exact ⟨h, hhi⟩
  · rw [← Nat.eq_sqrt'.mpr]
    exact ⟨by simpa using hlo, by simpa using (not_le.mp h)⟩

/-- the trial subtrahend fits the width -/
theorem sqrt_fit {X i u : Nat} (hX : X < 2 ^ n) (hi : 2 * i < n) (hu : (2 ^ (i + 1) * u) ^ 2 ≤ X) :
    4 ^ i * (4 * u + 1) < 2 ^ n := by
  have h4 : 4 ^ i = 2 ^ (2 * i) := by rw [show (4 : Nat) = 2 ^ 2 from rfl, ← pow_mul]
  have hs : (2 ^ (i + 1) * u) ^ 2 = 2 ^ (2 * i) * (4 * u ^ 2) := by
    rw [mul_pow, ← pow_mul, show (i + 1) * 2 = 2 * i + 2 by omega, pow_add]; ring
  rw [hs] at hu
  rw [h4]
  obtain ⟨e, rfl⟩ : ∃ e, n = 2 * i + (e + 1) := ⟨n - 2 * i - 1, by omega⟩
  rw [pow_add]
  have hp : 0 < 2 ^ (2 * i) := Nat.pow_pos (by decide)
  have hlt : 4 * u ^ 2 < 2 ^ (e + 1) := by
    have : 2 ^ (2 * i) * (4 * u ^ 2) < 2 ^ (2 * i) * 2 ^ (e + 1) := by rw [← pow_add]; omega
    exact Nat.lt_of_mul_lt_mul_left this
  apply Nat.mul_lt_mul_of_pos_left _ hp
  rcases e with _ | e
  · have : u = 0 := by
      rcases Nat.eq_zero_or_pos u with h | h
      · exact h
      · exfalso; have : 1 ≤ u ^ 2 := Nat.one_le_pow _ _ h
        norm_num at hlt; omega
    subst this; decide
  · rw [show e + 1 + 1 = e + 2 by omega, pow_add] at hlt ⊢
    have : u ≤ u ^ 2 := by nlinarith [Nat.zero_le u]
    omega

theorem Bits.sqrtStep_spec (h1 : 0 < n) (hN : n ≤ 2 ^ 31) (X i : Nat) (hX : X < 2 ^ n) (hi : 2 * i < n)
    (x r : Bits n false) (hx : x.Clean) (hr : r.Clean)
    (er : r.bv.toNat = 2 ^ (i + 1) * Nat.sqrt (X / 4 ^ (i + 1))) (ex : x.bv.toNat + r.bv.toNat ^ 2 = X) :
    ∃ y q, Bits.sqrtStep i (x, r) = .ok (y, q) ∧ Bits.Clean (y : Bits n false) ∧ Bits.Clean (q : Bits n false) ∧
      q.bv.toNat = 2 ^ i * Nat.sqrt (X / 4 ^ i) ∧ y.bv.toNat + q.bv.toNat ^ 2 = X := by
  have hhalf := sqrt_half X i
  generalize Nat.sqrt (X / 4 ^ (i + 1)) = u at *
  have h4 : 4 ^ i = 2 ^ i * 2 ^ i := by rw [show (4 : Nat) = 2 * 2 from rfl, mul_pow]
  have hfit := sqrt_fit (n := n) (u := u) hX hi (by rw [← er]; omega)
  have ht : r.bv.toNat * 2 ^ (i + 1) = 4 ^ i * (4 * u) := by rw [er, h4, pow_succ]; ring
  obtain ⟨t, ht1, ct, et⟩ := Bits.shl_clean h1 hN r hr (k := i + 1) (by omega) (by rw [ht]; nlinarith [hfit, Nat.zero_le (4 ^ i)])
  have h2i : 4 ^ i = 2 ^ (2 * i) := by rw [show (4 : Nat) = 2 ^ 2 from rfl, ← pow_mul]
  have hz : t.bv.getLsbD (2 * i) = false := by
    rw [BitVec.getLsbD, et, ht, h2i, Nat.mul_comm, Nat.testBit_mul_two_pow]
    simp [show 4 * u = 2 * (2 * u) by ring]
  obtain ⟨t', ht2, ct', et'⟩ := Bits.set_clean (by omega) (by omega) t ct (i := 2 * i) hi true hz
  have htv : t'.bv.toNat = 4 ^ i * (4 * u + 1) := by
    rw [et', et, ht, if_pos rfl, ← h2i]; ring
  have hge := (C40_ge_le_partial Iff.rfl x t' hx ct' (fun _ => Or.inl rfl)).1
  have hcond : t'.bv.toNat ≤ x.bv.toNat ↔ 4 ^ i * (2 * u + 1) ^ 2 ≤ X := by
    have e2 : r.bv.toNat ^ 2 = 4 ^ i * (4 * u ^ 2) := by rw [er, h4, pow_succ]; ring
    rw [htv, ← ex, e2]
    constructor <;> intro h <;> nlinarith
  by_cases hc : t'.bv.toNat ≤ x.bv.toNat
  · obtain ⟨y, hy, cy, ey⟩ := Bits.sub_clean (by omega) x t' hx ct' hc
    have hzr : r.bv.getLsbD i = false := by
      rw [BitVec.getLsbD, er, pow_succ, Nat.mul_assoc, Nat.mul_comm, Nat.testBit_mul_two_pow]
      simp
    obtain ⟨q, hq, cq, eq⟩ := Bits.set_clean (by omega) (by omega) r hr (i := i) (by omega) true hzr
    refine ⟨y, q, ?_, cy, cq, ?_, ?_⟩
    · rw [Bits.sqrtStep, ht1, res_bind_ok, ht2, res_bind_ok, hge, res_bind_ok, decide_eq_true hc, if_pos rfl, hy,
        res_bind_ok, hq]
      rfl
    · rw [eq, if_pos rfl, er, hhalf, if_pos (hcond.mp hc), pow_succ]; ring
    · rw [ey, eq, if_pos rfl, htv]
      rw [htv] at hc
      have e2 : (r.bv.toNat + 2 ^ i) ^ 2 = r.bv.toNat ^ 2 + 4 ^ i * (4 * u + 1) := by
        rw [er, h4, pow_succ]; ring
      rw [e2]; omega
  · refine ⟨x, r, ?_, hx, hr, ?_, ex⟩
    · rw [Bits.sqrtStep, ht1, res_bind_ok, ht2, res_bind_ok, hge, res_bind_ok, decide_eq_false hc]
      rfl
    · rw [hhalf, if_neg (fun h => hc (hcond.mpr h)), er, pow_succ]; ring

theorem Bits.sqrtFrom_spec (h1 : 0 < n) (hN : n ≤ 2 ^ 31) (X : Nat) (hX : X < 2 ^ n) : (k : Nat) → 2 * k < n + 2 →
    (x r : Bits n false) → x.Clean → r.Clean → r.bv.toNat = 2 ^ k * Nat.sqrt (X / 4 ^ k) →
    x.bv.toNat + r.bv.toNat ^ 2 = X →
    ∃ y q, Bits.sqrtFrom k (x, r) = .ok (y, q) ∧ Bits.Clean (y : Bits n false) ∧ Bits.Clean (q : Bits n false) ∧
      q.bv.toNat = Nat.sqrt X ∧ y.bv.toNat + q.bv.toNat ^ 2 = X
  | 0, _, x, r, hx, hr, er, ex => ⟨x, r, rfl, hx, hr, by simpa using er, ex⟩
  | i + 1, hk, x, r, hx, hr, er, ex => by
    obtain ⟨y, q, e1, cy, cq, eq, ey⟩ := Bits.sqrtStep_spec h1 hN X i hX (by omega) x r hx hr er ex
    obtain ⟨y', q', e2, rest⟩ := Bits.sqrtFrom_spec h1 hN X hX i (by omega) y q cy cq eq ey
    exact ⟨y', q', by rw [Bits.sqrtFrom, e1, res_bind_ok, e2], rest⟩

/-- **C173.** At every width the loop ends with the integer square root of the operand
and the remainder, both canonical. -/
theorem C173_sqrt (h1 : 0 < n) (hN : n ≤ 2 ^ 31) (x : Bits n false) (hx : x.Clean) :
    ∃ y q, x.sqrtLoop = .ok (y, q) ∧ Bits.Clean (y : Bits n false) ∧ Bits.Clean (q : Bits n false) ∧
      q.bv.toNat ^ 2 ≤ x.bv.toNat ∧ x.bv.toNat < (q.bv.toNat + 1) ^ 2 ∧
      y.bv.toNat = x.bv.toNat - q.bv.toNat ^ 2 := by
  obtain ⟨y, q, e, cy, cq, eq, ey⟩ := Bits.sqrtFrom_spec h1 hN x.bv.toNat x.bv.isLt ((n + 1) / 2) (by omega) x Bits.zero hx
    (Bits.clean_zero) (by
      have : x.bv.toNat / 4 ^ ((n + 1) / 2) = 0 := by
        apply Nat.div_eq_of_lt
        rw [show (4 : Nat) = 2 ^ 2 from rfl, ← pow_mul]
        exact lt_of_lt_of_le x.bv.isLt (Nat.pow_le_pow_right (by decide) (by omega))
      rw [this, Bits.bv_zero]; simp) (by rw [Bits.bv_zero]; simp)
  refine ⟨y, q, e, cy, cq, ?_, ?_, by omega⟩
  · rw [eq]; exact Nat.sqrt_le' _
  · rw [eq]; exact Nat.lt_succ_sqrt' _

example : ∃ (x : Bits 7 false) (y q : Bits 7 false), x.Clean ∧ x.bv = 100 ∧ x.sqrtLoop = .ok (y, q) ∧ q.bv = 10 ∧ y.bv = 0 :=
  ⟨Bits.ofInt 100, _, _, by decide +kernel, by decide +kernel, rfl, by decide +kernel, by decide +kernel⟩

end Verif
