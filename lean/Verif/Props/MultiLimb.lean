import Verif.Props.Idioms
import Verif.Props.Laws
import Verif.Props.Convert
import Verif.Props.Lift

/-!
# A program: numbers of several vectors (C211)

Numbers kept in a list of vectors, least significant first, added limb by limb with the carry found by
comparison: `s = a + b; r = s + c; c = s < a || r < s;`.
-/

namespace Verif

variable {n : Nat}

/-- one limb: the sum and the carry out -/
def Bits.limbStep (a b : Bits n false) (c : Bool) : Res (Bits n false × Bool) :=
  (a.add b).bind fun (s : Bits n false) =>
  (s.add (Bits.ofInt (if c then 1 else 0) : Bits n false)).bind fun (r : Bits n false) =>
  (s.lt a).bind fun c1 => (r.lt s).map fun c2 => (r, c1 || c2)

/-- all limbs -/
def Bits.limbAdd (c : Bool) : List (Bits n false × Bits n false) → Res (List (Bits n false) × Bool)
  | [] => .ok ([], c)
  | (a, b) :: l => (a.limbStep b c).bind fun r => (Bits.limbAdd r.2 l).map fun q => (r.1 :: q.1, q.2)

/-- the number a list of vectors stands for -/
def limbVal : List (Bits n false) → Nat
  | [] => 0
  | a :: l => a.bv.toNat + 2 ^ n * limbVal l

theorem Bits.limbStep_spec (h1 : 1 < n) (hf : Full n ∨ 64 < n ∧ 64 ∣ n) (a b : Bits n false) (c : Bool) :
    ∃ r d, a.limbStep b c = .ok (r, d) ∧ r.bv.toNat + 2 ^ n * d.toNat = a.bv.toNat + b.bv.toNat + c.toNat := by
  obtain ⟨s, hs, es⟩ := C28_add_partial h1 a b (by simp)
  have es : Bits.bv (s := false) s = a.bv + b.bv := es
  have ek : (Bits.ofInt (if c then 1 else 0) : Bits n false).bv.toNat = c.toNat := by
    have h2 : 1 < 2 ^ n := Nat.one_lt_two_pow (by omega)
    by_cases h : n ≤ 64
    · rw [C60_bits h1 h]
      cases c
      · simp
      · simp [Nat.mod_eq_of_lt h2]
    · rw [C60_wide (by omega)]
      cases c
      · simp
      · simp [Nat.mod_eq_of_lt h2]
  obtain ⟨r, hr, er⟩ := C28_add_partial (s := false) (t := false) h1 s (Bits.ofInt (if c then 1 else 0) : Bits n false) (by simp)
  have er : Bits.bv (s := false) r = Bits.bv (s := false) s + (Bits.ofInt (if c then 1 else 0) : Bits n false).bv := er
  have c1 := C175_carry_partial hf h1 a b (clean_of_full h1 hf a) (clean_of_full h1 hf b)
  rw [Bits.carry, hs, res_bind_ok] at c1
  have c2 := C175_carry_partial hf h1 (s : Bits n false) (Bits.ofInt (if c then 1 else 0) : Bits n false) (clean_of_full h1 hf _) (clean_of_full h1 hf _)
  rw [Bits.carry, hr, res_bind_ok] at c2
  refine ⟨r, _, by rw [Bits.limbStep, hs, res_bind_ok, hr, res_bind_ok, c1, res_bind_ok, c2, res_map_ok], ?_⟩
  have hA := a.bv.isLt
  have hB := b.bv.isLt
  have es' := congrArg BitVec.toNat es
  have er' := congrArg BitVec.toNat er
  rw [BitVec.toNat_add] at es' er'
  rw [ek] at er' ⊢
  have hC : c.toNat ≤ 1 := Bool.toNat_le c
  have h2 : 1 < 2 ^ n := Nat.one_lt_two_pow (by omega)
  generalize a.bv.toNat = A at *
  generalize b.bv.toNat = B at *
  generalize 2 ^ n = N at *
  generalize c.toNat = C at *
  by_cases hs1 : N ≤ A + B
  · rw [Nat.mod_eq_sub_mod hs1, Nat.mod_eq_of_lt (by omega)] at es'
    have : ¬ N ≤ (Bits.bv (s := false) s).toNat + C := by omega
    rw [Nat.mod_eq_of_lt (by omega)] at er'
    rw [er', decide_eq_true hs1, Bool.true_or, Bool.toNat_true]
    omega
  · rw [Nat.mod_eq_of_lt (by omega)] at es'
    rw [decide_eq_false hs1, Bool.false_or]
    by_cases hs2 : N ≤ (Bits.bv (s := false) s).toNat + C
    · rw [Nat.mod_eq_sub_mod hs2, Nat.mod_eq_of_lt (by omega)] at er'
      rw [er', decide_eq_true hs2, Bool.toNat_true]
      omega
    · rw [Nat.mod_eq_of_lt (by omega)] at er'
      rw [er', decide_eq_false hs2, Bool.toNat_false]
      omega

/-- **C211, partial.** With vectors without spare storage bits (8, 16, 32, 64 and the multiples of 64) the sum of two
numbers of any length is their sum, the carry out included. Missing: the other widths (`C211_refuted_all`). -/
theorem C211_add_partial (h1 : 1 < n) (hf : Full n ∨ 64 < n ∧ 64 ∣ n) (l : List (Bits n false × Bits n false)) (c : Bool) :
    ∃ r d, Bits.limbAdd c l = .ok (r, d) ∧ r.length = l.length ∧
      limbVal r + (2 ^ n) ^ l.length * d.toNat = limbVal (l.map (·.1)) + limbVal (l.map (·.2)) + c.toNat := by
  induction l generalizing c with
  | nil => exact ⟨[], c, rfl, rfl, by simp [limbVal]⟩
  | cons p l ih =>
    obtain ⟨a, b⟩ := p
    obtain ⟨r, d, hr, er⟩ := Bits.limbStep_spec h1 hf a b c
    obtain ⟨q, e, hq, hl, eq⟩ := ih d
    refine ⟨r :: q, e, by rw [Bits.limbAdd, hr, res_bind_ok, hq, res_map_ok], by simp [hl], ?_⟩
    simp only [List.map_cons, limbVal, List.length_cons, pow_succ]
    have := congrArg (2 ^ n * ·) eq
    simp only [Nat.mul_add] at this
    nlinarith [this, er]

/-- three bytes, a carry through all of them -/
example : ((Bits.limbAdd false [(Bits.ofInt 0xFF, Bits.ofInt 0x02), (Bits.ofInt 0xFF, Bits.ofInt 0), (Bits.ofInt 0x7F, Bits.ofInt 0)]).map
    fun q => ((q.1.map fun a : Bits 8 false => a.bv.toNat), q.2)) = .ok ([1, 0, 0x80], false) := by decide +kernel

/-- **C211 is false at every other width**: one limb whose sum leaves the width gives no carry. -/
theorem C211_refuted_all (h1 : 1 < n) (hf : ¬ Full n) (h64 : ¬ (64 < n ∧ 64 ∣ n)) (a b : Bits n false)
    (ha : a.Clean) (hb : b.Clean) (hc : 2 ^ n ≤ a.bv.toNat + b.bv.toNat) :
    ∃ r, Bits.limbAdd false [(a, b)] = .ok ([r], false) ∧ limbVal [r] + 2 ^ n = a.bv.toNat + b.bv.toNat := by
  obtain ⟨s, hs, es⟩ := C28_add_partial h1 a b (by simp)
  obtain ⟨r, hr, er⟩ := C28_add_partial (s := false) (t := false) h1 s (Bits.ofInt 0 : Bits n false) (by simp)
  have c1 := C175_carry_refuted h1 hf h64 a b ha hb hc
  rw [Bits.carry, hs, res_bind_ok] at c1
  have ek : (Bits.ofInt 0 : Bits n false).Clean ∧ (Bits.ofInt 0 : Bits n false).bv.toNat = 0 := by
    refine ⟨Bits.clean_of_raw_zero fun i => ?_, ?_⟩
    · exact Bits.raw_ofInt_zero i
    · by_cases h : n ≤ 64
      · rw [C60_bits h1 h]; simp
      · rw [C60_wide (by omega)]; simp
  have c2 : Bits.lt (n := n) (s := false) (m := n) (t := false) r s = .ok false := by
    rw [Bits.lt_sto, Bits.sto_add h1 hr, Bits.sto_clean ek.1, ek.2, Nat.add_zero]
    congr 1
    exact decide_eq_false (Nat.not_lt.2 (Nat.mod_eq_of_lt (Bits.sto_lt _)).ge)
  refine ⟨r, ?_, ?_⟩
  · rw [Bits.limbAdd, Bits.limbStep, hs, res_bind_ok, if_neg Bool.false_ne_true, hr, res_bind_ok, c1, res_bind_ok, c2, res_map_ok,
      res_bind_ok, Bits.limbAdd, res_map_ok]
    rfl
  have hA := a.bv.isLt
  have hB := b.bv.isLt
  have es' := congrArg BitVec.toNat (show Bits.bv (s := false) s = a.bv + b.bv from es)
  have er' := congrArg BitVec.toNat (show Bits.bv (s := false) r = Bits.bv (s := false) s + (Bits.ofInt 0 : Bits n false).bv from er)
  rw [BitVec.toNat_add, Nat.mod_eq_sub_mod hc, Nat.mod_eq_of_lt (by omega)] at es'
  rw [BitVec.toNat_add, ek.2, Nat.add_zero, Nat.mod_eq_of_lt (BitVec.isLt _)] at er'
  simp only [limbVal]
  omega

/-- two limbs of ten bits: `1023 + 1` gives 0 instead of `2^10` -/
example : ((Bits.limbAdd false [(Bits.ofInt 1023, Bits.ofInt 1), (Bits.ofInt 0, Bits.ofInt 0)]).map
    fun q => ((q.1.map fun a : Bits 10 false => a.bv.toNat), q.2)) = .ok ([0, 0], false) := by decide +kernel

end Verif
