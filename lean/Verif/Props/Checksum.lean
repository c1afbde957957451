import Verif.Props.MultiLimb
import Verif.Props.Unary

/-!
# A program: the one's complement checksum (C212)

`s = s + w; s = s + (s < w);` over a list of words, the sum of the internet checksum: a carry out of the top is
added at the bottom. The sum does not depend on the order of the words, and the words of a packet that contains
the complement of its own sum add up to all ones.
-/

namespace Verif

variable {n : Nat}

/-- one word: `t = s + w; t = t + bit<n-1, 0>(t < s);` -/
def Bits.endAround (s w : Bits n false) : Res (Bits n false) :=
  (s.add w).bind fun (t : Bits n false) => (t.lt s).bind fun c => t.add (Bits.ofInt (if c then 1 else 0) : Bits n false)

/-- all words, from zero -/
def Bits.checksum (s : Bits n false) : List (Bits n false) → Res (Bits n false)
  | [] => .ok s
  | w :: l => (s.endAround w).bind fun t => t.checksum l

/-- the sum of the words as numbers -/
def wordSum (l : List (Bits n false)) : Nat := (l.map fun w => w.bv.toNat).sum

theorem Bits.ofBool_toNat (h1 : 1 < n) (c : Bool) : (Bits.ofInt (if c then 1 else 0) : Bits n false).bv.toNat = c.toNat := by
  have h2 : 1 < 2 ^ n := Nat.one_lt_two_pow (by omega)
  by_cases h : n ≤ 64
  · rw [C60_bits h1 h]
    cases c
    · simp
    · simp [Nat.mod_eq_of_lt h2]
  · rw [C60_wide (by omega)]
    cases c
    · simp
    · simp [Nat.mod_eq_of_lt h2]

theorem Bits.endAround_spec (h1 : 1 < n) (hf : Full n ∨ 64 < n ∧ 64 ∣ n) (s w : Bits n false) :
    ∃ t, s.endAround w = .ok t ∧ t.bv.toNat = if s.bv.toNat + w.bv.toNat < 2 ^ n then s.bv.toNat + w.bv.toNat
      else s.bv.toNat + w.bv.toNat - 2 ^ n + 1 := by
  obtain ⟨t, ht, et⟩ := C28_add_partial h1 s w (by simp)
  have c1 := C175_carry_partial hf h1 s w (clean_of_full h1 hf s) (clean_of_full h1 hf w)
  rw [Bits.carry, ht, res_bind_ok] at c1
  obtain ⟨r, hr, er⟩ := C28_add_partial (s := false) (t := false) h1 t
    (Bits.ofInt (if decide (2 ^ n ≤ s.bv.toNat + w.bv.toNat) then 1 else 0) : Bits n false) (by simp)
  refine ⟨r, by rw [Bits.endAround, ht, res_bind_ok, c1, res_bind_ok]; exact hr, ?_⟩
  have hS := s.bv.isLt
  have hW := w.bv.isLt
  have et' := congrArg BitVec.toNat (show Bits.bv (s := false) t = s.bv + w.bv from et)
  have er' := congrArg BitVec.toNat (show Bits.bv (s := false) r = Bits.bv (s := false) t + Bits.bv _ from er)
  rw [BitVec.toNat_add] at et' er'
  rw [Bits.ofBool_toNat h1] at er'
  have h2 : 1 < 2 ^ n := Nat.one_lt_two_pow (by omega)
  generalize s.bv.toNat = S at *
  generalize w.bv.toNat = W at *
  generalize 2 ^ n = N at *
  by_cases h : N ≤ S + W
  · rw [Nat.mod_eq_sub_mod h, Nat.mod_eq_of_lt (by omega)] at et'
    rw [decide_eq_true h, Bool.toNat_true, et', Nat.mod_eq_of_lt (by omega)] at er'
    rw [if_neg (by omega)]
    exact er'
  · rw [Nat.mod_eq_of_lt (by omega)] at et'
    rw [decide_eq_false h, Bool.toNat_false, et', Nat.mod_eq_of_lt (by omega)] at er'
    rw [if_pos (by omega)]
    exact er'

theorem Bits.checksum_spec (h1 : 1 < n) (hf : Full n ∨ 64 < n ∧ 64 ∣ n) (l : List (Bits n false)) (s : Bits n false) :
    ∃ t, s.checksum l = .ok t ∧ t.bv.toNat % (2 ^ n - 1) = (s.bv.toNat + wordSum l) % (2 ^ n - 1) ∧
      (t.bv.toNat = 0 ↔ s.bv.toNat + wordSum l = 0) := by
  induction l generalizing s with
  | nil => exact ⟨s, rfl, by simp [wordSum], by simp [wordSum]⟩
  | cons w l ih =>
    obtain ⟨t, ht, et⟩ := Bits.endAround_spec h1 hf s w
    obtain ⟨r, hr, er, e0⟩ := ih t
    have hS := s.bv.isLt
    have hW := w.bv.isLt
    have h2 : 2 < 2 ^ n := by
      calc 2 = 2 ^ 1 := rfl
        _ < 2 ^ n := Nat.pow_lt_pow_right (by decide) h1
    have hsum : wordSum (w :: l) = w.bv.toNat + wordSum l := by simp [wordSum]
    refine ⟨r, by rw [Bits.checksum, ht, res_bind_ok, hr], ?_, ?_⟩
    · rw [er, hsum, et]
      split_ifs with h
      · rw [Nat.add_assoc]
      · have : s.bv.toNat + (w.bv.toNat + wordSum l) = (s.bv.toNat + w.bv.toNat - 2 ^ n + 1 + wordSum l) + (2 ^ n - 1) := by omega
        rw [this, Nat.add_mod_right]
    · rw [e0, hsum, et]
      split_ifs with h
      · rw [Nat.add_assoc]
      · constructor
        · intro h; omega
        · intro h; omega

/-- two results of the sum that agree modulo `2^n - 1` and are zero together are equal -/
theorem residue_inj {N a b : Nat} (hN : 2 < N) (ha : a < N) (hb : b < N) (h : a % (N - 1) = b % (N - 1)) (h0 : a = 0 ↔ b = 0) : a = b := by
  by_cases a1 : a = N - 1
  · by_cases b1 : b = N - 1
    · omega
    · rw [a1, Nat.mod_self, Nat.mod_eq_of_lt (by omega)] at h; omega
  · by_cases b1 : b = N - 1
    · rw [b1, Nat.mod_self, Nat.mod_eq_of_lt (by omega)] at h; omega
    · rwa [Nat.mod_eq_of_lt (by omega), Nat.mod_eq_of_lt (by omega)] at h

/-- **C212, partial, the sum.** At the widths without spare storage bits the checksum of any list of words ends without
undefined behaviour, agrees with the sum of the words modulo `2^n - 1`, and is 0 only if all words are. Missing: the other
widths (`C212_refuted_all`). -/
theorem C212_sum_partial (h1 : 1 < n) (hf : Full n ∨ 64 < n ∧ 64 ∣ n) (l : List (Bits n false)) :
    ∃ t, (Bits.zero : Bits n false).checksum l = .ok t ∧ t.bv.toNat % (2 ^ n - 1) = wordSum l % (2 ^ n - 1) ∧
      (t.bv.toNat = 0 ↔ ∀ w ∈ l, w.bv = 0) := by
  obtain ⟨t, ht, e1, e2⟩ := Bits.checksum_spec h1 hf l Bits.zero
  have hz : (Bits.zero : Bits n false).bv.toNat = 0 := by rw [Bits.bv_zero]; simp
  rw [hz, Nat.zero_add] at e1 e2
  refine ⟨t, ht, e1, e2.trans ?_⟩
  clear ht e1 e2
  induction l with
  | nil => simp [wordSum]
  | cons w l ih =>
    rw [List.forall_mem_cons, ← ih, show wordSum (w :: l) = w.bv.toNat + wordSum l by simp [wordSum], Nat.add_eq_zero_iff]
    exact and_congr_left fun _ => ⟨fun h => BitVec.eq_of_toNat_eq (by rw [h]; simp), fun h => by rw [h]; simp⟩

/-- **C212, partial, order.** The checksum does not depend on the order of the words. Missing: the
other widths, for which the checksum is wrong (`C212_refuted_all`). -/
theorem C212_order_partial (h1 : 1 < n) (hf : Full n ∨ 64 < n ∧ 64 ∣ n) {l l' : List (Bits n false)} (hp : l.Perm l') :
    ∃ t t', (Bits.zero : Bits n false).checksum l = .ok t ∧ (Bits.zero : Bits n false).checksum l' = .ok t' ∧ t.bv = t'.bv := by
  obtain ⟨t, ht, e1, e2⟩ := Bits.checksum_spec h1 hf l Bits.zero
  obtain ⟨t', ht', e1', e2'⟩ := Bits.checksum_spec h1 hf l' Bits.zero
  have hs : wordSum l = wordSum l' := (hp.map _).sum_eq
  have h2 : 2 < 2 ^ n := by
    calc 2 = 2 ^ 1 := rfl
      _ < 2 ^ n := Nat.pow_lt_pow_right (by decide) h1
  refine ⟨t, t', ht, ht', BitVec.eq_of_toNat_eq (residue_inj h2 t.bv.isLt t'.bv.isLt ?_ ?_)⟩
  · rw [e1, e1', hs]
  · rw [e2, e2', hs]

/-- **C212, partial, verification.** If the complement of the checksum of the other words stands at any place of a
packet, the packet adds up to all ones. Missing: the other widths, for which the checksum is wrong
(`C212_refuted_all`). -/
theorem C212_verify_partial (h1 : 1 < n) (hf : Full n ∨ 64 < n ∧ 64 ∣ n) (l l' : List (Bits n false)) :
    ∃ t r, (Bits.zero : Bits n false).checksum (l ++ l') = .ok t ∧
      (Bits.zero : Bits n false).checksum (l ++ t.not :: l') = .ok r ∧ r.bv = BitVec.allOnes n := by
  obtain ⟨t, ht, e1, e2⟩ := Bits.checksum_spec h1 hf (l ++ l') Bits.zero
  obtain ⟨r, hr, e1', e2'⟩ := Bits.checksum_spec h1 hf (l ++ t.not :: l') Bits.zero
  refine ⟨t, r, ht, hr, BitVec.eq_of_toNat_eq ?_⟩
  have h2 : 2 < 2 ^ n := by
    calc 2 = 2 ^ 1 := rfl
      _ < 2 ^ n := Nat.pow_lt_pow_right (by decide) h1
  have hz : (Bits.zero : Bits n false).bv.toNat = 0 := by rw [Bits.bv_zero]; simp
  have hnot : (Bits.bv (s := false) t.not).toNat = 2 ^ n - 1 - t.bv.toNat := by
    rw [Bits.bv_not (by omega), BitVec.toNat_not]
  have hs : wordSum (l ++ t.not :: l') = wordSum (l ++ l') + (2 ^ n - 1 - t.bv.toNat) := by
    rw [← hnot]; simp [wordSum]; omega
  have hT := t.bv.isLt
  rw [hz, Nat.zero_add] at e1 e2 e1' e2'
  rw [BitVec.toNat_allOnes]
  refine residue_inj h2 r.bv.isLt (by omega) ?_ ?_
  · rw [e1', hs, Nat.add_mod, ← e1, ← Nat.add_mod, show t.bv.toNat + (2 ^ n - 1 - t.bv.toNat) = 2 ^ n - 1 by omega]
  · rw [e2', hs]
    constructor
    · intro h; omega
    · intro h; omega

/-- a packet of three words, its checksum in the middle -/
example : ((Bits.zero : Bits 16 false).checksum [Bits.ofInt 0xBEEF, Bits.ofInt 0xC2DE, Bits.ofInt 0x7E31]).map (·.bv.toNat) =
    .ok 0xFFFF := by decide +kernel

/-- **C212 is false at every other width**: the carry is lost, so two words whose sum leaves the width add up to a
number that is one too small modulo `2^n - 1`. -/
theorem C212_refuted_all (h1 : 1 < n) (hf : ¬ Full n) (h64 : ¬ (64 < n ∧ 64 ∣ n)) (a b : Bits n false)
    (ha : a.Clean) (hb : b.Clean) (hc : 2 ^ n ≤ a.bv.toNat + b.bv.toNat) :
    ∃ t, a.checksum [b] = .ok t ∧ t.bv.toNat % (2 ^ n - 1) ≠ (a.bv.toNat + b.bv.toNat) % (2 ^ n - 1) := by
  obtain ⟨s, hs, es⟩ := C28_add_partial h1 a b (by simp)
  obtain ⟨r, hr, er⟩ := C28_add_partial (s := false) (t := false) h1 s (Bits.ofInt 0 : Bits n false) (by simp)
  have c1 := C175_carry_refuted h1 hf h64 a b ha hb hc
  rw [Bits.carry, hs, res_bind_ok] at c1
  refine ⟨r, ?_, ?_⟩
  · rw [Bits.checksum, Bits.endAround, hs, res_bind_ok, c1, res_bind_ok, if_neg Bool.false_ne_true]
    exact (congrArg (fun q : Res (Bits n false) => q.bind fun t => t.checksum []) hr).trans rfl
  have h2 : 2 < 2 ^ n := by
    calc 2 = 2 ^ 1 := rfl
      _ < 2 ^ n := Nat.pow_lt_pow_right (by decide) h1
  have hA := a.bv.isLt
  have hB := b.bv.isLt
  have e0 := Bits.ofBool_toNat h1 false
  rw [if_neg Bool.false_ne_true, Bool.toNat_false] at e0
  have es' := congrArg BitVec.toNat (show Bits.bv (s := false) s = a.bv + b.bv from es)
  have er' := congrArg BitVec.toNat (show Bits.bv (s := false) r = Bits.bv (s := false) s + (Bits.ofInt 0 : Bits n false).bv from er)
  rw [BitVec.toNat_add, Nat.mod_eq_sub_mod hc, Nat.mod_eq_of_lt (by omega)] at es'
  rw [BitVec.toNat_add, e0, Nat.add_zero, Nat.mod_eq_of_lt (BitVec.isLt _)] at er'
  rw [er', es', Nat.mod_eq_of_lt (by omega)]
  intro h
  have h3 : a.bv.toNat + b.bv.toNat = (a.bv.toNat + b.bv.toNat - 2 ^ n + 1) + (2 ^ n - 1) := by omega
  rw [h3, Nat.add_mod_right] at h
  by_cases h4 : a.bv.toNat + b.bv.toNat - 2 ^ n + 1 = 2 ^ n - 1
  · rw [h4, Nat.mod_self] at h; omega
  · rw [Nat.mod_eq_of_lt (by omega)] at h; omega

/-- ten bits: `1023 + 2` gives 1, not 2 -/
example : ((Bits.ofInt 1023 : Bits 10 false).checksum [Bits.ofInt 2]).map (·.bv.toNat) = .ok 1 := by decide +kernel

end Verif
