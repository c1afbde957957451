import Verif.Props.Checksum

/-!
# A program: numbers of several vectors, subtraction and comparison (C213)

`s = a - b; r = s - c; c = s > a || r > s;` limb by limb. Unlike the carry of C211 the borrow is found at every
width: a difference below zero wraps around the whole storage, so it is greater than its minuend.
-/

namespace Verif

variable {n : Nat}

/-- one limb -/
def Bits.limbSubStep (a b : Bits n false) (c : Bool) : Res (Bits n false × Bool) :=
  (a.sub b).bind fun (s : Bits n false) => (s.sub (Bits.ofInt (if c then 1 else 0) : Bits n false)).bind fun (r : Bits n false) =>
    (s.gt a).bind fun c1 => (r.gt s).map fun c2 => (r, c1 || c2)

/-- all limbs, the lowest first -/
def Bits.limbSub (c : Bool) : List (Bits n false × Bits n false) → Res (List (Bits n false) × Bool)
  | [] => .ok ([], c)
  | (a, b) :: l => (a.limbSubStep b c).bind fun r => (Bits.limbSub r.2 l).map fun q => (r.1 :: q.1, q.2)

theorem Bits.sto_ofBool (h1 : 1 < n) (c : Bool) : (Bits.ofInt (if c then 1 else 0) : Bits n false).sto = c.toNat := by
  by_cases h : n ≤ 64
  · have hw := le_hw h
    rw [Bits.sto_native h, Bits.ofInt, dif_pos h, Bits.hold_mkN h (by omega), holderTy_ge (by omega), ofInt_conv (le_refl _)]
    have h2 : 1 < 2 ^ Verif.hw n := Nat.one_lt_two_pow (by omega)
    cases c
    · simp
    · simp [Nat.mod_eq_of_lt h2]
  · rw [Bits.sto_big h, Bits.ofInt, dif_neg h, Bits.bg_big, Big.val_ofU64 (by omega)]
    cases c <;> rfl

theorem Bits.limbSubStep_spec (h1 : 1 < n) (a b : Bits n false) (ha : a.Clean) (hb : b.Clean) (c : Bool) :
    ∃ r d, a.limbSubStep b c = .ok (r, d) ∧ r.bv.toNat + b.bv.toNat + c.toNat = a.bv.toNat + 2 ^ n * d.toNat := by
  obtain ⟨s, hs, es⟩ := C29_sub_partial (by omega) a b (by simp)
  obtain ⟨r, hr, er⟩ := C29_sub_partial (s := false) (t := false) (by omega) s (Bits.ofInt (if c then 1 else 0) : Bits n false) (by simp)
  have es' := congrArg BitVec.toNat (show Bits.bv (s := false) s = a.bv - b.bv from es)
  have er' := congrArg BitVec.toNat (show Bits.bv (s := false) r = Bits.bv (s := false) s - Bits.bv _ from er)
  rw [BitVec.toNat_sub] at es' er'
  rw [Bits.ofBool_toNat h1] at er'
  have c1 := C175_borrow h1 a b ha hb
  rw [Bits.borrow, hs, res_bind_ok] at c1
  have hA := a.bv.isLt
  have hB := b.bv.isLt
  have h2 : 1 < 2 ^ n := Nat.one_lt_two_pow (by omega)
  have hle : 2 ^ n ≤ 2 ^ stoW n := Nat.pow_le_pow_right (by decide) le_stoW
  have s1 := Bits.sto_sub h1 hs
  have s2 := Bits.sto_sub h1 hr
  rw [Bits.sto_ofBool h1] at s2
  rw [Bits.sto_clean ha, Bits.sto_clean hb] at s1
  have hsl := Bits.sto_lt s
  have c2 : Bits.gt (n := n) (s := false) (m := n) (t := false) r s = .ok (decide (c = true ∧ a.bv.toNat = b.bv.toNat)) := by
    rw [Bits.gt_sto]
    congr 1
    rw [decide_eq_decide, s2]
    generalize Bits.sto s = S at *
    generalize 2 ^ stoW n = W at *
    generalize a.bv.toNat = A at *
    generalize b.bv.toNat = B at *
    cases c with
    | false => simp [Nat.mod_eq_of_lt hsl]
    | true =>
      simp only [Bool.toNat_true, true_and]
      by_cases h : S = 0
      · rw [h, Nat.mod_eq_of_lt (by omega)]
        refine iff_of_true (by omega) ?_
        by_cases hc : A < B
        · rw [Nat.mod_eq_of_lt (by omega)] at s1; omega
        · rw [show A + (W - B) = (A - B) + W by omega, Nat.add_mod_right, Nat.mod_eq_of_lt (by omega)] at s1; omega
      · rw [show S + (W - 1) = (S - 1) + W by omega, Nat.add_mod_right, Nat.mod_eq_of_lt (by omega)]
        refine iff_of_false (by omega) fun e => h ?_
        rw [s1, e, show B + (W - B) = W by omega, Nat.mod_self]
  refine ⟨r, _, by rw [Bits.limbSubStep, hs, res_bind_ok, hr, res_bind_ok, c1, res_bind_ok, c2, res_map_ok], ?_⟩
  have hs2 := (Bits.bv (s := false) s).isLt
  have hc01 : c.toNat ≤ 1 := Bool.toNat_le c
  clear s1 s2 c1 c2 hr hs es er hsl hle ha hb
  generalize (Bits.bv (s := false) s).toNat = S at *
  generalize (Bits.bv (s := false) r).toNat = R at *
  generalize a.bv.toNat = A at *
  generalize b.bv.toNat = B at *
  generalize 2 ^ n = N at *
  have hS : S = if A < B then A + N - B else A - B := by
    rw [es']
    split_ifs with h
    · rw [Nat.mod_eq_of_lt (by omega)]; omega
    · rw [show N - B + A = (A - B) + N by omega, Nat.add_mod_right, Nat.mod_eq_of_lt (by omega)]
  have hR : R = if S < c.toNat then N - 1 else S - c.toNat := by
    rw [er']
    split_ifs with h
    · rw [Nat.mod_eq_of_lt (by omega)]; omega
    · rw [show N - c.toNat + S = (S - c.toNat) + N by omega, Nat.add_mod_right, Nat.mod_eq_of_lt (by omega)]
  rw [hR, hS]
  cases c with
  | false =>
    simp only [Bool.toNat_false, Bool.false_eq_true, false_and, decide_false, Bool.or_false, Nat.not_lt_zero, if_false]
    by_cases h : A < B
    · simp only [h, decide_true, if_true, Bool.toNat_true]; omega
    · simp only [h, decide_false, if_false, Bool.toNat_false]; omega
  | true =>
    simp only [Bool.toNat_true, true_and]
    by_cases h : A < B
    · simp only [h, decide_true, if_true, Bool.true_or, Bool.toNat_true]
      rw [if_neg (by omega)]; omega
    · simp only [h, decide_false, if_false, Bool.false_or]
      by_cases e : A = B
      · simp only [e, decide_true, Bool.toNat_true]
        rw [if_pos (by omega)]; omega
      · simp only [e, decide_false, Bool.toNat_false]
        rw [if_neg (by omega)]; omega

/-- **C213.** At every width above one, the difference of two numbers of any length is right limb by limb, and the borrow
out says whether the first number is the smaller. -/
theorem C213_sub (h1 : 1 < n) (l : List (Bits n false × Bits n false)) (hl : ∀ p ∈ l, p.1.Clean ∧ p.2.Clean) (c : Bool) :
    ∃ r d, Bits.limbSub c l = .ok (r, d) ∧ r.length = l.length ∧
      limbVal r + limbVal (l.map (·.2)) + c.toNat = limbVal (l.map (·.1)) + (2 ^ n) ^ l.length * d.toNat := by
  induction l generalizing c with
  | nil => exact ⟨[], c, rfl, rfl, by simp [limbVal]⟩
  | cons p l ih =>
    obtain ⟨a, b⟩ := p
    have h0 := hl (a, b) (by simp)
    obtain ⟨r, d, hr, er⟩ := Bits.limbSubStep_spec h1 a b h0.1 h0.2 c
    obtain ⟨q, e, hq, hlen, eq⟩ := ih (fun p hp => hl p (by simp [hp])) d
    refine ⟨r :: q, e, by rw [Bits.limbSub, hr, res_bind_ok, hq, res_map_ok], by simp [hlen], ?_⟩
    simp only [List.map_cons, limbVal, List.length_cons, pow_succ]
    have := congrArg (2 ^ n * ·) eq
    simp only [Nat.mul_add] at this
    nlinarith [this, er]

theorem limbVal_lt (l : List (Bits n false)) : limbVal l < (2 ^ n) ^ l.length := by
  induction l with
  | nil => simp [limbVal]
  | cons a l ih =>
    have := a.bv.isLt
    rw [limbVal, List.length_cons, pow_succ]
    nlinarith

/-- **C213, comparison.** The borrow out is the order of the two numbers. -/
theorem C213_less (h1 : 1 < n) (l : List (Bits n false × Bits n false)) (hl : ∀ p ∈ l, p.1.Clean ∧ p.2.Clean) :
    (Bits.limbSub false l).map (·.2) = .ok (decide (limbVal (l.map (·.1)) < limbVal (l.map (·.2)))) := by
  obtain ⟨r, d, h, hlen, e⟩ := C213_sub h1 l hl false
  rw [h, res_map_ok]
  congr 1
  have hr := limbVal_lt r
  have hb := limbVal_lt (l.map (·.2))
  rw [hlen] at hr
  rw [List.length_map] at hb
  cases d with
  | false =>
    simp only [Bool.toNat_false, Nat.mul_zero, Nat.add_zero] at e
    exact (decide_eq_false (by omega)).symm
  | true =>
    simp only [Bool.toNat_true, Nat.mul_one, Bool.toNat_false, Nat.add_zero] at e
    exact (decide_eq_true (by omega)).symm

/-- three limbs of ten bits, a borrow through all of them -/
example : ((Bits.limbSub false [(Bits.ofInt 0, Bits.ofInt 1), (Bits.ofInt 0, Bits.ofInt 0), (Bits.ofInt 5, Bits.ofInt 0)]).map
    fun q => ((q.1.map fun a : Bits 10 false => a.bv.toNat), q.2)) = .ok ([1023, 1023, 4], false) := by decide +kernel

example : ((Bits.limbSub false [(Bits.ofInt 7, Bits.ofInt 1), (Bits.ofInt 2, Bits.ofInt 3)]).map
    fun q => ((q.1.map fun a : Bits 10 false => a.bv.toNat), q.2)) = .ok ([6, 1023], true) := by decide +kernel

end Verif
