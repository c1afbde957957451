import Verif.Props.Programs
import Verif.Props.Bitwise
import Verif.Props.Shift

/-!
# A program: addition with a parallel prefix network (C209)

The Kogge-Stone adder: `g = a & b; p = a ^ b; for (k = 1; k < n; k *= 2) { g = g | (p & (g << k)); p = p & (p << k); }`
and the sum `a ^ b ^ (g << 1)`.
-/

namespace Verif

variable {n : Nat}

/-- the loop with `f` rounds left, distance `k` -/
def Bits.prefixFrom (g p : Bits n false) : Nat → Nat → Res (Bits n false)
  | 0, _ => .ok g
  | f + 1, k =>
    if k < n then
      (g.shl (amount k)).bind fun gs => (p.shl (amount k)).bind fun ps =>
        Bits.prefixFrom (g.or (p.and gs)) (p.and ps) f (2 * k)
    else .ok g

/-- the adder -/
def Bits.prefixAdd (a b : Bits n false) : Res (Bits n false) :=
  (Bits.prefixFrom (a.and b) (a.xor b) n 1).bind fun g => (g.shl (amount 1)).map fun c => (a.xor b).xor c

/-! ### the network on bit vectors -/

/-- the carry out of the `k` positions that end at `i`, nothing carried in -/
def genOf (a b : BitVec n) : Nat → Nat → Bool
  | 0, _ => false
  | k + 1, i => a.getLsbD i && b.getLsbD i || (a.getLsbD i ^^ b.getLsbD i) && (decide (0 < i) && genOf a b k (i - 1))

/-- do all of the `k` positions that end at `i` hand a carry on -/
def propOf (a b : BitVec n) : Nat → Nat → Bool
  | 0, _ => true
  | k + 1, i => (a.getLsbD i ^^ b.getLsbD i) && (if k = 0 then true else decide (0 < i) && propOf a b k (i - 1))

/-- two windows side by side -/
theorem genOf_add (a b : BitVec n) (k l i : Nat) (hk : 0 < k) :
    genOf a b (k + l) i = (genOf a b k i || propOf a b k i && (decide (k ≤ i) && genOf a b l (i - k))) := by
  induction k generalizing i with
  | zero => omega
  | succ k ih =>
    rw [show k + 1 + l = (k + l) + 1 by omega, genOf, genOf, propOf]
    by_cases h0 : k = 0
    · subst h0
      simp only [Nat.zero_add, genOf, if_true, Bool.and_true, Bool.and_false, Bool.or_false]
      rfl
    · rw [ih (i - 1) (by omega), if_neg h0]
      by_cases h : 0 < i
      · rw [show i - (k + 1) = i - 1 - k by omega, show decide (k + 1 ≤ i) = decide (k ≤ i - 1) from decide_eq_decide.2 (by omega)]
        simp only [h, decide_true, Bool.true_and]
        cases a.getLsbD i <;> cases b.getLsbD i <;> simp
      · simp [h]

theorem propOf_add (a b : BitVec n) (k l i : Nat) (hk : 0 < k) (hl : 0 < l) :
    propOf a b (k + l) i = (propOf a b k i && (decide (k ≤ i) && propOf a b l (i - k))) := by
  induction k generalizing i with
  | zero => omega
  | succ k ih =>
    rw [show k + 1 + l = (k + l) + 1 by omega, propOf, propOf, if_neg (by omega)]
    by_cases h0 : k = 0
    · subst h0
      simp only [Nat.zero_add, if_true, Bool.and_true]
      rfl
    · rw [ih (i - 1) (by omega), if_neg h0]
      by_cases h : 0 < i
      · rw [show i - (k + 1) = i - 1 - k by omega, show decide (k + 1 ≤ i) = decide (k ≤ i - 1) from decide_eq_decide.2 (by omega)]
        simp only [h, decide_true, Bool.true_and, Bool.and_assoc]
      · simp [h]

/-- a window that reaches the lowest position carries what the addition carries -/
theorem genOf_carry (a b : BitVec n) (k i : Nat) (h : i < k) : genOf a b k i = BitVec.carry (i + 1) a b false := by
  induction i generalizing k with
  | zero =>
    obtain ⟨k, rfl⟩ : ∃ j, k = j + 1 := ⟨k - 1, by omega⟩
    rw [genOf, BitVec.carry_succ, BitVec.carry_zero]
    cases a.getLsbD 0 <;> cases b.getLsbD 0 <;> simp
  | succ i ih =>
    obtain ⟨k, rfl⟩ : ∃ j, k = j + 1 := ⟨k - 1, by omega⟩
    rw [genOf, BitVec.carry_succ, Nat.add_sub_cancel, ih k (by omega)]
    cases a.getLsbD (i + 1) <;> cases b.getLsbD (i + 1) <;> simp

/-! ### the program -/

theorem Bits.prefixFrom_spec (h1 : 1 < n) (hN : n ≤ 2 ^ 31) (a b : BitVec n) : ∀ (f k : Nat) (g p : Bits n false), 0 < k → n ≤ 2 ^ f * k →
    (∀ i, i < n → g.bv.getLsbD i = genOf a b k i) → (∀ i, i < n → p.bv.getLsbD i = propOf a b k i) →
    ∃ z, Bits.prefixFrom g p f k = .ok z ∧ ∀ i, i < n → z.bv.getLsbD i = BitVec.carry (i + 1) a b false := by
  intro f
  induction f with
  | zero =>
    intro k g p _ hk hg _
    exact ⟨g, rfl, fun i hi => by rw [hg i hi, genOf_carry _ _ _ _ (by omega)]⟩
  | succ f ih =>
    intro k g p h0 hk hg hp
    rw [Bits.prefixFrom]
    by_cases hkn : k < n
    · rw [if_pos hkn]
      obtain ⟨ca, na⟩ := amount_spec (i := k) (by omega)
      have hr : n ≤ 64 → 32 ≤ 64 ∧ 1 < n ∧ k < if n ≤ 32 then 32 else 64 := fun h => ⟨by decide, h1, by split_ifs <;> omega⟩
      obtain ⟨gs, hgs, eg⟩ := C25_shl_partial (by omega) g (amount k) ca k na hr
      obtain ⟨ps, hps, ep⟩ := C25_shl_partial (by omega) p (amount k) ca k na hr
      rw [hgs, res_bind_ok, hps, res_bind_ok]
      have bg : ∀ i, i < n → (Bits.bv (s := false) gs).getLsbD i = (decide (k ≤ i) && genOf a b k (i - k)) := by
        intro i hi
        rw [show Bits.bv (s := false) gs = g.bv <<< k from eg, BitVec.getLsbD_shiftLeft]
        by_cases h : i < k
        · simp [h, hi]
        · rw [hg _ (by omega)]; simp [h, hi, show k ≤ i by omega]
      have bp : ∀ i, i < n → (Bits.bv (s := false) ps).getLsbD i = (decide (k ≤ i) && propOf a b k (i - k)) := by
        intro i hi
        rw [show Bits.bv (s := false) ps = p.bv <<< k from ep, BitVec.getLsbD_shiftLeft]
        by_cases h : i < k
        · simp [h, hi]
        · rw [hp _ (by omega)]; simp [h, hi, show k ≤ i by omega]
      refine ih (2 * k) _ _ (by omega) (by rw [Nat.pow_succ] at hk; rw [← Nat.mul_assoc]; exact hk) (fun i hi => ?_) (fun i hi => ?_)
      · have e : (Bits.bv (s := false) (g.or (p.and gs))) = g.bv ||| (p.bv &&& Bits.bv (s := false) gs) := by
          refine (Bits.bv_or _ _).trans (congrArg (g.bv ||| ·) ?_)
          exact Bits.bv_and (by omega) _ _
        rw [e, BitVec.getLsbD_or, BitVec.getLsbD_and, hg i hi, hp i hi, bg i hi, Nat.two_mul, genOf_add a b k k i h0]
      · have e : (Bits.bv (s := false) (p.and ps)) = p.bv &&& Bits.bv (s := false) ps := Bits.bv_and (by omega) _ _
        rw [e, BitVec.getLsbD_and, hp i hi, bp i hi, Nat.two_mul, propOf_add a b k k i h0 h0]
    · rw [if_neg hkn]
      exact ⟨g, rfl, fun i hi => by rw [hg i hi, genOf_carry _ _ _ _ (by omega)]⟩

/-- **C209**: the adder gives the sum, without undefined behaviour, at every width above one. -/
theorem C209_sum (h1 : 1 < n) (hN : n ≤ 2 ^ 31) (a b : Bits n false) :
    ∃ z, a.prefixAdd b = .ok z ∧ z.bv = a.bv + b.bv := by
  obtain ⟨g, hg, eg⟩ := Bits.prefixFrom_spec h1 hN a.bv b.bv n 1 (a.and b) (a.xor b) (by decide)
    (by rw [Nat.mul_one]; exact Nat.le_of_lt Nat.lt_two_pow_self)
    (fun i hi => by
      have e : Bits.bv (s := false) (a.and b) = a.bv &&& b.bv := Bits.bv_and (by omega) _ _
      rw [e, genOf, genOf]; simp)
    (fun i hi => by
      have e : Bits.bv (s := false) (a.xor b) = a.bv ^^^ b.bv := Bits.bv_xor _ _
      rw [e, propOf]; simp)
  obtain ⟨ca, na⟩ := amount_spec (i := 1) (by decide)
  obtain ⟨c, hc, ec⟩ := C25_shl_partial (by omega) g (amount 1) ca 1 na (fun h => ⟨by decide, h1, by split_ifs <;> omega⟩)
  refine ⟨_, by rw [Bits.prefixAdd, hg, res_bind_ok, hc, res_map_ok], ?_⟩
  have e : Bits.bv (s := false) ((a.xor b).xor c) = (a.bv ^^^ b.bv) ^^^ Bits.bv (s := false) c := by
    refine (Bits.bv_xor _ _).trans (congrArg (· ^^^ Bits.bv (s := false) c) ?_)
    exact Bits.bv_xor _ _
  refine e.trans ?_
  apply BitVec.eq_of_getLsbD_eq
  intro i hi
  rw [BitVec.getLsbD_add hi, BitVec.getLsbD_xor, BitVec.getLsbD_xor, show Bits.bv (s := false) c = g.bv <<< 1 from ec,
    BitVec.getLsbD_shiftLeft]
  cases i with
  | zero => simp [BitVec.carry_zero]
  | succ i => rw [Nat.add_sub_cancel, eg i (by omega)]; simp [hi]

example : ((Bits.ofInt 0xBEEF : Bits 16 false).prefixAdd (Bits.ofInt 0xC0DE)).map (·.bv.toNat) = .ok 0x7FCD := by decide +kernel

end Verif
