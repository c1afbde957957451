import Verif.Props.Repair4
import Verif.Show
import Mathlib.Algebra.BigOperators.Intervals

/-!
# Many additions at a time on bit planes (C235)

The digits of `n` numbers are kept in vectors of width `n`, one vector for each digit. The gates of a ripple adder, applied to the vectors, add all `n` pairs of numbers.
With `&` and `|` rewritten as in C233 a digit of a sum is known only if it is right, whatever digits of the operands are x or z.
-/

namespace Verif

variable {n : Nat}

namespace B4

/-- the carry into digit `j`: `(a & b) | (c & (a ^ b))` -/
def carry (a b : Nat → B4) (c : B4) : Nat → B4
  | 0 => c
  | j + 1 => .or (.and (a j) (b j)) (.and (carry a b c j) (.xor (a j) (b j)))

/-- digit `j` of the sum: `(a ^ b) ^ c` -/
def digit (a b : Nat → B4) (c : B4) (j : Nat) : B4 := .xor (.xor (a j) (b j)) (carry a b c j)

/-- the number of `k` digits -/
def num (d : Nat → Bool) (k : Nat) : Nat := ∑ j ∈ Finset.range k, (d j).toNat * 2 ^ j

theorem num_lt (d : Nat → Bool) (k : Nat) : num d k < 2 ^ k := by
  induction k with
  | zero => simp [num]
  | succ k ih =>
    rw [num, Finset.sum_range_succ, ← num, pow_succ]
    cases d k <;> simp <;> omega

theorem num_testBit (d : Nat → Bool) (k j : Nat) (hj : j < k) : (num d k).testBit j = d j := by
  induction k with
  | zero => omega
  | succ k ih =>
    rw [num, Finset.sum_range_succ, ← num]
    have hl := num_lt d k
    by_cases e : j = k
    · subst e
      cases hd : d j
      · simp [Nat.testBit_lt_two_pow hl]
      · simp only [Bool.toNat_true, one_mul]
        rw [Nat.add_comm, Nat.testBit_two_pow_add_eq, Nat.testBit_lt_two_pow hl]; rfl
    · cases d k
      · simp [ih (by omega)]
      · simp only [Bool.toNat_true, one_mul]
        rw [Nat.add_comm, Nat.testBit_two_pow_add_gt (by omega), ih (by omega)]

theorem add_num (β : Nat → Bool) (a b : Nat → B4) (c : B4) (k : Nat) :
    num (fun j => (digit a b c j).bool β) k + ((carry a b c k).bool β).toNat * 2 ^ k =
      num (fun j => (a j).bool β) k + num (fun j => (b j).bool β) k + (c.bool β).toNat := by
  induction k with
  | zero => simp [num, carry]
  | succ k ih =>
    simp only [num, Finset.sum_range_succ, pow_succ] at ih ⊢
    have hs : ((digit a b c k).bool β).toNat + ((carry a b c (k + 1)).bool β).toNat * 2 =
        ((a k).bool β).toNat + ((b k).bool β).toNat + ((carry a b c k).bool β).toNat := by
      simp only [digit, carry, bool]
      cases (a k).bool β <;> cases (b k).bool β <;> cases (carry a b c k).bool β <;> rfl
    have hs' := congrArg (· * 2 ^ k) hs
    simp only [add_mul] at hs'
    nlinarith [hs', ih]

theorem ieee_known (ρ : Nat → V4) (h : ∀ j, (ρ j).isKnown = true) (e : B4) : (e.ieee ρ).isKnown = true := by
  have hn : ∀ v : V4, v.isKnown = true → v.not.isKnown = true := by intro v; cases v <;> decide
  have h2 : ∀ v w : V4, v.isKnown = true → w.isKnown = true →
      (v.and w).isKnown = true ∧ (v.or w).isKnown = true ∧ (v.xor w).isKnown = true := by
    intro v w; cases v <;> cases w <;> decide
  induction e with
  | var j => exact h j
  | not a ih => exact hn _ ih
  | and a b iha ihb => exact (h2 _ _ iha ihb).1
  | or a b iha ihb => exact (h2 _ _ iha ihb).2.1
  | xor a b iha ihb => exact (h2 _ _ iha ihb).2.2

end B4

/-- **C235.** Of every width and every number of digits: the planes `p j` and `q j` of the operands and the carry `r` are any vectors. No digit faults. At every lane, for all
digits `β` that the known ones allow, a known digit `j` of the result is digit `j` of the sum of the numbers; and if all planes are known at the lane then so are
the digits of the result. The carry out is digit `k`. -/
theorem C235_add (hn : 0 < n) (σ : Nat → Lg n false) (p q : Nat → Nat) (r k j : Nat) (hj : j ≤ k) :
    ∃ z, (if j < k then B4.digit (fun i => .var (p i)) (fun i => .var (q i)) (.var r) j else
        B4.carry (fun i => .var (p i)) (fun i => .var (q i)) (.var r) k).repair.run σ = .ok z ∧
      ∀ i, i < n →
        (∀ β : Nat → Bool, (∀ j, ((σ j).at i).Agrees (β j)) →
          (z.at i).Agrees ((B4.num (fun j => β (p j)) k + B4.num (fun j => β (q j)) k + (β r).toNat).testBit j)) ∧
        ((∀ j, ((σ j).at i).isKnown = true) → (z.at i).isKnown = true) := by
  obtain ⟨z, hz, ez⟩ := C233_repair hn σ (if j < k then B4.digit (fun i => .var (p i)) (fun i => .var (q i)) (.var r) j else
    B4.carry (fun i => .var (p i)) (fun i => .var (q i)) (.var r) k)
  refine ⟨z, hz, fun i hi => ⟨fun β hβ => ?_, fun h => by rw [ez i hi]; exact B4.ieee_known _ h _⟩⟩
  have ha := B4.ieee_agrees (fun j => (σ j).at i) β hβ (if j < k then B4.digit (fun i => .var (p i)) (fun i => .var (q i)) (.var r) j else
    B4.carry (fun i => .var (p i)) (fun i => .var (q i)) (.var r) k)
  rw [ez i hi]
  have key := B4.add_num β (fun i => .var (p i)) (fun i => .var (q i)) (.var r) k
  have hl := B4.num_lt (fun j => (B4.digit (fun i => .var (p i)) (fun i => .var (q i)) (.var r) j).bool β) k
  change _ = B4.num (fun j => β (p j)) k + B4.num (fun j => β (q j)) k + (β r).toNat at key
  rw [← key]
  convert ha using 1
  by_cases h : j < k
  · rw [if_pos h]
    rw [← B4.num_testBit (fun j => (B4.digit (fun i => .var (p i)) (fun i => .var (q i)) (.var r) j).bool β) k j h]
    cases (B4.carry (fun i => .var (p i)) (fun i => .var (q i)) (.var r) k).bool β
    · simp
    · simp only [Bool.toNat_true, one_mul]
      rw [Nat.add_comm, Nat.testBit_two_pow_add_gt h]
  · obtain rfl : j = k := by omega
    rw [if_neg h]
    cases (B4.carry (fun i => .var (p i)) (fun i => .var (q i)) (.var r) j).bool β
    · simp [Nat.testBit_lt_two_pow hl]
    · simp only [Bool.toNat_true, one_mul]
      rw [Nat.add_comm, Nat.testBit_two_pow_add_eq, Nat.testBit_lt_two_pow hl]; rfl

/-- three lanes of two digits: 3 + 1, x1 + 01 and 0x + 01. The digits of the sums from the lowest, and the carry: 001, 0xx, xx0. With the operators as they are the
second digit of the third sum is known, though 0 + 1 and 1 + 1 differ there. -/
example :
    let σ : Nat → Lg 3 false := fun j => match j with
      | 1 => ⟨Bits.ofInt 0b011, Bits.ofInt 0b100⟩
      | 2 => ⟨Bits.ofInt 0b111, Bits.zero⟩
      | 3 => ⟨Bits.ofInt 0b001, Bits.ofInt 0b010⟩
      | _ => ⟨Bits.zero, Bits.zero⟩
    let a : Nat → B4 := fun i => .var (2 * i + 1)
    let b : Nat → B4 := fun i => .var (2 * i + 2)
    Lg.bits ((B4.digit a b (.var 0) 0).repair.run σ) = some [.b0, .b0, .x] ∧
    Lg.bits ((B4.digit a b (.var 0) 1).repair.run σ) = some [.b0, .x, .x] ∧
    Lg.bits ((B4.carry a b (.var 0) 2).repair.run σ) = some [.b1, .x, .b0] ∧
    Lg.bits ((B4.digit a b (.var 0) 1).run σ) = some [.b0, .x, .b1] := by decide +kernel

end Verif
