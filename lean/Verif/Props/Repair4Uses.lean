import Verif.Props.Repair4
import Verif.Props.Majority

/-!
# Claims that `&` and `|` break, for rewritten expressions (C142, C208)

With `&` and `|` rewritten as in C233, known bits do not depend on the unknown ones, and two replicas outvote the third.
-/

namespace Verif

variable {n : Nat}

namespace B4

theorem ieee_mono (ρ ρ' : Nat → V4) (h : ∀ j, (ρ j).isKnown = true → ρ' j = ρ j) (e : B4) : (e.ieee ρ).isKnown = true → e.ieee ρ' = e.ieee ρ := by
  have hn : ∀ v w : V4, (v.isKnown = true → w = v) → (v.not).isKnown = true → w.not = v.not := by
    intro v w; cases v <;> cases w <;> decide
  have h2 : ∀ v w p q : V4, (v.isKnown = true → w = v) → (p.isKnown = true → q = p) →
      ((v.and p).isKnown = true → w.and q = v.and p) ∧ ((v.or p).isKnown = true → w.or q = v.or p) ∧
      ((v.xor p).isKnown = true → w.xor q = v.xor p) := by
    intro v w p q; cases v <;> cases w <;> cases p <;> cases q <;> decide
  induction e with
  | var j => exact h j
  | not a ih => exact hn _ _ ih
  | and a b iha ihb => exact (h2 _ _ _ _ iha ihb).1
  | or a b iha ihb => exact (h2 _ _ _ _ iha ihb).2.1
  | xor a b iha ihb => exact (h2 _ _ _ _ iha ihb).2.2

/-- `((a & b) | (a & c)) | (b & c)` -/
def vote (a b c : B4) : B4 := .or (.or (.and a b) (.and a c)) (.and b c)

end B4

/-- **C142, rewritten expressions.** Of every width and for every expression: a bit of the result that is 0 or 1 stays what it is if unknown bits of the operands are
replaced by anything. -/
theorem C142_rewritten (hn : 0 < n) (e : B4) (σ σ' : Nat → Lg n false) (h : ∀ j, (σ j).Allows (σ' j)) :
    ∃ z z', e.repair.run σ = .ok z ∧ e.repair.run σ' = .ok z' ∧ z.Allows z' := by
  obtain ⟨z, hz, ez⟩ := C233_repair hn σ e
  obtain ⟨z', hz', ez'⟩ := C233_repair hn σ' e
  refine ⟨z, z', hz, hz', fun i hi hk => ?_⟩
  rw [ez' i hi, ez i hi]
  rw [ez i hi] at hk
  exact B4.ieee_mono _ _ (fun j => h j i hi) e hk

/-- **C208, rewritten.** Of every width: where two of the three replicas hold `v`, so does the vote, whatever the third one holds. -/
theorem C208_rewritten (hn : 0 < n) (σ : Nat → Lg n false) (a b c : Nat) :
    ∃ z, (B4.vote (.var a) (.var b) (.var c)).repair.run σ = .ok z ∧
      ∀ i, i < n → ∀ v, agreed ((σ a).at i) ((σ b).at i) ((σ c).at i) = some v → z.at i = V4.ofBool v := by
  obtain ⟨z, hz, ez⟩ := C233_repair hn σ (B4.vote (.var a) (.var b) (.var c))
  exact ⟨z, hz, fun i hi v h => by rw [ez i hi]; exact agreed_ieee _ _ _ v h⟩

/-- the replicas x, 0 and 0, for which the vote of `C208_vote_refuted` is 1, and z, 1 and 1 -/
example :
    let σ : Nat → Lg 2 false := fun j => if j = 0 then ⟨Bits.ofInt 2, Bits.ofInt 3⟩ else ⟨Bits.ofInt 2, Bits.zero⟩
    Lg.bits ((B4.vote (.var 0) (.var 1) (.var 2)).repair.run σ) = some [.b0, .b1] ∧
    agreed ((σ 0).at 0) ((σ 1).at 0) ((σ 2).at 0) = some false := by decide +kernel

end Verif
