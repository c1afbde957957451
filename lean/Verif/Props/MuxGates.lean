import Verif.Props.Repair4

/-!
# A multiplexer made of gates (C234)

`(s & a) | (~s & b) | (a & b)`. The third term is what makes the result known if both operands agree and the select is not known (IEEE 1800, 11.4.11).
-/

namespace Verif

variable {n : Nat}

/-- IEEE 1800, 11.4.11: one bit of `s ? a : b`, where z counts as x -/
def V4.choose (s a b : V4) : V4 :=
  match s with
  | .b1 => a.not.not
  | .b0 => b.not.not
  | _ => if a = b ∧ a.isKnown = true then a else .x

namespace B4

/-- `(s & a) | (~s & b)` -/
def mux2 (s a b : B4) : B4 := .or (.and s a) (.and (.not s) b)

/-- `((s & a) | (~s & b)) | (a & b)` -/
def mux3 (s a b : B4) : B4 := .or (mux2 s a b) (.and a b)

/-- one of the inputs, chosen by the first `k` selects, the highest one first -/
def tree (sel inp : Nat → B4) : Nat → Nat → B4
  | 0, base => inp base
  | k + 1, base => mux3 (sel k) (tree sel inp k (base + 2 ^ k)) (tree sel inp k base)

theorem ieee_mux3 (ρ : Nat → V4) (s a b : B4) : (mux3 s a b).ieee ρ = V4.choose (s.ieee ρ) (a.ieee ρ) (b.ieee ρ) := by
  simp only [mux3, mux2, ieee]
  generalize s.ieee ρ = p
  generalize a.ieee ρ = q
  generalize b.ieee ρ = r
  cases p <;> cases q <;> cases r <;> rfl

theorem ieee_mux2 (ρ : Nat → V4) (s a b : B4) : (mux2 s a b).ieee ρ =
    if (s.ieee ρ).isKnown = true ∨ a.ieee ρ ≠ b.ieee ρ ∨ a.ieee ρ ≠ .b1 then V4.choose (s.ieee ρ) (a.ieee ρ) (b.ieee ρ) else .x := by
  simp only [mux2, ieee]
  generalize s.ieee ρ = p
  generalize a.ieee ρ = q
  generalize b.ieee ρ = r
  cases p <;> cases q <;> cases r <;> rfl

/-- known operands of a tree: all inputs that the known selects allow have the value `v` -/
theorem tree_known (ρ : Nat → V4) (sel inp : Nat → B4) (v : Bool) (k base : Nat)
    (h : ∀ c, c < 2 ^ k → (∀ j, j < k → ((sel j).ieee ρ).isKnown = true → (sel j).ieee ρ = V4.ofBool (c.testBit j)) →
      (inp (base + c)).ieee ρ = V4.ofBool v) : (tree sel inp k base).ieee ρ = V4.ofBool v := by
  induction k generalizing base with
  | zero => exact h 0 (by norm_num) (fun j hj => absurd hj (by omega))
  | succ k ih =>
    rw [tree, ieee_mux3]
    have hp : (2 : Nat) ^ (k + 1) = 2 ^ k + 2 ^ k := by rw [pow_succ]; ring
    have hi : ((sel k).ieee ρ).isKnown = true → (sel k).ieee ρ = .b1 ∨ (sel k).ieee ρ = .b0 := by
      cases (sel k).ieee ρ <;> simp [V4.isKnown, V4.known?]
    have h1 : (sel k).ieee ρ ≠ .b0 → (tree sel inp k (base + 2 ^ k)).ieee ρ = V4.ofBool v := fun hs => by
      refine ih _ fun c hc hk => ?_
      rw [Nat.add_assoc]
      refine h _ (by omega) fun j hj hkn => ?_
      by_cases e : j = k
      · subst e
        rw [(hi hkn).resolve_right hs, Nat.testBit_two_pow_add_eq, Nat.testBit_lt_two_pow hc]; rfl
      · rw [Nat.testBit_two_pow_add_gt (by omega)]; exact hk j (by omega) hkn
    have h0 : (sel k).ieee ρ ≠ .b1 → (tree sel inp k base).ieee ρ = V4.ofBool v := fun hs => by
      refine ih _ fun c hc hk => ?_
      refine h _ (by omega) fun j hj hkn => ?_
      by_cases e : j = k
      · subst e
        rw [(hi hkn).resolve_left hs, Nat.testBit_lt_two_pow hc]; rfl
      · exact hk j (by omega) hkn
    cases hs : (sel k).ieee ρ <;> rw [hs] at h1 h0
    · rw [h0 (by decide)]; cases v <;> rfl
    · rw [h1 (by decide)]; cases v <;> rfl
    · rw [h1 (by decide), h0 (by decide)]; cases v <;> rfl
    · rw [h1 (by decide), h0 (by decide)]; cases v <;> rfl

end B4

theorem hazard_bit (p q r : V4) : ((if p.isKnown = true ∨ q ≠ r ∨ q ≠ .b1 then V4.choose p q r else .x) = V4.choose p q r) ↔
    (p.isKnown = true ∨ ¬ (q = .b1 ∧ r = .b1)) := by
  cases p <;> cases q <;> cases r <;> decide

/-- **C234, one multiplexer.** Of every width and for all operands, x and z included: the rewritten gates (C233) compute `s ? a : b` of IEEE 1800 at every bit. -/
theorem C234_mux (hn : 0 < n) (σ : Nat → Lg n false) (s a b : Nat) :
    ∃ z, (B4.mux3 (.var s) (.var a) (.var b)).repair.run σ = .ok z ∧
      ∀ i, i < n → z.at i = V4.choose ((σ s).at i) ((σ a).at i) ((σ b).at i) := by
  obtain ⟨z, hz, ez⟩ := C233_repair hn σ (B4.mux3 (.var s) (.var a) (.var b))
  exact ⟨z, hz, fun i hi => by rw [ez i hi, B4.ieee_mux3]; rfl⟩

/-- **C234, the third term.** Without it the gates compute the same at exactly those bits at which the select is known or not both operands are 1. -/
theorem C234_hazard (hn : 0 < n) (σ : Nat → Lg n false) (s a b : Nat) :
    ∃ z, (B4.mux2 (.var s) (.var a) (.var b)).repair.run σ = .ok z ∧
      ∀ i, i < n → (z.at i = V4.choose ((σ s).at i) ((σ a).at i) ((σ b).at i) ↔
        (((σ s).at i).isKnown = true ∨ ¬ ((σ a).at i = .b1 ∧ (σ b).at i = .b1))) := by
  obtain ⟨z, hz, ez⟩ := C233_repair hn σ (B4.mux2 (.var s) (.var a) (.var b))
  refine ⟨z, hz, fun i hi => ?_⟩
  rw [ez i hi, B4.ieee_mux2]
  exact hazard_bit _ _ _

/-- **C234, trees.** A tree of `2^k - 1` such multiplexers, of whatever depth and width: if all inputs that the known selects leave open are known and have the same
value at a bit, then so has the result. With known selects this says that the result is the selected input. -/
theorem C234_tree (hn : 0 < n) (σ : Nat → Lg n false) (sel inp : Nat → Nat) (k : Nat) :
    ∃ z, (B4.tree (fun j => .var (sel j)) (fun c => .var (inp c)) k 0).repair.run σ = .ok z ∧
      ∀ i, i < n → ∀ v : Bool,
        (∀ c, c < 2 ^ k → (∀ j, j < k → ((σ (sel j)).at i).isKnown = true → (σ (sel j)).at i = V4.ofBool (c.testBit j)) →
          (σ (inp c)).at i = V4.ofBool v) → z.at i = V4.ofBool v := by
  obtain ⟨z, hz, ez⟩ := C233_repair hn σ (B4.tree (fun j => .var (sel j)) (fun c => .var (inp c)) k 0)
  refine ⟨z, hz, fun i hi v h => ?_⟩
  rw [ez i hi]
  refine B4.tree_known _ _ _ v k 0 fun c hc hk => ?_
  rw [Nat.zero_add]
  exact h c hc hk

/-- **C234 fails with the operators as they are**: the select is x, both operands are 0, and the result is 1 instead of 0. -/
theorem C234_plain : ∃ (σ : Nat → Lg 4 false) (z : Lg 4 false), (∀ j, (σ j).Clean) ∧ (B4.mux3 (.var 0) (.var 1) (.var 2)).run σ = .ok z ∧
    V4.choose ((σ 0).at 0) ((σ 1).at 0) ((σ 2).at 0) ≠ z.at 0 := by
  refine ⟨fun j => if j = 0 then ⟨Bits.ofInt 0, Bits.ofInt 15⟩ else ⟨Bits.zero, Bits.zero⟩, ⟨Bits.ofInt 15, Bits.zero⟩, fun j => ?_, by decide +kernel⟩
  by_cases h : j = 0
  · simp only [h, if_true]; decide +kernel
  · simp only [h, if_false]; decide +kernel

/-- select x, operands 1 and 1, then 0 and 1: the rewritten gates give 1 and x -/
example :
    let σ : Nat → Lg 2 false := fun j => if j = 0 then ⟨Bits.ofInt 0, Bits.ofInt 3⟩ else if j = 1 then ⟨Bits.ofInt 1, Bits.zero⟩ else ⟨Bits.ofInt 3, Bits.zero⟩
    Lg.bits ((B4.mux3 (.var 0) (.var 1) (.var 2)).repair.run σ) = some [.b1, .x] ∧
    Lg.bits ((B4.mux2 (.var 0) (.var 1) (.var 2)).repair.run σ) = some [.x, .x] := by decide +kernel

end Verif
