import Verif.Props.ExprI
import Verif.Props.ExprL
import Verif.Props.Selectors
import Verif.Show

/-!
# Where programs and encoders go wrong (C126, C129, C185)
-/

namespace Verif

variable {n : Nat} {s : Bool}

/-- **C126 is false of programs that compare or divide mixed signednesses.** `while (bit(-1) <= 255u) {}` on 8-bit objects never ends
in SystemVerilog, where the comparison is unsigned and true; in the library it ends after one step and leaves every object as it was.
`v = -1 / 2u` leaves 0 in `v` instead of 127. -/
theorem C126_refuted (σ : ObjsI) (f : Nat) :
    (let p := StI.loop (.le (.lit 8 true (-1)) (.lit 8 false 255)) .skip;
      p.run (f + 1) σ = some (.ok σ) ∧ p.den f σ.vals = none ∧ ¬ SemP (p.run (f + 1) σ) (p.den (f + 1) σ.vals)) ∧
    (let p := StI.assign 8 false 0 (.div (.lit 8 true (-1)) (.lit 8 false 2));
      (∃ τ, p.run (f + 1) σ = some (.ok τ) ∧ (τ 8 false 0).bv = 0) ∧
      (∃ ρ, p.den (f + 1) σ.vals = some (some ρ) ∧ ρ 8 false 0 = 127) ∧
      ¬ SemP (p.run (f + 1) σ) (p.den (f + 1) σ.vals)) := by
  constructor
  · intro p
    have hr : p.run (f + 1) σ = some (.ok σ) := by
      simp only [p, StI.run, (C125_refuted σ σ.vals).1]
      rw [if_neg (by decide +kernel)]
    have hd : ∀ f, p.den f σ.vals = none := by
      intro f
      induction f with
      | zero => rfl
      | succ f ih =>
        simp only [p, StI.den, (C125_refuted σ σ.vals).2.1]
        rw [if_pos trivial]
        cases f with
        | zero => rfl
        | succ f => exact ih
    exact ⟨hr, hd f, by rw [hr, hd]; exact fun h => by cases h⟩
  · intro p
    obtain ⟨-, -, h1, h2, -⟩ := C125_refuted σ σ.vals
    have hr : ∃ τ, p.run (f + 1) σ = some (.ok τ) ∧ (τ 8 false 0).bv = 0 := by
      cases e : (ExI.div (.lit 8 true (-1)) (.lit 8 false 2)).run σ with
      | error g => rw [e] at h1; cases h1
      | ok x =>
        rw [e, res_map_ok] at h1
        have hx : x.bv = 0 := Except.ok.inj h1
        refine ⟨σ.put 8 false 0 (x.assignNat (by decide)), ?_, ?_⟩
        · simp only [p, StI.run]
          rw [dif_pos (by decide)]
          exact congrArg some (by rw [e]; rfl)
        · have : (σ.put 8 false 0 (x.assignNat (by decide) : Bits 8 false)) 8 false 0 = x.assignNat (by decide) := by
            simp [ObjsI.put]
          rw [this, (C93_assign_partial (by decide) (by decide) (by decide) x (ExI.W.clean (.inl (.inl rfl)) x)).1, hx]
          decide
    have hd : ∃ ρ, p.den (f + 1) σ.vals = some (some ρ) ∧ ρ 8 false 0 = 127 := by
      refine ⟨σ.vals.put 8 false 0 (127#8), ?_, by simp [ValsI.put]⟩
      simp only [p, StI.den, h2]
      rfl
    refine ⟨hr, hd, ?_⟩
    obtain ⟨τ, e1, e2⟩ := hr
    obtain ⟨ρ, e3, e4⟩ := hd
    rw [e1, e3]
    rintro ⟨τ', e5, e6⟩
    injection e5 with e5; injection e5 with e5
    subst e5; subst e6
    rw [show ObjsI.vals τ 8 false 0 = (τ 8 false 0).bv from rfl, e2] at e4
    exact absurd e4 (by decide)

/-- **C129 is false of programs that compare mixed signednesses**: the 4-state form of the loop of `C126_refuted`. -/
theorem C129_refuted (σ : ObjsL) (f : Nat) :
    let p := StL.loop (.le (.lit 8 true (-1)) (.lit 8 false 255)) .skip
    p.run (f + 1) σ = some (.ok σ) ∧ p.den f σ.vals = none ∧ ¬ SemPL (p.run (f + 1) σ) (p.den (f + 1) σ.vals) := by
  intro p
  have hr : p.run (f + 1) σ = some (.ok σ) := by
    simp only [p, StL.run, ExL.run, res_bind_ok]
    have h : ((Lg.ofInt (-1) : Lg 8 true).le (Lg.ofInt 255 : Lg 8 false)).map (·.toBool) = .ok false := by decide +kernel
    cases e : (Lg.ofInt (-1) : Lg 8 true).le (Lg.ofInt 255 : Lg 8 false) with
    | error g => rw [e] at h; cases h
    | ok v =>
      rw [e] at h
      have hv : v.toBool = false := Except.ok.inj h
      simp [hv]
  have hd : ∀ f, p.den f σ.vals = none := by
    intro f
    induction f with
    | zero => rfl
    | succ f ih =>
      have h := (C128_refuted σ σ.vals).2.1
      cases e : (ExL.le (.lit 8 true (-1)) (.lit 8 false 255)).den σ.vals with
      | none => rw [e] at h; cases h
      | some v =>
        rw [e] at h
        simp only [p, StL.den, e]
        rw [if_pos (Option.some.inj h)]
        cases f with
        | zero => rfl
        | succ f => exact ih
  exact ⟨hr, hd f, by rw [hr, hd]; exact fun h => by cases h⟩

/-- **C185, exactly when `highest_bit` is the encoder.** The two agree on a canonical value if and only if it is not 0 and not a negative
native number of fewer than 64 bits. -/
theorem C185_highest_bit_iff (hn : 0 < n) (hN : n ≤ 2 ^ 32) (y : Bits n s) (hy : y.Clean) :
    y.encode = .ok (y.highestBit : Int) ↔ y.bv ≠ 0 ∧ ¬ (s = true ∧ 1 < n ∧ n < 64 ∧ y.bv.msb = true) := by
  obtain ⟨r, hr, h0, h⟩ := C185_encode hn hN y
  constructor
  · intro e
    rw [hr] at e
    injection e with e
    refine ⟨fun hz => ?_, ?_⟩
    · have := h0 hz
      omega
    · rintro ⟨rfl, h1, h2, hm⟩
      have hz : y.bv ≠ 0 := by intro hz; rw [hz] at hm; simp at hm
      obtain ⟨i, e', hi, -⟩ := h hz
      have := C96_negative h2 h1 y hy hm
      omega
  · rintro ⟨hz, hs⟩
    refine C185_highest_bit_partial hn hN y hy hz fun h64 hs' h1 => ?_
    by_contra hc
    rw [not_or, Bool.not_eq_false] at hc
    exact hs ⟨hs', h1, by omega, hc.1⟩

example : (Bits.ofInt 20 : Bits 12 true).encode = .ok 4 ∧ (Bits.ofInt 20 : Bits 12 true).highestBit = 4 ∧
    (Bits.ofInt (-1) : Bits 12 true).encode = .ok 11 ∧ (Bits.ofInt (-1) : Bits 12 true).highestBit = 63 := by decide +kernel

end Verif
