import Verif.Props.Truth
import Verif.Props.Arith
import Verif.Model.Static
import Verif.Show

/-!
# Unary plus and the truth value of 2-state vectors (C107, C108)
-/

namespace Verif
variable {n : Nat} {s : Bool}

/-! ## C107 -/

/-- **C107, partial.** `+x` is `x` itself when `x` has no x or z, and all x when it has one, in a
native value or in the lower half of a 64 bit chunk. Missing: x/z in upper halves only
(`C107_refuted`). -/
theorem C107_plus_partial (hn : 0 < n) (x : Lg n s) :
    (x.Known → x.pos = .ok x) ∧ (x.SeenXZ → ∃ z, x.pos = .ok z ∧ ∀ i, i < n → z.at i = .x) := by
  refine ⟨fun hx => ?_, fun ⟨i, h1, h2, h3⟩ => ?_⟩
  · rw [Lg.pos, hx.anySet]; rfl
  · rw [Lg.pos, Lg.anySet_of_unknown h1 h2 h3]
    exact Lg.dflt_at hn

/-- **C107 for native widths**, without restriction on where the x/z bit is. -/
theorem C107_plus_native (hn : 0 < n) (h : n ≤ 64) (x : Lg n s) (hx : x.Clean) :
    ∃ z, x.pos = .ok z ∧ ∀ i, i < n →
      z.at i = if (∀ j, j < n → (x.at j).isKnown = true) then x.at i else .x := by
  by_cases hk : ∀ j, j < n → (x.at j).isKnown = true
  · exact ⟨x, (C107_plus_partial hn x).1 ⟨hx.2, hk⟩, fun i _ => by rw [if_pos hk]⟩
  · have hk' := hk
    push Not at hk'
    obtain ⟨j, hj, hu⟩ := hk'
    obtain ⟨z, hz, ha⟩ := (C107_plus_partial hn x).2 ⟨j, hj, Or.inl h, by simpa using hu⟩
    exact ⟨z, hz, fun i hi => by rw [if_neg hk, ha i hi]⟩

/-- **C107 is false for wide values**: at every width above 64 there is a canonical value with an
x whose `+x` is not all x. -/
theorem C107_refuted (h : 64 < n) : ∃ x z : Lg n s, x.Clean ∧ (∃ i, i < n ∧ x.at i = .x) ∧ x.pos = .ok z ∧
    z.at 0 = .b0 := by
  obtain ⟨x, hx, hf⟩ := Lg.exists_clean n s fun i => if i = 32 then .x else .b0
  refine ⟨x, x, hx, ⟨32, by omega, by rw [hf 32 (by omega), if_pos rfl]⟩, ?_, by
    rw [hf 0 (by omega), if_neg (by decide)]⟩
  have : ¬ x.SeenXZ := by
    rintro ⟨i, hi, hs, hu⟩
    rw [hf i hi] at hu
    split_ifs at hu with h32
    · subst h32
      rcases hs with hs | hs <;> omega
    · exact absurd hu (by decide)
  rw [Lg.pos, if_neg (mt (Lg.anySet_xz hx.2).1 this)]

example : Lg.bits (((Lg.ofInt 5 : Lg 3 false).setZ (Rng.down 3) 0).bind Lg.pos) = some [.x, .x, .x] := by decide +kernel
example : Lg.bits ((Lg.ofInt 5 : Lg 3 false).pos) = some [.b1, .b0, .b1] := by decide +kernel

/-! ## C108 -/

/-- **C108, partial.** A native canonical 2-state value is true exactly when it is not zero; a
wide one when it has a one in the lower half of a 64 bit chunk; `!x` is the opposite. Missing:
wide values with ones in upper halves only (`C108_refuted`), values that are not canonical
(`C108_dirty`). -/
theorem C108_bool_partial (x : Bits n s) (hx : x.Clean) :
    (n ≤ 64 → (x.toBool = true ↔ x.bv ≠ 0)) ∧
    (64 < n → (x.toBool = true ↔ ∃ i, i < n ∧ i % 64 < 32 ∧ x.bv.getLsbD i = true)) ∧
    (x.lnot = true ↔ ¬ x.toBool = true) := by
  refine ⟨fun h => ?_, fun h => ?_, by rw [Bits.lnot, Bits.toBool]; simp⟩
  · rw [Bits.toBool, Bits.anySet_native h hx, decide_eq_true_iff]
  · have hn : ¬ n ≤ 64 := by omega
    rw [Bits.toBool, Bits.anySet, dif_neg hn]
    exact (C84_tests_partial hn x hx).1

/-- **C108 is false for wide values**: at every width above 64 a value different from zero is
false and its `!` is true. -/
theorem C108_refuted (h : 64 < n) : ∃ x : Bits n s, x.Clean ∧ x.bv.toNat = 2 ^ 32 ∧ x.toBool = false ∧
    x.lnot = true := by
  have hn : ¬ n ≤ 64 := by omega
  obtain ⟨x, hx, hb, ha⟩ := (C84_refuted (s := s) hn).1
  refine ⟨x, hx, hb, ?_, ?_⟩
  · rw [Bits.toBool, Bits.anySet, dif_neg hn, ha]
  · rw [Bits.lnot, Bits.anySet, dif_neg hn, ha]; rfl

/-- **C108 is false for values that are not canonical**: the four bit sum 15 + 1 has bits 0000
and is true. -/
theorem C108_dirty : ∃ z : Bits 4 false,
    (Bits.ofInt 15 : Bits 4 false).add (Bits.ofInt 1 : Bits 4 false) = .ok z ∧ z.bv = 0 ∧ z.toBool = true :=
  ⟨Bits.ofInt 16, by decide +kernel, by decide +kernel, by decide +kernel⟩

example : (Bits.ofInt 8 : Bits 4 false).toBool = true ∧ (Bits.ofInt 8 : Bits 4 false).lnot = false ∧
    (Bits.zero : Bits 70 true).lnot = true := by decide +kernel

end Verif
