import Verif.Lemmas.LogicOps
import Verif.Show

/-!
# Bitwise operators (C08 - C11, C14)

`Lg.at x i` is the 4-state bit at position `i`, `Bits.bv` the bit vector of a
2-state object; `Verif/Props/Access.lean` shows that these are what `operator[]`
reads. `n` is the width, `s`/`t` the signedness of the operands.
-/

namespace Verif

variable {n : Nat} {s t : Bool}

/-- **C08.** `a ^ b` on equal widths never faults and every bit is given by the
IEEE xor table. -/
theorem C08_xor_table (hn : 0 < n) (x : Lg n s) (y : Lg n t) :
    ∃ z, x.xor y = .ok z ∧ ∀ i, i < n → z.at i = V4.xor (x.at i) (y.at i) := by
  obtain ⟨z, hz, hv, hk⟩ := Lg.xor_ok hn x y
  refine ⟨z, hz, ?_⟩
  intro i hi
  rw [Lg.at_lt z hi, Lg.at_lt x hi, Lg.at_lt y hi, hv, hk]
  simp only [hi, decide_true, Bool.true_and]
  generalize x.value.raw i = a
  generalize x.xz.raw i = b
  generalize y.value.raw i = c
  generalize y.xz.raw i = d
  revert a b c d
  decide

-- x, z, known bits, mixed signedness; the same on a two-limb value
example : Lg.bits ((⟨Bits.ofInt 0b0110, Bits.ofInt 0b0011⟩ : Lg 4 false).xor
    (⟨Bits.ofInt 0b1100, Bits.ofInt 0⟩ : Lg 4 true)) = some [.x, .x, .b0, .b1] := by decide
example : Lg.bits ((⟨Bits.ofInt 0b0110, Bits.ofInt 0b0011⟩ : Lg 70 false).xor
    (⟨Bits.ofInt 0b1100, Bits.ofInt 0⟩ : Lg 70 true)) =
    some ([.x, .x, .b0, .b1] ++ List.replicate 66 .b0) := by decide +kernel

/-- **C09.** `~a` never faults and every bit is given by the IEEE table. -/
theorem C09_not_table (hn : 0 < n) (x : Lg n s) :
    ∃ z, x.not = .ok z ∧ ∀ i, i < n → z.at i = V4.not (x.at i) := by
  obtain ⟨z, hz, hv, hk⟩ := Lg.not_ok hn x
  refine ⟨z, hz, ?_⟩
  intro i hi
  rw [Lg.at_lt z hi, Lg.at_lt x hi, hv, hk]
  simp only [hi, decide_true, Bool.true_and]
  generalize x.value.raw i = a
  generalize x.xz.raw i = b
  revert a b
  decide

example : Lg.bits ((⟨Bits.ofInt 0b0110, Bits.ofInt 0b0011⟩ : Lg 4 true).not) =
    some [.x, .x, .b0, .b1] := by decide

/-- The three entries where the implementation of `&` departs from the IEEE
table: `x & 0`, `z & 1` and `z & z`. -/
def andDeviation (a b : V4) : Option V4 :=
  match a, b with
  | .x, .b0 => some .x
  | .z, .b1 => some .b1
  | .z, .z => some .z
  | _, _ => none

/-- **C10, exact behaviour.** `a & b` never faults; every bit is the IEEE table
entry except for the three operand pairs listed in `andDeviation`. Missing: the table entries at
those three pairs, which the code gets wrong (`C10_and_table_refuted`). -/
theorem C10_and_table_partial (hn : 0 < n) (x : Lg n s) (y : Lg n t) :
    ∃ z, x.and y = .ok z ∧ ∀ i, i < n →
      z.at i = (andDeviation (x.at i) (y.at i)).getD (V4.and (x.at i) (y.at i)) := by
  obtain ⟨z, hz, hv, hk⟩ := Lg.and_ok hn x y
  refine ⟨z, hz, ?_⟩
  intro i hi
  rw [Lg.at_lt z hi, Lg.at_lt x hi, Lg.at_lt y hi, hv, hk, Lg.raw_knownMask hn x y hi]
  simp only [hi, decide_true, Bool.true_and]
  generalize x.value.raw i = a
  generalize x.xz.raw i = b
  generalize y.value.raw i = c
  generalize y.xz.raw i = d
  revert a b c d
  decide

-- x & 1, z & 0, 1 & 1, 1 & x are right, x & 0 is not
example : Lg.bits ((⟨Bits.ofInt 0b01110, Bits.ofInt 0b10011⟩ : Lg 5 false).and
    (⟨Bits.ofInt 0b00101, Bits.ofInt 0b01000⟩ : Lg 5 false)) =
    some [.x, .b0, .b1, .x, .x] := by decide +kernel

/-- **C10 is false of the code.** At every width there are operands for which some
bit of `a & b` is not the table entry: `x & 0` gives x instead of 0. -/
theorem C10_and_table_refuted (hn : 0 < n) :
    ∃ (x y z : Lg n false), x.and y = .ok z ∧ ∃ i, i < n ∧ z.at i ≠ V4.and (x.at i) (y.at i) := by
  obtain ⟨x, _, hx1, hx2⟩ := Lg.dflt_ok (n := n) (s := false) hn
  let y : Lg n false := ⟨Bits.zero, Bits.zero⟩
  obtain ⟨z, hz, ht⟩ := C10_and_table_partial hn x y
  refine ⟨x, y, z, hz, 0, hn, ?_⟩
  have h1 : x.at 0 = .x := by rw [Lg.at_lt x hn, hx1, hx2]; simp [hn, V4.mk]
  have h2 : y.at 0 = .b0 := by
    rw [Lg.at_lt y hn]; simp only [y]; rw [Bits.raw_zero]; rfl
  rw [ht 0 hn, h1, h2]
  decide

/-- The two entries where the implementation of `|` departs from the IEEE table:
`x | 0` and `z | 1`. -/
def orDeviation (a b : V4) : Option V4 :=
  match a, b with
  | .x, .b0 => some .b1
  | .z, .b1 => some .x
  | _, _ => none

/-- **C11, exact behaviour.** `a | b` never faults; every bit is the IEEE table
entry except for the two operand pairs listed in `orDeviation`. Missing: the table entries at those
two pairs, which the code gets wrong (`C11_or_table_refuted`). -/
theorem C11_or_table_partial (hn : 0 < n) (x : Lg n s) (y : Lg n t) :
    ∃ z, x.or y = .ok z ∧ ∀ i, i < n →
      z.at i = (orDeviation (x.at i) (y.at i)).getD (V4.or (x.at i) (y.at i)) := by
  obtain ⟨z, hz, hv, hk⟩ := Lg.or_ok hn x y
  refine ⟨z, hz, ?_⟩
  intro i hi
  rw [Lg.at_lt z hi, Lg.at_lt x hi, Lg.at_lt y hi, hv, hk, Lg.raw_knownMask hn x y hi]
  simp only [hi, decide_true, Bool.true_and]
  generalize x.value.raw i = a
  generalize x.xz.raw i = b
  generalize y.value.raw i = c
  generalize y.xz.raw i = d
  revert a b c d
  decide

-- x | 1, z | 0, 1 | 0, 1 | x are right, x | 0 is not
example : Lg.bits ((⟨Bits.ofInt 0b01110, Bits.ofInt 0b10011⟩ : Lg 5 false).or
    (⟨Bits.ofInt 0b00001, Bits.ofInt 0b01000⟩ : Lg 5 false)) =
    some [.b1, .x, .b1, .b1, .b1] := by decide +kernel

/-- **C11 is false of the code.** At every width, `x | 0` gives 1 instead of x. -/
theorem C11_or_table_refuted (hn : 0 < n) :
    ∃ (x y z : Lg n false), x.or y = .ok z ∧ ∃ i, i < n ∧ z.at i ≠ V4.or (x.at i) (y.at i) := by
  obtain ⟨x, _, hx1, hx2⟩ := Lg.dflt_ok (n := n) (s := false) hn
  let y : Lg n false := ⟨Bits.zero, Bits.zero⟩
  obtain ⟨z, hz, ht⟩ := C11_or_table_partial hn x y
  refine ⟨x, y, z, hz, 0, hn, ?_⟩
  have h1 : x.at 0 = .x := by rw [Lg.at_lt x hn, hx1, hx2]; simp [hn, V4.mk]
  have h2 : y.at 0 = .b0 := by
    rw [Lg.at_lt y hn]; simp only [y]; rw [Bits.raw_zero]; rfl
  rw [ht 0 hn, h1, h2]
  decide

/-- **C14.** The 2-state operators `& | ^ ~` compute the boolean function on every
bit, and the compound assignments never fault and compute the same. -/
theorem C14_bitwise (hn : 0 < n) (x : Bits n s) (y : Bits n t) :
    (x.and y).bv = x.bv &&& y.bv ∧ (x.or y).bv = x.bv ||| y.bv ∧
    (x.xor y).bv = x.bv ^^^ y.bv ∧ x.not.bv = ~~~ x.bv ∧
    (∃ z, x.andAssign y = .ok z ∧ z.bv = x.bv &&& y.bv) ∧
    (∃ z, x.orAssign y = .ok z ∧ z.bv = x.bv ||| y.bv) ∧
    (∃ z, x.xorAssign y = .ok z ∧ z.bv = x.bv ^^^ y.bv) := by
  refine ⟨Bits.bv_and hn x y, Bits.bv_or x y, Bits.bv_xor x y, Bits.bv_not hn x, ?_, ?_, ?_⟩
  · obtain ⟨z, hz, hr⟩ := Bits.andAssign_ok hn x y
    refine ⟨z, hz, BitVec.eq_of_getLsbD_eq fun i hi => ?_⟩
    simp [Bits.getLsbD_bv, hr, -BitVec.getLsbD_eq_getElem, hi]
  · obtain ⟨z, hz, hr⟩ := Bits.orAssign_ok hn x y
    refine ⟨z, hz, BitVec.eq_of_getLsbD_eq fun i hi => ?_⟩
    simp [Bits.getLsbD_bv, hr, -BitVec.getLsbD_eq_getElem, hi]
  · obtain ⟨z, hz, hr⟩ := Bits.xorAssign_ok hn x y
    refine ⟨z, hz, BitVec.eq_of_getLsbD_eq fun i hi => ?_⟩
    simp [Bits.getLsbD_bv, hr, -BitVec.getLsbD_eq_getElem, hi]

example : ((Bits.ofInt 12 : Bits 100 false).xor (Bits.ofInt 10 : Bits 100 true)).bv = 6 ∧
    ((Bits.ofInt (-3) : Bits 7 true).and (Bits.ofInt 15 : Bits 7 true)).bv = 13 := by
  decide +kernel

end Verif
