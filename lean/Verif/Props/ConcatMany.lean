import Verif.Model.Static
import Verif.Props.Concat
import Verif.Show

/-!
# Concatenation of several values: C94
-/

namespace Verif

variable {n m : Nat} {s t : Bool}

/-- total width of the arguments of `concat` after the first -/
def widths {f : Nat × Bool → Type} (ys : List (Σ w : Nat × Bool, f w)) : Nat := (ys.map fun y => y.1.1).sum

/-- no step of the concatenation goes from at most 32 bits to more than 32 -/
def NoCross (n : Nat) : List Nat → Prop
  | [] => True
  | w :: ws => (n + w ≤ 32 ∨ 32 < n) ∧ NoCross (n + w) ws

instance (n : Nat) : (ws : List Nat) → Decidable (NoCross n ws)
  | [] => isTrue trivial
  | w :: ws => by
    have := instDecidableNoCross (n + w) ws
    exact inferInstanceAs (Decidable (_ ∧ _))

/-- **C94, 2-state, partial.** `concat(x, y0, y1, ...)` of unsigned values: the result has
the total width, is canonical, has `x` on top and argument `j` above the total width of
the arguments after it. Missing: a step from at most 32 to more than 32 bits and signed
arguments (`C94_refuted`); a total width of 64 or more does not compile. -/
theorem C94_concat_bits_partial : ∀ (ys : List Bits.Arg) (n : Nat) (x : Bits n false), 0 < n → x.Clean →
    (∀ y ∈ ys, 0 < y.1.1 ∧ y.1.2 = false ∧ y.2.Clean) → n + widths ys < 64 → NoCross n (ys.map fun y => y.1.1) →
    ∃ z, x.concatAll ys = .ok z ∧ z.1 = (n + widths ys, false) ∧ z.2.Clean ∧
      (∀ i, i < n → z.2.bv.getLsbD (widths ys + i) = x.bv.getLsbD i) ∧
      ∀ j (hj : j < ys.length), ∀ i, i < ys[j].1.1 →
        z.2.bv.getLsbD (widths (ys.drop (j + 1)) + i) = ys[j].2.bv.getLsbD i
  | [], n, x, _, hx, _, _, _ => ⟨⟨(n, false), x⟩, rfl, rfl, hx, fun i _ => by simp [widths], by simp⟩
  | ⟨(m, t), y⟩ :: ys, n, x, hn, hx, hys, hlt, hc => by
    obtain ⟨hm, rfl, hy⟩ := hys ⟨(m, t), y⟩ (by simp)
    simp only [] at hm hy
    have hw : widths (⟨(m, false), y⟩ :: ys : List Bits.Arg) = m + widths ys := by simp [widths]
    obtain ⟨v, hv, hvc, hvb⟩ := C52_concat_partial hn hm (by omega) hc.1 x y hx hy
    obtain ⟨z, hz, hz1, hzc, hzx, hzy⟩ := C94_concat_bits_partial ys (n + m) v (by omega) hvc
      (fun y hy => hys y (by simp [hy])) (by omega) hc.2
    refine ⟨z, ?_, by rw [hz1, hw, Nat.add_assoc], hzc, fun i hi => ?_, fun j hj i hi => ?_⟩
    · rw [Bits.concatAll, dif_pos (by omega), hv, res_bind_ok, hz]
    · rw [hw, show m + widths ys + i = widths ys + (m + i) by omega, hzx (m + i) (by omega), hvb,
        BitVec.getLsbD_append]
      simp
    · cases j with
      | zero =>
        have := hzx i (by simp at hi; omega)
        simp only [List.drop_succ_cons, List.drop_zero, List.getElem_cons_zero] at hi ⊢
        rw [this, hvb, BitVec.getLsbD_append]
        simp [hi]
      | succ j => exact hzy j (by simpa using hj) i hi

/-- **C94, 4-state, partial.** The same for `logic`, x and z included. Missing: what
`C94_concat_bits_partial` leaves out (`C94_fault`, `C94_truncated_refuted`, `C94_signed_refuted`).
-/
theorem C94_concat_logic_partial : ∀ (ys : List Lg.Arg) (n : Nat) (x : Lg n false), 0 < n → x.Clean →
    (∀ y ∈ ys, 0 < y.1.1 ∧ y.1.2 = false ∧ y.2.Clean) → n + widths ys < 64 → NoCross n (ys.map fun y => y.1.1) →
    ∃ z, x.concatAll ys = .ok z ∧ z.1 = (n + widths ys, false) ∧ z.2.Clean ∧
      (∀ i, i < n → z.2.at (widths ys + i) = x.at i) ∧
      ∀ j (hj : j < ys.length), ∀ i, i < ys[j].1.1 →
        z.2.at (widths (ys.drop (j + 1)) + i) = ys[j].2.at i
  | [], n, x, _, hx, _, _, _ => ⟨⟨(n, false), x⟩, rfl, rfl, hx, fun i _ => by simp [widths], by simp⟩
  | ⟨(m, t), y⟩ :: ys, n, x, hn, hx, hys, hlt, hc => by
    obtain ⟨hm, rfl, hy⟩ := hys ⟨(m, t), y⟩ (by simp)
    simp only [] at hm hy
    have hw : widths (⟨(m, false), y⟩ :: ys : List Lg.Arg) = m + widths ys := by simp [widths]
    obtain ⟨v, hv, hvc, hvb⟩ := C52_concat_logic_partial hn hm (by omega) hc.1 x y hx hy
    obtain ⟨z, hz, hz1, hzc, hzx, hzy⟩ := C94_concat_logic_partial ys (n + m) v (by omega) hvc
      (fun y hy => hys y (by simp [hy])) (by omega) hc.2
    refine ⟨z, ?_, by rw [hz1, hw, Nat.add_assoc], hzc, fun i hi => ?_, fun j hj i hi => ?_⟩
    · rw [Lg.concatAll, dif_pos (by omega), hv, res_bind_ok, hz]
    · rw [hw, show m + widths ys + i = widths ys + (m + i) by omega, hzx (m + i) (by omega), hvb _ (by omega),
        if_neg (by omega), Nat.add_sub_cancel_left]
    · cases j with
      | zero =>
        have := hzx i (by simp at hi; omega)
        simp only [List.drop_succ_cons, List.drop_zero, List.getElem_cons_zero] at hi ⊢
        rw [this, hvb _ (by omega), if_pos hi]
      | succ j => exact hzy j (by simpa using hj) i hi

/-- what a concatenation shows: the width and the bits -/
def argShow (r : Res Lg.Arg) : Option (Nat × List V4) :=
  match r with
  | .ok z => some (z.1.1, (List.range z.1.1).map z.2.at)
  | .error _ => none

def argNum (r : Res Bits.Arg) : Option (Nat × Nat) :=
  match r with
  | .ok z => some (z.1.1, z.2.bv.toNat)
  | .error _ => none

example : argNum ((Bits.ofInt 5 : Bits 3 false).concatAll
    [⟨(4, false), Bits.ofInt 9⟩, ⟨(8, false), Bits.ofInt 0xa5⟩]) = some (15, 0x59a5) := by decide +kernel
example : argShow ((⟨Bits.ofInt 2, Bits.ofInt 3⟩ : Lg 2 false).concatAll
    [⟨(1, false), Lg.ofInt 1⟩, ⟨(2, false), ⟨Bits.ofInt 0, Bits.ofInt 1⟩⟩]) = some (5, [.x, .b0, .b1, .x, .z]) := by
  decide +kernel
example : NoCross 3 [4, 8] ∧ NoCross 33 [4, 8] := by decide

/-- **C94 is false as stated**: `concat` of 16, 16 and 8 bits loses the top eight bits
of the first argument, and a negative signed last argument sets all bits above it. -/
theorem C94_refuted :
    argNum ((Bits.ofInt 0xffff : Bits 16 false).concatAll
      [⟨(16, false), Bits.ofInt 0⟩, ⟨(8, false), Bits.ofInt 0⟩]) = some (40, 0xff000000) ∧
    argNum ((Bits.ofInt 0 : Bits 2 false).concatAll
      [⟨(2, false), Bits.ofInt 0⟩, ⟨(4, true), Bits.ofInt (-1)⟩]) = some (8, 0xff) := by
  decide +kernel

end Verif
