import Verif.Props.ByteEnable
import Verif.Props.ArithExact
import Verif.Props.Conservative

/-!
# A program: a 4-state accumulator with reset (C217)

`if (rst) q = 0; else q = q + d;` once per clock, from the unknown state of a default constructed `logic`.
-/

namespace Verif

variable {n : Nat}

/-- one clock -/
def Lg.accStep (q : Lg n false) (i : Lg 1 false × Lg n false) : Res (Lg n false) :=
  if i.1.toBool then .ok (Lg.ofInt 0) else q.add i.2

/-- a run -/
def Lg.accRun (q : Lg n false) : List (Lg 1 false × Lg n false) → Res (Lg n false)
  | [] => .ok q
  | i :: l => (q.accStep i).bind fun q => q.accRun l

/-- the number a vector holds, if it is known -/
def Lg.word (d : Lg n false) : Option (BitVec n) := if ∀ i, i < n → (d.at i).isKnown = true then some d.value.bv else none

/-- the accumulator on numbers: a reset makes it known, an unknown summand unknown -/
def accSpec (q : Option (BitVec n)) : List (Lg 1 false × Lg n false) → Option (BitVec n)
  | [] => q
  | i :: l => accSpec (if i.1.at 0 = .b1 then some 0 else q.bind fun v => i.2.word.map fun w => v + w) l

/-- the register holds the number, or x at every bit -/
def Lg.Holds (q : Lg n false) : Option (BitVec n) → Prop
  | none => ∀ i, i < n → q.at i = .x
  | some v => q.Known ∧ q.value.bv = v

/-- an unknown bit of the summand is one that the emptiness test sees -/
def Lg.Plain (d : Lg n false) : Prop := d.Clean ∧ (n ≤ 64 ∨ d.Known ∨ d.SeenXZ)

theorem Lg.accStep_spec (h1 : 1 < n) (q : Lg n false) (o : Option (BitVec n)) (hq : q.Holds o) (i : Lg 1 false × Lg n false)
    (hi : i.2.Plain) :
    ∃ q', q.accStep i = .ok q' ∧ q'.Holds (if i.1.at 0 = .b1 then some 0 else o.bind fun v => i.2.word.map fun w => v + w) := by
  rw [Lg.accStep, Lg.toBool_bit]
  by_cases hr : i.1.at 0 = .b1
  · rw [if_pos (by simp [hr]), if_pos hr]
    refine ⟨_, rfl, Lg.known_zero _, ?_⟩
    show (Bits.ofInt 0 : Bits n false).bv = 0
    by_cases h : n ≤ 64
    · rw [C60_bits h1 h]; rfl
    · rw [C60_wide (by omega)]; simp
  rw [if_neg (by simp [hr]), if_neg hr]
  cases o with
  | none =>
    have hs : q.SeenXZ := ⟨0, by omega, Or.inr (by decide), by rw [hq 0 (by omega)]; rfl⟩
    obtain ⟨z, hz, e⟩ := (C33_arith_x_partial (by omega) q i.2 (Or.inl hs)).1
    exact ⟨z, hz, e⟩
  | some v =>
    obtain ⟨hk, hv⟩ := hq
    by_cases hd : ∀ j, j < n → (i.2.at j).isKnown = true
    · have hkd : i.2.Known := ⟨hi.1.2, hd⟩
      obtain ⟨w, hw, ew⟩ := C28_add_partial h1 q.value i.2.value (by simp)
      obtain ⟨z, hz, kz, vz⟩ := (C15_arith_partial q i.2 hk hkd w).1 hw
      refine ⟨z, hz, ?_⟩
      rw [Lg.word, if_pos hd]
      exact ⟨kz, by rw [vz]; exact ew.trans (by rw [hv])⟩
    · have hs : i.2.SeenXZ := by
        rcases hi.2 with h | h | h
        · push Not at hd
          obtain ⟨j, hj, hne⟩ := hd
          exact ⟨j, hj, Or.inl h, by simpa using hne⟩
        · exact absurd h.2 hd
        · exact h
      obtain ⟨z, hz, e⟩ := (C33_arith_x_partial (by omega) q i.2 (Or.inr hs)).1
      refine ⟨z, hz, ?_⟩
      rw [Lg.word, if_neg hd]
      exact e

/-- **C217, partial.** In every run the register is x at every bit until the first reset; from a reset on it holds the sum of
the summands since the last reset, until an unknown summand makes every bit x again. Missing: unknown bits that a wide vector
does not show (`C217_refuted`). -/
theorem C217_run_partial (h1 : 1 < n) (l : List (Lg 1 false × Lg n false)) (hl : ∀ i ∈ l, i.2.Plain) :
    ∃ q q', (Lg.dflt : Res (Lg n false)) = .ok q ∧ q.accRun l = .ok q' ∧ q'.Holds (accSpec none l) := by
  obtain ⟨q, hq, hx⟩ := Lg.dflt_at (n := n) (s := false) (by omega)
  suffices H : ∀ (l : List (Lg 1 false × Lg n false)) (q : Lg n false) (o : Option (BitVec n)), (∀ i ∈ l, i.2.Plain) → q.Holds o →
      ∃ q', q.accRun l = .ok q' ∧ q'.Holds (accSpec o l) by
    obtain ⟨q', h, e⟩ := H l q none hl hx
    exact ⟨q, q', hq, h, e⟩
  intro l
  induction l with
  | nil => intro q o _ hq; exact ⟨q, rfl, hq⟩
  | cons i l ih =>
    intro q o hl hq
    obtain ⟨r, hr, er⟩ := Lg.accStep_spec h1 q o hq i (hl i (by simp))
    obtain ⟨q', h, e⟩ := ih r _ (fun j hj => hl j (by simp [hj])) er
    exact ⟨q', by rw [Lg.accRun, hr, res_bind_ok, h], e⟩

/-- **C217 is false of wide vectors**: after a reset, a summand with an x at bit 40 that the test for unknown bits overlooks
leaves the register known. -/
theorem C217_refuted (h : 64 < n) (v : Bits n false) :
    ∃ (r : Lg 1 false) (d : Lg n false) (q q' : Lg n false), r.at 0 = .b1 ∧ d.value = v ∧ (d.at 40).isKnown = false ∧
      (Lg.dflt : Res (Lg n false)) = .ok q ∧ q.accRun [(r, d), (Lg.zero1, d)] = .ok q' ∧ q'.Known ∧ q'.value.bv = v.bv ∧
      accSpec none [(r, d), (Lg.zero1, d)] = none := by
  obtain ⟨d, rfl, cd, h40, hs⟩ := exists_unseen h v
  obtain ⟨q, hq, -⟩ := Lg.dflt_at (n := n) (s := false) (by omega)
  have e0 : (Bits.ofInt 0 : Bits n false).bv = 0 := by rw [C60_wide h]; simp
  obtain ⟨w, hw, ew⟩ := C28_add_partial (by omega) (Bits.ofInt 0 : Bits n false) d.value (by simp)
  have hk : (Lg.ofInt 0 : Lg n false).Known := Lg.known_zero (Bits.ofInt 0 : Bits n false)
  obtain ⟨z, hz, kz, vz⟩ := (C33_unseen_exact (Lg.ofInt 0 : Lg n false) d hk.1 cd (by
    rintro ⟨i, hi, -, hc⟩; rw [hk.2 i hi] at hc; cases hc) hs w).1 hw
  refine ⟨Lg.one1, d, q, z, by decide +kernel, rfl, h40, hq, ?_, kz, ?_, ?_⟩
  · have t1 : (Lg.one1).toBool = true := by decide +kernel
    have t0 : (Lg.zero1).toBool = false := by decide +kernel
    rw [Lg.accRun, Lg.accStep, t1, if_pos rfl, res_bind_ok, Lg.accRun, Lg.accStep, t0, if_neg Bool.false_ne_true]
    exact (congrArg (fun r : Res (Lg n false) => r.bind fun q => q.accRun []) hz).trans rfl
  · rw [vz]; exact ew.trans (by rw [e0]; exact BitVec.zero_add _)
  · have hd : ¬ ∀ i, i < n → (d.at i).isKnown = true := fun c => by
      rw [c 40 (by omega)] at h40; cases h40
    rw [accSpec, accSpec, accSpec, Lg.word, if_neg hd, if_neg (show ¬ (Lg.zero1).at 0 = V4.b1 by decide +kernel)]
    simp

/-- x before the reset; 0 + 3 + 4 after it; an unknown summand makes it x again -/
def accCase (l : List (Lg 1 false × Lg 8 false)) : Option (List V4) :=
  Lg.bits ((Lg.dflt : Res (Lg 8 false)).bind fun q => q.accRun l)

example : accCase [(Lg.zero1, Lg.ofInt 3)] = some (List.replicate 8 .x) := by decide +kernel
example : accCase [(Lg.one1, Lg.ofInt 3), (Lg.zero1, Lg.ofInt 3), (Lg.zero1, Lg.ofInt 4)] =
    Lg.bits (.ok (Lg.ofInt 7 : Lg 8 false)) := by decide +kernel
example : accCase [(Lg.one1, Lg.ofInt 3), (Lg.zero1, ⟨Bits.ofInt 3, Bits.ofInt 128⟩), (Lg.zero1, Lg.ofInt 4)] =
    some (List.replicate 8 .x) := by decide +kernel

end Verif
