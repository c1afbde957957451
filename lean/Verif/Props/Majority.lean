import Verif.Props.Bitwise
import Verif.Lemmas.Planes

/-!
# A program: the majority of three replicas (C208)

`(a & b) | (a & c) | (b & c)`, the voter of triple redundancy: where two replicas agree, the third one may
hold anything. In the tables of IEEE 1800 it may hold x or z; here it may hold x only if it is the last one.
-/

namespace Verif

variable {n : Nat}

/-- `(a & b) | (a & c) | (b & c)` -/
def Lg.vote (a b c : Lg n false) : Res (Lg n false) :=
  (a.and b).bind fun p => (a.and c).bind fun q => (b.and c).bind fun r => (p.or q).bind fun u => u.or r

/-- the value two of the three agree on, if they agree on 0 or 1 -/
def agreed (a b c : V4) : Option Bool :=
  if a = b ∧ a = .b0 ∨ a = c ∧ a = .b0 ∨ b = c ∧ b = .b0 then some false
  else if a = b ∧ a = .b1 ∨ a = c ∧ a = .b1 ∨ b = c ∧ b = .b1 then some true
  else none

/-- in the tables of the standard two replicas that agree are enough -/
theorem agreed_ieee (a b c : V4) (v : Bool) (h : agreed a b c = some v) :
    V4.or (V4.or (V4.and a b) (V4.and a c)) (V4.and b c) = V4.ofBool v := by
  cases a <;> cases b <;> cases c <;> cases v <;> revert h <;> decide

theorem Lg.vote_at (hn : 0 < n) (a b c : Lg n false) :
    ∃ z, a.vote b c = .ok z ∧ ∀ i, i < n → ∃ p q r u,
      p = (andDeviation (a.at i) (b.at i)).getD (V4.and (a.at i) (b.at i)) ∧
      q = (andDeviation (a.at i) (c.at i)).getD (V4.and (a.at i) (c.at i)) ∧
      r = (andDeviation (b.at i) (c.at i)).getD (V4.and (b.at i) (c.at i)) ∧
      u = (orDeviation p q).getD (V4.or p q) ∧ z.at i = (orDeviation u r).getD (V4.or u r) := by
  obtain ⟨p, hp, bp⟩ := C10_and_table_partial hn a b
  obtain ⟨q, hq, bq⟩ := C10_and_table_partial hn a c
  obtain ⟨r, hr, br⟩ := C10_and_table_partial hn b c
  obtain ⟨u, hu, bu⟩ := C11_or_table_partial (s := false) (t := false) hn p q
  obtain ⟨z, hz, bz⟩ := C11_or_table_partial (s := false) (t := false) hn u r
  refine ⟨z, ?_, fun i hi => ⟨p.at i, q.at i, r.at i, u.at i, bp i hi, bq i hi, br i hi, bu i hi, bz i hi⟩⟩
  rw [Lg.vote, hp, res_bind_ok, hq, res_bind_ok, hr, res_bind_ok]
  have hu : Lg.or p q = .ok u := hu
  exact (congrArg (fun e : Res (Lg n false) => e.bind fun u => Lg.or u r) hu).trans hz

/-- **C208, partial and exact.** Where two replicas agree on 0 or 1 the vote is their value, except in two cases: an x in
the first replica against two 0 gives 1, and an x in the second one gives x. Missing: those two cases
(`C208_vote_refuted`) and replicas that agree on x or z. -/
theorem C208_vote_partial (hn : 0 < n) (a b c : Lg n false) :
    ∃ z, a.vote b c = .ok z ∧ ∀ i, i < n → ∀ v, agreed (a.at i) (b.at i) (c.at i) = some v →
      z.at i = if a.at i = .x ∧ v = false then .b1 else if b.at i = .x ∧ v = false then .x else V4.ofBool v := by
  obtain ⟨z, hz, hb⟩ := Lg.vote_at hn a b c
  refine ⟨z, hz, fun i hi v hv => ?_⟩
  obtain ⟨p, q, r, u, hp, hq, hr, hu, e⟩ := hb i hi
  rw [e, hu, hp, hq, hr]
  generalize a.at i = a at hv ⊢
  generalize b.at i = b at hv ⊢
  generalize c.at i = c at hv ⊢
  cases a <;> cases b <;> cases c <;> cases v <;> revert hv <;> decide

/-- the third replica is x and z where the others agree -/
example : ((Lg.ofInt 5 : Lg 4 false).vote (Lg.ofInt 5) ⟨Bits.ofInt 3, Bits.ofInt 15⟩).map (fun z => (List.range 4).map z.at) =
    .ok [.b1, .b0, .b1, .b0] := by decide +kernel

/-- **C208 is false with the unknown replica first**: at every width the vote of a replica that was not set and
two replicas holding 0 is 1 in every bit. -/
theorem C208_vote_refuted (hn : 0 < n) : ∃ a z : Lg n false, Lg.dflt = .ok a ∧
    a.vote ⟨Bits.zero, Bits.zero⟩ ⟨Bits.zero, Bits.zero⟩ = .ok z ∧ ∀ i, i < n → z.at i = .b1 := by
  obtain ⟨a, ha, hx⟩ := Lg.dflt_at (n := n) (s := false) hn
  obtain ⟨z, hz, hb⟩ := C208_vote_partial hn a ⟨Bits.zero, Bits.zero⟩ ⟨Bits.zero, Bits.zero⟩
  refine ⟨a, z, ha, hz, fun i hi => ?_⟩
  have h0 : (⟨Bits.zero, Bits.zero⟩ : Lg n false).at i = .b0 := by
    rw [Lg.at, Bits.bv_zero]; simp [V4.mk]
  rw [hb i hi false (by rw [hx i hi, h0]; decide), if_pos ⟨hx i hi, rfl⟩]

end Verif
