import Verif.Props.Laws4
import Verif.Props.StartUp
import Verif.Show

/-!
# The IEEE tables of `&` and `|` made of the operators of the library (C233)

`&` is wrong for `x & 0`, `z & 1` and `z & z`, `|` for `x | 0` and `z | 1` (C10, C11). `~(~a | ~(~~b & a))` and `~~a | (b | (a ^ b))` are right for all operands,
so that every client expression can be rewritten into one that computes what IEEE 1800 says.
-/

namespace Verif

variable {n : Nat}

namespace B4

/-- `~(~a | ~(~~b & a))` -/
def goodAnd (a b : B4) : B4 := .not (.or (.not a) (.not (.and (.not (.not b)) a)))

/-- `~~a | (b | (a ^ b))` -/
def goodOr (a b : B4) : B4 := .or (.not (.not a)) (.or b (.xor a b))

/-- every `&` and `|` of an expression replaced -/
def repair : B4 → B4
  | var i => var i
  | not a => not a.repair
  | and a b => goodAnd a.repair b.repair
  | or a b => goodOr a.repair b.repair
  | xor a b => xor a.repair b.repair

theorem lib_goodAnd (ρ : Nat → V4) (a b : B4) : (goodAnd a b).lib ρ = (a.lib ρ).and (b.lib ρ) := by
  simp only [goodAnd, lib]
  generalize a.lib ρ = p
  generalize b.lib ρ = q
  cases p <;> cases q <;> rfl

theorem lib_goodOr (ρ : Nat → V4) (a b : B4) : (goodOr a b).lib ρ = (a.lib ρ).or (b.lib ρ) := by
  simp only [goodOr, lib]
  generalize a.lib ρ = p
  generalize b.lib ρ = q
  cases p <;> cases q <;> rfl

theorem lib_repair (ρ : Nat → V4) (e : B4) : e.repair.lib ρ = e.ieee ρ := by
  induction e with
  | var i => rfl
  | not a ih => rw [repair, lib, ieee, ih]
  | and a b iha ihb => rw [repair, lib_goodAnd, ieee, iha, ihb]
  | or a b iha ihb => rw [repair, lib_goodOr, ieee, iha, ihb]
  | xor a b iha ihb => rw [repair, lib, ieee, iha, ihb]

/-- no `|` -/
def NoOr : B4 → Prop
  | var _ => True
  | not a => a.NoOr
  | and a b => a.NoOr ∧ b.NoOr
  | or _ _ => False
  | xor a b => a.NoOr ∧ b.NoOr

/-- the leftmost variable -/
def first : B4 → Nat
  | var i => i
  | not a => a.first
  | and a _ => a.first
  | or a _ => a.first
  | xor a _ => a.first

/-- without `|` an x of the leftmost variable is an x of the result -/
theorem lib_first (ρ : Nat → V4) : (e : B4) → e.NoOr → ρ e.first = .x → e.lib ρ = .x
  | var _, _, h => h
  | not a, ho, h => by rw [lib, lib_first ρ a ho h]; rfl
  | and a b, ho, h => by rw [lib, lib_first ρ a ho.1 h]; cases b.lib ρ <;> rfl
  | or _ _, ho, _ => ho.elim
  | xor a b, ho, h => by rw [lib, lib_first ρ a ho.1 h]; cases b.lib ρ <;> rfl

end B4

/-- **C233, the two tables.** Of every width and for all operands, x and z included: the two expressions do not fault and every bit is the entry of the IEEE table. -/
theorem C233_tables (hn : 0 < n) (x y : Lg n false) :
    (∃ z, (B4.goodAnd (.var 0) (.var 1)).run (fun j => if j = 0 then x else y) = .ok z ∧ ∀ i, i < n → z.at i = (x.at i).and (y.at i)) ∧
    ∃ z, (B4.goodOr (.var 0) (.var 1)).run (fun j => if j = 0 then x else y) = .ok z ∧ ∀ i, i < n → z.at i = (x.at i).or (y.at i) := by
  obtain ⟨z, hz, ez, -⟩ := C196_run hn (fun j => if j = 0 then x else y) (B4.goodAnd (.var 0) (.var 1))
  obtain ⟨w, hw, ew, -⟩ := C196_run hn (fun j => if j = 0 then x else y) (B4.goodOr (.var 0) (.var 1))
  exact ⟨⟨z, hz, fun i hi => by rw [ez i hi, B4.lib_goodAnd]; rfl⟩, ⟨w, hw, fun i hi => by rw [ew i hi, B4.lib_goodOr]; rfl⟩⟩

/-- **C233, expressions.** Every expression, rewritten, computes at every width what the IEEE tables say of the expression, for all operands. -/
theorem C233_repair (hn : 0 < n) (σ : Nat → Lg n false) (e : B4) :
    ∃ z, e.repair.run σ = .ok z ∧ ∀ i, i < n → z.at i = e.ieee fun j => (σ j).at i := by
  obtain ⟨z, hz, ez, -⟩ := C196_run hn σ e.repair
  exact ⟨z, hz, fun i hi => by rw [ez i hi, B4.lib_repair]⟩

/-- **C233, laws.** Every law of the IEEE tables holds between the rewritten expressions. -/
theorem C233_laws (hn : 0 < n) (e₁ e₂ : B4) (h : ∀ ρ, e₁.ieee ρ = e₂.ieee ρ) (σ : Nat → Lg n false) (hσ : ∀ j, (σ j).Clean) :
    ∃ z₁ z₂, e₁.repair.run σ = .ok z₁ ∧ e₂.repair.run σ = .ok z₂ ∧ z₁.matches' z₂ = true :=
  (C196_iff hn e₁.repair e₂.repair).2 (fun ρ => by rw [B4.lib_repair, B4.lib_repair, h]) σ hσ

/-- **C233, `|` is needed.** Of every width: no expression of `&`, `~` and `^`, of whatever size, computes the table of `&`, nor that of `|`. -/
theorem C233_needs_or (hn : 0 < n) (e : B4) (ho : e.NoOr) :
    (∃ σ : Nat → Lg n false, ∃ z, e.run σ = .ok z ∧ z.at 0 ≠ ((σ 0).at 0).and ((σ 1).at 0)) ∧
    ∃ σ : Nat → Lg n false, ∃ z, e.run σ = .ok z ∧ z.at 0 ≠ ((σ 0).at 0).or ((σ 1).at 0) := by
  have key : ∀ v : V4, ∃ σ : Nat → Lg n false, ∃ z, e.run σ = .ok z ∧ z.at 0 = .x ∧ ∀ j, (σ j).at 0 = if j = e.first then .x else v := by
    intro v
    obtain ⟨p, -, hp⟩ := Lg.exists_at (n := n) (s := false) (fun _ => V4.x)
    obtain ⟨q, -, hq⟩ := Lg.exists_at (n := n) (s := false) (fun _ => v)
    obtain ⟨z, hz, ez, -⟩ := C196_run hn (fun j => if j = e.first then p else q) e
    refine ⟨_, z, hz, ?_, fun j => ?_⟩
    · rw [ez 0 hn]
      exact B4.lib_first _ e ho (by rw [if_pos rfl, hp 0 hn])
    · by_cases h : j = e.first
      · rw [if_pos h, if_pos h, hp 0 hn]
      · rw [if_neg h, if_neg h, hq 0 hn]
  constructor
  · obtain ⟨σ, z, hz, ez, hs⟩ := key .b0
    refine ⟨σ, z, hz, ?_⟩
    rw [ez, hs, hs]
    by_cases h : 0 = e.first
    · rw [← h]; decide
    · rw [if_neg h]; split_ifs <;> decide
  · obtain ⟨σ, z, hz, ez, hs⟩ := key .b1
    refine ⟨σ, z, hz, ?_⟩
    rw [ez, hs, hs]
    by_cases h : 0 = e.first
    · rw [← h]; decide
    · rw [if_neg h]; split_ifs <;> decide

/-- a bit that is known has the given value -/
def V4.Agrees (v : V4) (b : Bool) : Prop := v.isKnown = true → v = V4.ofBool b

theorem B4.ieee_agrees (ρ : Nat → V4) (β : Nat → Bool) (h : ∀ j, (ρ j).Agrees (β j)) (e : B4) : (e.ieee ρ).Agrees (e.bool β) := by
  have hn : ∀ v p, V4.Agrees v p → v.not.Agrees (!p) := by unfold V4.Agrees; intro v p; cases v <;> cases p <;> decide
  have h2 : ∀ v p w q, V4.Agrees v p → V4.Agrees w q → (v.and w).Agrees (p && q) ∧ (v.or w).Agrees (p || q) ∧ (v.xor w).Agrees (p ^^ q) := by
    unfold V4.Agrees; intro v p w q
    cases v <;> cases p <;> cases w <;> cases q <;> decide
  induction e with
  | var j => exact h j
  | not a ih => exact hn _ _ ih
  | and a b iha ihb => exact (h2 _ _ _ _ iha ihb).1
  | or a b iha ihb => exact (h2 _ _ _ _ iha ihb).2.1
  | xor a b iha ihb => exact (h2 _ _ _ _ iha ihb).2.2

theorem agrees_getD {vs : List V4} {bs : List Bool} (h : List.Forall₂ V4.Agrees vs bs) (j : Nat) : (vs.getD j .b0).Agrees (bs.getD j false) := by
  induction h generalizing j with
  | nil => rw [List.getD_nil, List.getD_nil]; exact fun _ => rfl
  | cons h _ ih => cases j with
    | zero => exact h
    | succ j => exact ih j

/-- **C233, circuits.** Of every synchronous circuit, rewritten, the claim of C225 holds without its conditions: from all registers and inputs, x and z included,
and after any number of cycles the simulation is undefined nowhere, and a bit of a register that is known has that value in the circuit of 0 and 1,
from every start and for all inputs that the known bits allow. -/
theorem C233_settled (hn : 0 < n) (next : List B4) (ins : List (List (Lg n false))) (regs : List (Lg n false)) :
    ∃ zs, B4.clock (next.map B4.repair) ins regs = .ok zs ∧ ∀ i, i < n → ∀ (bi : List (List Bool)) (br : List Bool),
      List.Forall₂ V4.Agrees (regs.map (·.at i)) br → List.Forall₂ (fun l b => List.Forall₂ V4.Agrees (l.map (·.at i)) b) ins bi →
      List.Forall₂ V4.Agrees (zs.map (·.at i)) (B4.clockBool next bi br) := by
  induction ins generalizing regs with
  | nil => exact ⟨regs, rfl, fun i hi bi br h hb => by cases hb; exact h⟩
  | cons l ls ih =>
    obtain ⟨r', hr', er'⟩ := B4.runAll_spec hn (B4.env regs l) (next.map B4.repair)
    obtain ⟨zs, hzs, ezs⟩ := ih r'
    refine ⟨zs, by rw [B4.clock, hr', res_bind_ok, hzs], fun i hi bi br h hb => ?_⟩
    cases hb with
    | @cons _ b _ bs h1 h2 =>
      rw [B4.clockBool]
      refine ezs i hi _ _ ?_ h2
      rw [er' i hi, List.map_map]
      have hs : ∀ j, ((B4.env regs l j).at i).Agrees ((br ++ b).getD j false) := fun j => by
        rw [B4.env_at]
        exact agrees_getD (List.rel_append h h1) j
      clear hr' er' hzs ezs ih
      induction next with
      | nil => exact .nil
      | cons e es ie =>
        refine .cons ?_ ie
        show V4.Agrees (e.repair.lib _) _
        rw [B4.lib_repair]
        exact B4.ieee_agrees _ _ hs e

/-- the register of `C225_refuted`, `r = r | i` from x with the input 0: it becomes 1 there, and stays x if rewritten -/
example :
    let r : Lg 4 false := ⟨Bits.ofInt 0, Bits.ofInt 15⟩
    let i : Lg 4 false := ⟨Bits.ofInt 0, Bits.ofInt 0⟩
    ((B4.clock [.or (.var 0) (.var 1)] [[i]] [r]).map fun zs => zs.map fun z => z.at 0) = .ok [.b1] ∧
    ((B4.clock ([.or (.var 0) (.var 1)].map B4.repair) [[i]] [r]).map fun zs => zs.map fun z => z.at 0) = .ok [.x] := by decide +kernel

/-- all pairs of 4-state bits in one vector: `&` goes wrong at three of them, the expression at none -/
example :
    let x : Lg 16 false := ⟨Bits.ofInt 0xFF00, Bits.ofInt 0xF0F0⟩
    let y : Lg 16 false := ⟨Bits.ofInt 0xCCCC, Bits.ofInt 0xAAAA⟩
    Lg.bits (x.and y) ≠ Lg.bits ((B4.goodAnd (.var 0) (.var 1)).run fun j => if j = 0 then x else y) ∧
    Lg.bits ((B4.goodAnd (.var 0) (.var 1)).run fun j => if j = 0 then x else y) =
      some ((List.range 16).map fun i => (x.at i).and (y.at i)) := by decide +kernel

end Verif
