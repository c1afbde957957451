import Verif.Props.Laws4
import Verif.Show

/-!
# A program: synchronous circuits that start from x (C225)

A client simulates a circuit of `~`, `&`, `|` and `^` between registers: in every cycle all registers take the values of expressions over the
registers and the inputs of the cycle. Before the reset the registers are x. If the simulation ends with known registers the
circuit is taken to have the same state whatever it started from.
-/

namespace Verif

variable {n : Nat}

/-- the registers, then the inputs; variables that do not exist are 0 -/
def B4.env (regs ins : List (Lg n false)) (j : Nat) : Lg n false := (regs ++ ins).getD j ⟨Bits.zero, Bits.zero⟩

/-- the new values of all registers, from the old ones -/
def B4.runAll (σ : Nat → Lg n false) : List B4 → Res (List (Lg n false))
  | [] => .ok []
  | e :: es => (e.run σ).bind fun x => (B4.runAll σ es).bind fun xs => .ok (x :: xs)

/-- one cycle for every list of inputs -/
def B4.clock (next : List B4) : List (List (Lg n false)) → List (Lg n false) → Res (List (Lg n false))
  | [], r => .ok r
  | i :: is, r => (B4.runAll (B4.env r i) next).bind fun r' => B4.clock next is r'

/-- the circuit of one bit position with wires that are 0 or 1 -/
def B4.clockBool (next : List B4) : List (List Bool) → List Bool → List Bool
  | [], r => r
  | i :: is, r => B4.clockBool next is (next.map fun e => e.bool fun j => (r ++ i).getD j false)

/-- uses only variables of `K` -/
def B4.Over (K : Nat → Prop) : B4 → Prop
  | .var j => K j
  | .not a => a.Over K
  | .and a b => a.Over K ∧ b.Over K
  | .or a b => a.Over K ∧ b.Over K
  | .xor a b => a.Over K ∧ b.Over K

/-- the left operand of every `|` uses only variables of `K` -/
def B4.OrOver (K : Nat → Prop) : B4 → Prop
  | .var _ => True
  | .not a => a.OrOver K
  | .and a b => a.OrOver K ∧ b.OrOver K
  | .or a b => a.Over K ∧ a.OrOver K ∧ b.OrOver K
  | .xor a b => a.OrOver K ∧ b.OrOver K

/-- not z, and if known the given bit -/
def V4.Stands (v : V4) (b : Bool) : Prop := v ≠ .z ∧ (v.isKnown = true → v = V4.ofBool b)

theorem B4.lib_over (K : Nat → Prop) (ρ : Nat → V4) (hK : ∀ j, K j → (ρ j).isKnown = true) :
    (e : B4) → e.Over K → (e.lib ρ).isKnown = true
  | var j, ho => hK j ho
  | not a, ho => by
    have h1 := lib_over K ρ hK a ho
    rw [lib]
    revert h1
    cases a.lib ρ <;> decide
  | and a b, ho => by
    have h1 := lib_over K ρ hK a ho.1
    have h2 := lib_over K ρ hK b ho.2
    rw [lib]
    revert h1 h2
    cases a.lib ρ <;> cases b.lib ρ <;> decide
  | or a b, ho => by
    have h1 := lib_over K ρ hK a ho.1
    have h2 := lib_over K ρ hK b ho.2
    rw [lib]
    revert h1 h2
    cases a.lib ρ <;> cases b.lib ρ <;> decide
  | xor a b, ho => by
    have h1 := lib_over K ρ hK a ho.1
    have h2 := lib_over K ρ hK b ho.2
    rw [lib]
    revert h1 h2
    cases a.lib ρ <;> cases b.lib ρ <;> decide

theorem B4.lib_stands (K : Nat → Prop) (ρ : Nat → V4) (β : Nat → Bool) (h : ∀ j, (ρ j).Stands (β j))
    (hK : ∀ j, K j → (ρ j).isKnown = true) : (e : B4) → e.OrOver K → (e.lib ρ).Stands (e.bool β)
  | var j, _ => h j
  | not a, ho => by
    have := lib_stands K ρ β h hK a ho
    rw [lib, bool]
    revert this
    generalize a.lib ρ = v; generalize a.bool β = b
    unfold V4.Stands
    cases v <;> cases b <;> decide
  | and a b, ho => by
    have h1 := lib_stands K ρ β h hK a ho.1
    have h2 := lib_stands K ρ β h hK b ho.2
    rw [lib, bool]
    revert h1 h2
    generalize a.lib ρ = v; generalize a.bool β = p
    generalize b.lib ρ = w; generalize b.bool β = q
    unfold V4.Stands
    cases v <;> cases p <;> cases w <;> cases q <;> decide
  | or a b, ho => by
    have h1 := lib_stands K ρ β h hK a ho.2.1
    have h2 := lib_stands K ρ β h hK b ho.2.2
    have h3 := lib_over K ρ hK a ho.1
    rw [lib, bool]
    revert h1 h2 h3
    generalize a.lib ρ = v; generalize a.bool β = p
    generalize b.lib ρ = w; generalize b.bool β = q
    unfold V4.Stands
    cases v <;> cases p <;> cases w <;> cases q <;> decide
  | xor a b, ho => by
    have h1 := lib_stands K ρ β h hK a ho.1
    have h2 := lib_stands K ρ β h hK b ho.2
    rw [lib, bool]
    revert h1 h2
    generalize a.lib ρ = v; generalize a.bool β = p
    generalize b.lib ρ = w; generalize b.bool β = q
    unfold V4.Stands
    cases v <;> cases p <;> cases w <;> cases q <;> decide

theorem B4.runAll_spec (hn : 0 < n) (σ : Nat → Lg n false) : (es : List B4) → ∃ zs, B4.runAll σ es = .ok zs ∧
    ∀ i, i < n → zs.map (·.at i) = es.map fun e => e.lib fun j => (σ j).at i
  | [] => ⟨[], rfl, fun _ _ => rfl⟩
  | e :: es => by
    obtain ⟨z, hz, ez, -⟩ := C196_run hn σ e
    obtain ⟨zs, hzs, ezs⟩ := runAll_spec hn σ es
    refine ⟨z :: zs, by rw [B4.runAll, hz, res_bind_ok, hzs]; rfl, fun i hi => ?_⟩
    rw [List.map_cons, List.map_cons, ez i hi, ezs i hi]

/-- a list of wires stands for a list of bits -/
def Stand (vs : List V4) (bs : List Bool) : Prop := List.Forall₂ V4.Stands vs bs

theorem Stand.getD {vs : List V4} {bs : List Bool} (h : Stand vs bs) (j : Nat) : (vs.getD j .b0).Stands (bs.getD j false) := by
  induction h generalizing j with
  | nil => rw [List.getD_nil, List.getD_nil]; exact ⟨by decide, fun _ => rfl⟩
  | cons h _ ih => cases j with
    | zero => exact h
    | succ j => exact ih j

theorem Lg.zero_at (i : Nat) : (⟨Bits.zero, Bits.zero⟩ : Lg n false).at i = .b0 := by
  rw [Lg.at, bv_zero]; simp [V4.mk]

theorem B4.env_at (regs ins : List (Lg n false)) (i j : Nat) :
    (B4.env regs ins j).at i = ((regs.map (·.at i)) ++ (ins.map (·.at i))).getD j .b0 := by
  rw [B4.env, ← List.map_append]
  generalize regs ++ ins = l
  induction l generalizing j with
  | nil => rw [List.map_nil, List.getD_nil, List.getD_nil]; exact Lg.zero_at i
  | cons a l ih => cases j with
    | zero => rfl
    | succ j => exact ih j

/-- **C225, known means settled, partial.** Let the left operand of every `|` use only inputs that are known (those of `K`). Whatever other
inputs and registers are x, and after any number of cycles: the simulation is undefined nowhere, and a bit of a register that is known has that
value in the circuit of 0 and 1, from every start and for all inputs that the known bits allow. No bit becomes z.
Missing: other uses of `|`, and z at the start (`C225_refuted`). -/
theorem C225_settled_partial (hn : 0 < n) (K : Nat → Prop) (next : List B4) (ho : ∀ e ∈ next, e.OrOver fun j => next.length ≤ j ∧ K (j - next.length))
    (ins : List (List (Lg n false))) (hK : ∀ l ∈ ins, ∀ k x, K k → l[k]? = some x → ∀ i, i < n → (x.at i).isKnown = true)
    (regs : List (Lg n false)) (hr : regs.length = next.length) :
    ∃ zs, B4.clock next ins regs = .ok zs ∧ zs.length = next.length ∧ ∀ i, i < n → ∀ (bi : List (List Bool)) (br : List Bool),
      Stand (regs.map (·.at i)) br → List.Forall₂ (fun l b => Stand (l.map (·.at i)) b) ins bi →
      Stand (zs.map (·.at i)) (B4.clockBool next bi br) := by
  induction ins generalizing regs with
  | nil => exact ⟨regs, rfl, hr, fun i hi bi br h hb => by cases hb; exact h⟩
  | cons l ls ih =>
    obtain ⟨r', hr', er'⟩ := B4.runAll_spec hn (B4.env regs l) next
    have len : r'.length = next.length := by
      have := congrArg List.length (er' 0 hn)
      rwa [List.length_map, List.length_map] at this
    obtain ⟨zs, hzs, lz, ezs⟩ := ih (fun l hl => hK l (by simp [hl])) r' len
    refine ⟨zs, by rw [B4.clock, hr', res_bind_ok, hzs], lz, fun i hi bi br h hb => ?_⟩
    cases hb with
    | @cons _ b _ bs h1 h2 =>
      rw [B4.clockBool]
      refine ezs i hi _ _ ?_ h2
      rw [er' i hi]
      have hs : ∀ j, ((B4.env regs l j).at i).Stands ((br ++ b).getD j false) := fun j => by
        rw [B4.env_at]
        exact Stand.getD (List.rel_append h h1) j
      have hk : ∀ j, next.length ≤ j ∧ K (j - next.length) → ((B4.env regs l j).at i).isKnown = true := fun j hj => by
        rw [B4.env, List.getD_append_right _ _ _ _ (by omega), hr]
        rw [List.getD_eq_getElem?_getD]
        cases e : l[j - next.length]? with
        | none => exact congrArg V4.isKnown (Lg.zero_at i)
        | some x => exact hK l (by simp) _ x hj.2 e i hi
      generalize hP : (fun j => next.length ≤ j ∧ K (j - next.length)) = P at ho
      replace hk : ∀ j, P j → ((B4.env regs l j).at i).isKnown = true := fun j hj => hk j (by rw [← hP] at hj; exact hj)
      clear hr' er' hzs ezs ih len lz hr hP
      induction next with
      | nil => exact .nil
      | cons e es ie => exact .cons (B4.lib_stands P _ _ hs hk e (ho e (by simp))) (ie fun e he => ho e (by simp [he]))

theorem Stand.eq {vs : List V4} {bs : List Bool} (h : Stand vs bs) (hk : ∀ v ∈ vs, v.isKnown = true) : vs = bs.map V4.ofBool := by
  induction h with
  | nil => rfl
  | cons h _ ih => rw [List.map_cons, h.2 (hk _ (by simp)), ih fun v hv => hk v (by simp [hv])]

/-- **C225, synchronizing.** If such a circuit is simulated from registers that are all x, with known inputs, and ends with known registers,
then the inputs bring the circuit of 0 and 1 into one and the same state from every start. Missing: as for `C225_settled_partial`. -/
theorem C225_synchronized_partial (hn : 0 < n) (K : Nat → Prop) (next : List B4)
    (ho : ∀ e ∈ next, e.OrOver fun j => next.length ≤ j ∧ K (j - next.length))
    (ins : List (List (Lg n false))) (bi : Nat → List (List Bool))
    (hb : ∀ i, i < n → List.Forall₂ (fun l b => l.map (·.at i) = b.map V4.ofBool) ins (bi i))
    (regs : List (Lg n false)) (hr : regs.length = next.length) (hx : ∀ r ∈ regs, ∀ i, i < n → r.at i = .x) :
    ∃ zs, B4.clock next ins regs = .ok zs ∧ ∀ i, i < n → (∀ z ∈ zs, (z.at i).isKnown = true) →
      ∀ br : List Bool, br.length = next.length → (B4.clockBool next (bi i) br).map V4.ofBool = zs.map (·.at i) := by
  have stand : ∀ (vs : List V4) (b : List Bool), vs = b.map V4.ofBool → Stand vs b := by
    rintro _ b rfl
    induction b with
    | nil => exact .nil
    | cons b bs ih => exact .cons (by unfold V4.Stands; cases b <;> decide) ih
  have pair : ∀ {R : List (Lg n false) → List Bool → Prop} (as : List (List (Lg n false))) (bs : List (List Bool)) (a : List (Lg n false)),
      a ∈ as → List.Forall₂ R as bs → ∃ b, R a b := by
    intro R as bs a ha h
    induction h with
    | nil => cases ha
    | cons h _ ih => rcases List.mem_cons.1 ha with rfl | ha
                     · exact ⟨_, h⟩
                     · exact ih ha
  obtain ⟨zs, hz, -, ez⟩ := C225_settled_partial hn K next ho ins (fun l hl k x _ hx i hi => by
    obtain ⟨b, h⟩ := pair _ _ l hl (hb i hi)
    have hm : x.at i ∈ l.map (·.at i) := List.mem_map_of_mem (List.mem_of_getElem? hx)
    rw [h] at hm
    obtain ⟨c, -, hc⟩ := List.mem_map.1 hm
    rw [← hc]
    cases c <;> rfl) regs hr
  refine ⟨zs, hz, fun i hi hk br hl => ?_⟩
  refine (Stand.eq (ez i hi (bi i) br ?_ ((hb i hi).imp fun _ _ h => stand _ _ h)) ?_).symm
  · rw [← hr] at hl
    clear hr hz ez hk
    induction regs generalizing br with
    | nil => rw [List.length_nil] at hl; rw [List.length_eq_zero_iff.1 hl]; exact .nil
    | cons r rs ih => cases br with
      | nil => cases hl
      | cons b bs =>
        refine .cons ?_ (ih (fun r h => hx r (by simp [h])) bs (by simpa using hl))
        show V4.Stands (r.at i) b
        rw [hx r (by simp) i hi]
        exact ⟨by decide, fun h => absurd h (by decide)⟩
  · intro v hv
    obtain ⟨z, hz, rfl⟩ := List.mem_map.1 hv
    exact hk z hz

/-- **C225 fails for other uses of `|` and for z**: an x in the left operand of `|` beside a 0 becomes 1, so a register that
holds itself (`q = q | i` with the input 0) comes out of x as 1, though it can be 0; and `q = q & i` with the input 1 turns z into 1. At all widths. -/
theorem C225_refuted (hn : 0 < n) :
    (∃ r i z : Lg n false, r.at 0 = .x ∧ i.at 0 = .b0 ∧ B4.clock [.or (.var 0) (.var 1)] [[i]] [r] = .ok [z] ∧ z.at 0 = .b1 ∧
      B4.clockBool [.or (.var 0) (.var 1)] [[false]] [false] = [false]) ∧
    ∃ r i z : Lg n false, r.at 0 = .z ∧ i.at 0 = .b1 ∧ B4.clock [.and (.var 0) (.var 1)] [[i]] [r] = .ok [z] ∧ z.at 0 = .b1 ∧
      B4.clockBool [.and (.var 0) (.var 1)] [[true]] [false] = [false] := by
  constructor
  · obtain ⟨r, -, hr⟩ := Lg.exists_at (n := n) (s := false) fun _ => .x
    obtain ⟨i, -, hi⟩ := Lg.exists_at (n := n) (s := false) fun _ => .b0
    obtain ⟨z, hz, ez, -⟩ := C196_run hn (B4.env [r] [i]) (.or (.var 0) (.var 1))
    refine ⟨r, i, z, hr 0 hn, hi 0 hn, ?_, ?_, rfl⟩
    · rw [B4.clock, B4.runAll, hz, res_bind_ok]; rfl
    · rw [ez 0 hn]
      show (orDeviation (r.at 0) (i.at 0)).getD _ = _
      rw [hr 0 hn, hi 0 hn]; rfl
  · obtain ⟨r, -, hr⟩ := Lg.exists_at (n := n) (s := false) fun _ => .z
    obtain ⟨i, -, hi⟩ := Lg.exists_at (n := n) (s := false) fun _ => .b1
    obtain ⟨z, hz, ez, -⟩ := C196_run hn (B4.env [r] [i]) (.and (.var 0) (.var 1))
    refine ⟨r, i, z, hr 0 hn, hi 0 hn, ?_, ?_, rfl⟩
    · rw [B4.clock, B4.runAll, hz, res_bind_ok]; rfl
    · rw [ez 0 hn]
      show (andDeviation (r.at 0) (i.at 0)).getD _ = _
      rw [hr 0 hn, hi 0 hn]; rfl

/-- **C225 does not hold in reverse**: `q = q ^ q` is 0 after a cycle in the circuit of 0 and 1, from both starts, but x in the simulation, forever. -/
theorem C225_pessimism (hn : 0 < n) (r : Lg n false) (hr : ∀ i, i < n → r.at i = .x) (t : Nat) :
    (∃ z, B4.clock [.xor (.var 0) (.var 0)] (List.replicate t []) [r] = .ok [z] ∧ ∀ i, i < n → z.at i = .x) ∧
    ∀ b, B4.clockBool [.xor (.var 0) (.var 0)] (List.replicate (t + 1) []) [b] = [false] := by
  constructor
  · induction t generalizing r with
    | zero => exact ⟨r, rfl, hr⟩
    | succ t ih =>
      obtain ⟨z, hz, ez, -⟩ := C196_run hn (B4.env [r] []) (.xor (.var 0) (.var 0))
      obtain ⟨w, hw, ew⟩ := ih z fun i hi => by
        rw [ez i hi]
        show V4.xor (r.at i) (r.at i) = .x
        rw [hr i hi]; rfl
      refine ⟨w, ?_, ew⟩
      rw [List.replicate_succ, B4.clock, B4.runAll, hz, res_bind_ok]
      exact hw
  · intro b
    induction t generalizing b with
    | zero => cases b <;> rfl
    | succ t ih =>
      rw [List.replicate_succ, B4.clockBool]
      exact ih _

/-- two registers of 70 bits, a reset that clears the first (`~(rst | ~(q0 ^ q1))`), and a pipeline stage behind it: x leaves after two cycles -/
example : ((B4.clock [.not (.or (.var 2) (.not (.xor (.var 0) (.var 1)))), .var 0]
      (List.replicate 2 [(⟨(Bits.ofInt (-1) : Bits 70 false), Bits.ofInt 0⟩ : Lg 70 false)])
      [⟨Bits.ofInt 0, Bits.ofInt (-1)⟩, ⟨Bits.ofInt 0, Bits.ofInt (-1)⟩]).map fun l => l.map fun z => (z.at 0, z.at 63)) =
    .ok [(.b0, .b0), (.b0, .b0)] := by decide +kernel

end Verif
