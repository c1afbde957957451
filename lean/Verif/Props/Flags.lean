import Verif.Props.Bitwise
import Verif.Lemmas.Planes

/-!
# A program: a register of flags (C210)

Flags are set by `f = f | m` and cleared by `f = f & ~m`, for any list of such commands. In the tables of IEEE
1800 a flag holds what the last command whose mask names it has put there.
-/

namespace Verif

variable {n : Nat}

/-- `f = f | m` (first component true) or `f = f & ~m` -/
def Lg.flagStep (f : Lg n false) (c : Bool × Lg n false) : Res (Lg n false) :=
  if c.1 then f.or c.2 else (c.2.not).bind fun k => f.and k

/-- a list of commands -/
def Lg.flags (f : Lg n false) : List (Bool × Lg n false) → Res (Lg n false)
  | [] => .ok f
  | c :: cs => (f.flagStep c).bind fun f => flags f cs

/-- what a flag holds after the commands: what the last command naming it put there -/
def flagAfter (v : V4) (i : Nat) : List (Bool × Lg n false) → V4
  | [] => v
  | c :: cs => flagAfter (if c.2.at i = .b1 then V4.ofBool c.1 else v) i cs

/-- one command on one flag, as the library does it -/
def flagCase (v m : V4) (b : Bool) : V4 :=
  match v with
  | .x => if b then .b1 else .x
  | .z => if b then .x else if m = .b1 then .b0 else .b1
  | v => if m = .b1 then V4.ofBool b else v

theorem Lg.flagStep_at (hn : 0 < n) (f : Lg n false) (c : Bool × Lg n false) (hc : ∀ i, i < n → (c.2.at i).isKnown = true) :
    ∃ g, f.flagStep c = .ok g ∧ ∀ i, i < n → g.at i =
      flagCase (f.at i) (c.2.at i) c.1 := by
  obtain ⟨b, m⟩ := c
  cases b
  · obtain ⟨k, hk, ek⟩ := C09_not_table hn m
    obtain ⟨g, hg, eg⟩ := C10_and_table_partial hn f k
    refine ⟨g, ?_, fun i hi => ?_⟩
    · rw [Lg.flagStep, if_neg Bool.false_ne_true, hk, res_bind_ok]; exact hg
    · have := hc i hi
      have e : Lg.at (s := false) g i = _ := eg i hi
      rw [e, ek i hi]
      dsimp only at this ⊢
      generalize f.at i = a
      generalize m.at i = d at this ⊢
      cases a <;> cases d <;> revert this <;> decide
  · obtain ⟨g, hg, eg⟩ := C11_or_table_partial hn f m
    refine ⟨g, ?_, fun i hi => ?_⟩
    · rw [Lg.flagStep, if_pos rfl]; exact hg
    · have := hc i hi
      have e : Lg.at (s := false) g i = _ := eg i hi
      rw [e]
      dsimp only at this ⊢
      generalize f.at i = a
      generalize m.at i = d at this ⊢
      cases a <;> cases d <;> revert this <;> decide

/-- **C210, partial.** A flag that was 0 or 1 holds what the last command naming it put there, whatever the
other flags hold. Missing: flags that were x or z, see `C210_unset_refuted`. -/
theorem C210_flags_partial (hn : 0 < n) (f : Lg n false) (cs : List (Bool × Lg n false))
    (hc : ∀ c ∈ cs, ∀ i, i < n → (c.2.at i).isKnown = true) :
    ∃ g, f.flags cs = .ok g ∧ ∀ i, i < n → (f.at i).isKnown = true → g.at i = flagAfter (f.at i) i cs := by
  induction cs generalizing f with
  | nil => exact ⟨f, rfl, fun i _ _ => rfl⟩
  | cons c cs ih =>
    obtain ⟨g, hg, eg⟩ := Lg.flagStep_at hn f c (hc c (by simp))
    obtain ⟨r, hr, er⟩ := ih g (fun d hd => hc d (by simp [hd]))
    refine ⟨r, by rw [Lg.flags, hg, res_bind_ok, hr], fun i hi hk => ?_⟩
    have e : g.at i = if c.2.at i = .b1 then V4.ofBool c.1 else f.at i := by
      rw [eg i hi]
      generalize f.at i = a at hk ⊢
      cases a <;> first | rfl | cases hk
    have hk' : (g.at i).isKnown = true := by
      rw [e]; split_ifs
      · cases c.1 <;> rfl
      · exact hk
    rw [er i hi hk', flagAfter, e]

example : ((Lg.ofInt 0b0110 : Lg 4 false).flags [(true, Lg.ofInt 0b1000), (false, Lg.ofInt 0b0010), (false, Lg.ofInt 0b1000),
    (true, Lg.ofInt 0b1001)]).map (fun g => (List.range 4).map g.at) = .ok [.b1, .b0, .b1, .b1] := by decide +kernel

/-- **C210 is false for flags that were not set**: at every width, from a default-constructed register, any
list of clearing commands leaves every flag x, also with a mask that names it; and the first setting command, whatever
its mask, makes every flag 1. -/
theorem C210_unset_refuted (hn : 0 < n) : ∃ f : Lg n false, Lg.dflt = .ok f ∧
    ∀ cs : List (Bool × Lg n false), (∀ c ∈ cs, c.1 = false ∧ ∀ i, i < n → (c.2.at i).isKnown = true) →
      (∃ g, f.flags cs = .ok g ∧ ∀ i, i < n → g.at i = .x) ∧
      ∀ m : Lg n false, (∀ i, i < n → (m.at i).isKnown = true) →
        ∃ g, f.flags (cs ++ [(true, m)]) = .ok g ∧ ∀ i, i < n → g.at i = .b1 := by
  obtain ⟨f, hf, hx⟩ := Lg.dflt_at (n := n) (s := false) hn
  refine ⟨f, hf, fun cs => ?_⟩
  clear hf
  induction cs generalizing f with
  | nil =>
    refine fun _ => ⟨⟨f, rfl, hx⟩, fun m hm => ?_⟩
    obtain ⟨g, hg, eg⟩ := Lg.flagStep_at hn f (true, m) hm
    exact ⟨g, by rw [List.nil_append, Lg.flags, hg, res_bind_ok, Lg.flags], fun i hi => by rw [eg i hi, hx i hi]; rfl⟩
  | cons c cs ih =>
    intro hc
    obtain ⟨hc1, hc2⟩ := hc c (by simp)
    obtain ⟨g, hg, eg⟩ := Lg.flagStep_at hn f c hc2
    obtain ⟨⟨r, hr, er⟩, h2⟩ := ih g (fun i hi => by rw [eg i hi, hx i hi, hc1]; rfl) (fun d hd => hc d (by simp [hd]))
    refine ⟨⟨r, by rw [Lg.flags, hg, res_bind_ok, hr], er⟩, fun m hm => ?_⟩
    obtain ⟨r, hr, er⟩ := h2 m hm
    exact ⟨r, by rw [List.cons_append, Lg.flags, hg, res_bind_ok, hr], er⟩

/-- all flags cleared, then flag 0 set: all four are 1 -/
example : ((Lg.dflt : Res (Lg 4 false)).bind fun f => f.flags [(false, Lg.ofInt 15), (true, Lg.ofInt 1)]).map
    (fun g => (List.range 4).map g.at) = .ok [.b1, .b1, .b1, .b1] := by decide +kernel

end Verif
