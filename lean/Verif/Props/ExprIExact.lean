import Verif.Props.ExprI

/-!
# Expressions and programs over the integer types, by the rules of C++ (C178)

C125 and C126 compare with SystemVerilog and exclude what the code gets wrong. Here the
reference is C++'s own integer arithmetic; nothing is excluded but what does not compile.
-/

namespace Verif

variable {n m : Nat} {s t : Bool}

/-! ## Reference operators where C++ and SystemVerilog differ -/
namespace RefC

/-- quotient: operands of different signedness of 8 and 16 bits are divided as the numbers they are (as
`int`), of 32 and 64 bits as unsigned numbers -/
def div (s t : Bool) (x y : BitVec n) : Option (BitVec n) :=
  if s ≠ t ∧ n ≤ 16 then (if y = 0 then none else some (BitVec.ofInt n ((numOf s x).tdiv (numOf t y))))
  else RefI.div (s && t) x y
/-- remainder -/
def mod (s t : Bool) (x y : BitVec n) : Option (BitVec n) :=
  if s ≠ t ∧ n ≤ 16 then (if y = 0 then none else some (BitVec.ofInt n ((numOf s x).tmod (numOf t y))))
  else RefI.mod (s && t) x y
/-- the amount of a left or arithmetic right shift is converted to the type of the shifted value -/
def amt (n : Nat) (s : Bool) (k : Int) : Int := numOf s (BitVec.ofInt n k)
/-- operands of different signedness are compared as 64-bit unsigned numbers -/
def num (s t : Bool) (x : BitVec n) : Int := if s = t then numOf s x else (BitVec.ofInt 64 (numOf s x)).toNat

end RefC

namespace ExI

/-- **Reference semantics**, by the rules of C++. -/
def denC (ρ : ValsI) : {n : Nat} → {s : Bool} → ExI n s → Option (BitVec n)
  | _, _, .var n s i => some (ρ n s i)
  | n, _, .lit _ _ k => some (BitVec.ofInt n k)
  | _, _, .not a => (denC ρ a).map (~~~ ·)
  | _, _, .and a b => (denC ρ a).bind fun x => (denC ρ b).map fun y => x &&& y
  | _, _, .or a b => (denC ρ a).bind fun x => (denC ρ b).map fun y => x ||| y
  | _, _, .xor a b => (denC ρ a).bind fun x => (denC ρ b).map fun y => x ^^^ y
  | _, s, .neg a => (denC ρ a).bind fun x => RefI.neg s x
  | _, _, .add (s := s) (t := t) a b => (denC ρ a).bind fun x => (denC ρ b).bind fun y => RefI.add s t x y
  | _, _, .sub (s := s) (t := t) a b => (denC ρ a).bind fun x => (denC ρ b).bind fun y => RefI.sub s t x y
  | _, _, .mul (s := s) (t := t) a b => (denC ρ a).bind fun x => (denC ρ b).bind fun y => RefI.mul s t x y
  | _, _, .div (s := s) (t := t) a b => (denC ρ a).bind fun x => (denC ρ b).bind fun y => RefC.div s t x y
  | _, _, .mod (s := s) (t := t) a b => (denC ρ a).bind fun x => (denC ρ b).bind fun y => RefC.mod s t x y
  | _, _, .shr (t := t) a k => (denC ρ a).bind fun x => (denC ρ k).bind fun y => RefI.shr x (numOf t y)
  | _, _, .shl (n := n) (s := s) (t := t) a k => (denC ρ a).bind fun x => (denC ρ k).bind fun y =>
      RefI.shl x (RefC.amt n s (numOf t y))
  | _, _, .ashr (n := n) (s := s) (t := t) a k => (denC ρ a).bind fun x => (denC ρ k).bind fun y =>
      RefI.ashr s x (RefC.amt n s (numOf t y))
  | _, s, .ext m a => (denC ρ a).map fun x => BitVec.ofInt m (numOf s x)
  | _, _, .cast _ a => denC ρ a
  | _, _, .eq a b => (denC ρ a).bind fun x => (denC ρ b).map fun y => BitVec.ofBool (decide (x = y))
  | _, _, .lt (s := s) (t := t) a b => (denC ρ a).bind fun x => (denC ρ b).map fun y =>
      BitVec.ofBool (decide (RefC.num s t x < RefC.num t s y))
  | _, _, .le (s := s) (t := t) a b => (denC ρ a).bind fun x => (denC ρ b).map fun y =>
      BitVec.ofBool (decide (RefC.num s t x ≤ RefC.num t s y))
  | _, _, .cond c a b => (denC ρ c).bind fun x => if x = 1 then denC ρ a else denC ρ b

/-- **Typing**: variables, literals and arithmetic are of the integer types, one bit values are
unsigned and come from comparisons; `extend` does not compile towards fewer bits. -/
def Typed : {n : Nat} → {s : Bool} → ExI n s → Prop
  | n, s, .var _ _ _ => W n ∨ n = 1 ∧ s = false
  | n, _, .lit _ _ _ => W n
  | _, _, .not a => Typed a
  | _, _, .and a b | _, _, .or a b | _, _, .xor a b => Typed a ∧ Typed b
  | n, _, .neg a => Typed a ∧ W n
  | n, _, .add a b | n, _, .sub a b | n, _, .mul a b | n, _, .div a b | n, _, .mod a b => Typed a ∧ Typed b ∧ W n
  | n, _, .shr a k | n, _, .shl a k | n, _, .ashr a k => Typed a ∧ Typed k ∧ W n
  | _, _, .ext (n := n) m a => Typed a ∧ W m ∧ n ≤ m
  | n, _, .cast _ a => Typed a ∧ W n
  | _, _, .eq a b | _, _, .lt a b | _, _, .le a b => Typed a ∧ Typed b
  | _, _, .cond c a b => Typed c ∧ Typed a ∧ Typed b

theorem Typed.width : {n : Nat} → {s : Bool} → {e : ExI n s} → e.Typed → W n ∨ n = 1
  | _, _, .var _ _ _, h => h.imp id And.left
  | _, _, .lit _ _ _, h => Or.inl h
  | _, _, .not a, h => Typed.width (e := a) h
  | _, _, .and a _, h | _, _, .or a _, h | _, _, .xor a _, h | _, _, .neg a, h | _, _, .add a _, h
  | _, _, .sub a _, h | _, _, .mul a _, h | _, _, .div a _, h | _, _, .mod a _, h | _, _, .shr a _, h
  | _, _, .shl a _, h | _, _, .ashr a _, h | _, _, .cast _ a, h => Typed.width (e := a) h.1
  | _, _, .ext _ _, h => Or.inl h.2.1
  | _, _, .eq _ _, _ | _, _, .lt _ _, _ | _, _, .le _ _, _ => Or.inr rfl
  | _, _, .cond _ a _, h => Typed.width (e := a) h.2.1

theorem Typed.pos {e : ExI n s} (h : e.Typed) : 0 < n ∧ n ≤ 64 := by
  rcases Typed.width h with (h | h | h | h) | h <;> omega

theorem Typed.clean {e : ExI n s} (h : e.Typed) (x : Bits n s) : x.Clean := ExI.W.clean (Typed.width h) x

end ExI

section ops
open ExI

theorem sem_divC (h : W n) (x : Bits n s) (y : Bits n t) :
    Sem (x.div y) (RefC.div s t x.bv y.bv) ∧ Sem (x.mod y) (RefC.mod s t x.bv y.bv) := by
  rw [RefC.div, RefC.mod]
  by_cases hc : s ≠ t ∧ n ≤ 16
  · rw [if_pos hc, if_pos hc]
    have cy := W.clean (Or.inl h) y
    by_cases h0 : y.bv = 0
    · rw [if_pos h0, if_pos h0]
      obtain ⟨h1, h2⟩ := Bits.div_zero_any h.pos.2 x y cy h0
      exact ⟨⟨_, h1⟩, ⟨_, h2⟩⟩
    · obtain ⟨⟨q, hq, eq⟩, r, hr, er⟩ := C123_div_exact h.pos.1 h.pos.2 hc.1 x y (W.clean (Or.inl h) x) cy h0
      rw [divNum, divNum, if_pos hc.2, if_pos hc.2] at eq er
      rw [if_neg h0, if_neg h0]
      exact ⟨⟨q, hq, eq⟩, ⟨r, hr, er⟩⟩
  · rw [if_neg hc, if_neg hc]
    refine sem_div_mod_mix h ?_ x y
    by_cases hst : s = t
    · exact Or.inl hst
    · have : ¬ n ≤ 16 := fun hn => hc ⟨hst, hn⟩
      rcases h with h | h | h | h <;> omega

theorem amt_eq (h : W n) (v : Int) : heldAmount n s v = RefC.amt n s v := by
  have hp := h.pos
  rw [heldAmount, RefC.amt]
  cases s
  · rw [if_neg (by simp), numOf_false, BitVec.toNat_ofInt]
    rcases h with rfl | rfl | rfl | rfl <;> simp <;> omega
  · rw [if_pos rfl, W.num h, BitVec.toInt_ofInt]
    rcases h with rfl | rfl | rfl | rfl <;> simp

theorem sem_shrC (h : W n) (hm : m ≤ 64) (x : Bits n s) (y : Bits m t) (cy : y.Clean) :
    Sem (x.shr y) (RefI.shr x.bv (numOf t y.bv)) := by
  have hp := h.pos
  have hiff := C24_native_iff hp.2 hp.1 hm x y cy
  rw [RefI.shr]
  split_ifs with hk
  · obtain ⟨z, hz, ez⟩ := C24_shr_partial (by omega) (by omega) x y cy (numOf t y.bv).toNat (by omega)
      (fun _ => ⟨by omega, by omega⟩)
    exact ⟨z, hz, ez⟩
  · cases hr : x.shr y with
    | ok z => exact absurd (hiff.1 ⟨z, hr⟩) hk
    | error e => exact ⟨e, rfl⟩

theorem sem_shlC (h : W n) (hm : m ≤ 64) (x : Bits n s) (y : Bits m t) (cy : y.Clean) :
    Sem (x.shl y) (RefI.shl x.bv (RefC.amt n s (numOf t y.bv))) := by
  have hp := h.pos
  obtain ⟨e1, e2⟩ := C25_native_exact hp.2 hp.1 hm x y cy
  rw [amt_eq h] at e1 e2
  have hl : ((if n ≤ 32 then 32 else 64 : Nat) : Int) = max 32 n := by rcases h with rfl | rfl | rfl | rfl <;> rfl
  have hl2 : (if n ≤ 32 then 32 else 64 : Int) = max 32 n := by rcases h with rfl | rfl | rfl | rfl <;> rfl
  rw [RefI.shl]
  split_ifs with hk
  · obtain ⟨z, hz, ez⟩ := e1 (RefC.amt n s (numOf t y.bv)).toNat (by omega) (by omega)
    exact ⟨z, hz, ez⟩
  · refine ⟨_, e2 ?_⟩
    rw [hl2]; omega

theorem sem_ashrC (h : W n) (hm : m ≤ 64) (x : Bits n s) (y : Bits m t) (cy : y.Clean) :
    Sem (x.ashr y) (RefI.ashr s x.bv (RefC.amt n s (numOf t y.bv))) := by
  have hp := h.pos
  obtain ⟨e1, e2⟩ := C26_native_exact hp.2 hp.1 hm x y (W.clean (Or.inl h) x) cy
  rw [amt_eq h] at e1 e2
  have hl : ((if n ≤ 32 then 32 else 64 : Nat) : Int) = max 32 n := by rcases h with rfl | rfl | rfl | rfl <;> rfl
  have hl2 : (if n ≤ 32 then 32 else 64 : Int) = max 32 n := by rcases h with rfl | rfl | rfl | rfl <;> rfl
  rw [RefI.ashr]
  split_ifs with hk hs
  · obtain ⟨z, hz, ez⟩ := e1 (RefC.amt n s (numOf t y.bv)).toNat (by omega) (by omega)
    exact ⟨z, hz, by rw [ez, ashrSpec, if_pos hs]⟩
  · obtain ⟨z, hz, ez⟩ := e1 (RefC.amt n s (numOf t y.bv)).toNat (by omega) (by omega)
    exact ⟨z, hz, by rw [ez, ashrSpec, if_neg hs]⟩
  · refine ⟨_, e2 ?_⟩
    rw [hl2]; omega

theorem Bits.lt_leC (ha : W n ∨ n = 1) (hb : W m ∨ m = 1) (x : Bits n s) (y : Bits m t) :
    x.lt y = .ok (decide (RefC.num s t x.bv < RefC.num t s y.bv)) ∧
    x.le y = .ok (decide (RefC.num s t x.bv ≤ RefC.num t s y.bv)) := by
  by_cases hst : s = t
  · subst hst
    have := Bits.lt_le_mix ha hb (Or.inl rfl) x y
    rw [RefC.num, RefC.num, if_pos rfl, if_pos rfl]
    rwa [Bool.and_self] at this
  · have hm : ∀ v : Int, v % 2 ^ 64 = ((BitVec.ofInt 64 v).toNat : Int) := by
      intro v; rw [BitVec.toNat_ofInt]; omega
    rw [RefC.num, RefC.num, if_neg hst, if_neg (fun e => hst e.symm)]
    rw [← hm, ← hm]
    have := C123_order_exact (by rcases ha with (h | h | h | h) | h <;> omega)
      (by rcases hb with (h | h | h | h) | h <;> omega) hst x y (W.clean ha x) (W.clean hb y)
    exact ⟨this.2.1, this.2.2.2⟩

end ops

/-- **C178, expressions.** Every expression over the integer types, of any size and nesting, over any
objects: the library evaluation gives the value of C++'s integer rules if that is defined, and faults if
and only if it is not. -/
theorem C178_expr (σ : ObjsI) : {n : Nat} → {s : Bool} → (e : ExI n s) → e.Typed →
    Sem (e.run σ) (e.denC fun n s i => (σ n s i).bv)
  | _, _, .var n s i, _ => ⟨_, rfl, rfl⟩
  | _, _, .lit n s k, ho => ⟨_, rfl, C60_bits (ExI.W.pos ho).1 (ExI.W.pos ho).2 k⟩
  | _, _, .not a, ho => (C178_expr σ a ho).map fun x => (C14_bitwise (ExI.Typed.pos (e := a) ho).1 x x).2.2.2.1
  | _, _, .and a b, ho =>
    (C178_expr σ a ho.1).bind fun x => (C178_expr σ b ho.2).map fun y => (C14_bitwise ho.1.pos.1 x y).1
  | _, _, .or a b, ho =>
    (C178_expr σ a ho.1).bind fun x => (C178_expr σ b ho.2).map fun y => (C14_bitwise ho.1.pos.1 x y).2.1
  | _, _, .xor a b, ho =>
    (C178_expr σ a ho.1).bind fun x => (C178_expr σ b ho.2).map fun y => (C14_bitwise ho.1.pos.1 x y).2.2.1
  | _, _, .neg a, ho => (C178_expr σ a ho.1).bind fun x => by
    have h64 := (ExI.W.pos ho.2).2
    rw [dif_pos h64]
    exact sem_neg ho.2 x h64
  | _, _, .add a b, ho => (C178_expr σ a ho.1).bind fun x => (C178_expr σ b ho.2.1).bind fun y => sem_add ho.2.2 x y
  | _, _, .sub a b, ho => (C178_expr σ a ho.1).bind fun x => (C178_expr σ b ho.2.1).bind fun y => sem_sub ho.2.2 x y
  | _, _, .mul a b, ho => (C178_expr σ a ho.1).bind fun x => (C178_expr σ b ho.2.1).bind fun y => sem_mul ho.2.2 x y
  | _, _, .div a b, ho => (C178_expr σ a ho.1).bind fun x => (C178_expr σ b ho.2.1).bind fun y => (sem_divC ho.2.2 x y).1
  | _, _, .mod a b, ho => (C178_expr σ a ho.1).bind fun x => (C178_expr σ b ho.2.1).bind fun y => (sem_divC ho.2.2 x y).2
  | _, _, .shr a k, ho => (C178_expr σ a ho.1).bind fun x => (C178_expr σ k ho.2.1).bind fun y =>
    sem_shrC ho.2.2 ho.2.1.pos.2 x y (ho.2.1.clean y)
  | _, _, .shl a k, ho => (C178_expr σ a ho.1).bind fun x => (C178_expr σ k ho.2.1).bind fun y =>
    sem_shlC ho.2.2 ho.2.1.pos.2 x y (ho.2.1.clean y)
  | _, _, .ashr a k, ho => (C178_expr σ a ho.1).bind fun x => (C178_expr σ k ho.2.1).bind fun y =>
    sem_ashrC ho.2.2 ho.2.1.pos.2 x y (ho.2.1.clean y)
  | _, s, .ext m a, ho => (C178_expr σ a ho.1).map fun x => by
    have h1 := (C48_sign_extend_partial ho.1.pos.1 ho.1.pos.2 ho.2.2 x (ho.1.clean x)).2
    show (x.extend m).bv = BitVec.ofInt m (numOf s x.bv)
    rw [← h1, ofInt_numOf]
  | _, _, .cast true a, ho => by
    have := (C178_expr σ a ho.1).map (f := fun x => x.toSigned) (g := id) fun x => (C58_bits x).1
    rw [Option.map_id_fun, id] at this
    exact this
  | _, _, .cast false a, ho => by
    have := (C178_expr σ a ho.1).map (f := fun x => x.toUnsigned) (g := id) fun x => (C58_bits x).2.1
    rw [Option.map_id_fun, id] at this
    exact this
  | _, _, .eq (n := n) a b, ho => (C178_expr σ a ho.1).bind fun x => (C178_expr σ b ho.2).map fun y => by
    have hf : Full n := by rw [Full]; rcases ho.1.width with (h | h | h | h) | h <;> simp [h]
    show (Bits.ofInt (x.eq y).toNat : Bits 1 false).bv = _
    rw [(Bits.ofInt_bool (x.eq y)).2, (C38_eq_partial ho.1.pos.1 (by have := ho.1.pos; omega) x y (ho.1.clean x) (ho.2.clean y)).1]
    simp [hf]
  | _, _, .lt a b, ho => (C178_expr σ a ho.1).bind fun x => (C178_expr σ b ho.2).bindMap fun y => by
    rw [(Bits.lt_leC ho.1.width ho.2.width x y).1]
    exact ⟨_, rfl, (Bits.ofInt_bool _).2⟩
  | _, _, .le a b, ho => (C178_expr σ a ho.1).bind fun x => (C178_expr σ b ho.2).bindMap fun y => by
    rw [(Bits.lt_leC ho.1.width ho.2.width x y).2]
    exact ⟨_, rfl, (Bits.ofInt_bool _).2⟩
  | _, _, .cond c a b, ho => (C178_expr σ c ho.1).bind fun x => by
    rw [Bits.toBool_one]
    by_cases h1 : x.bv = 1
    · simp only [h1, decide_true, if_true]; exact C178_expr σ a ho.2.1
    · simp only [h1, decide_false, if_false, Bool.false_eq_true]; exact C178_expr σ b ho.2.2

/-! ## Programs -/

namespace StI

/-- **Reference semantics** of programs by the rules of C++: `none` when the fuel is used up, `some none`
when an operation is undefined. -/
def denC : Nat → StI → ValsI → Option (Option ValsI)
  | 0, _, _ => none
  | _ + 1, .skip, ρ => some (some ρ)
  | _ + 1, .assign n s i (t := t) e, ρ => some ((e.denC ρ).map fun v => ρ.put n s i (BitVec.ofInt n (numOf t v)))
  | _ + 1, .inc n s i, ρ => some (some (ρ.put n s i (ρ n s i + 1)))
  | _ + 1, .dec n s i, ρ => some (some (ρ.put n s i (ρ n s i - 1)))
  | f + 1, .seq a b, ρ =>
      match denC f a ρ with
      | none => none
      | some none => some none
      | some (some ρ') => denC f b ρ'
  | f + 1, .ite c a b, ρ =>
      match c.denC ρ with
      | none => some none
      | some v => if v = 1 then denC f a ρ else denC f b ρ
  | f + 1, .loop c a, ρ =>
      match c.denC ρ with
      | none => some none
      | some v =>
        if v = 1 then
          match denC f a ρ with
          | none => none
          | some none => some none
          | some (some ρ') => denC f (.loop c a) ρ'
        else some (some ρ)

/-- **Typing**: the expressions are over the integer types, and so are the targets, or `bit<0>` for one bit
sources. -/
def Typed : StI → Prop
  | .skip => True
  | .assign n s _ (m := m) e => e.Typed ∧ (ExI.W n ∨ n = 1 ∧ s = false ∧ m = 1)
  | .inc n _ _ | .dec n _ _ => ExI.W n
  | .seq a b => Typed a ∧ Typed b
  | .ite c a b => c.Typed ∧ Typed a ∧ Typed b
  | .loop c a => c.Typed ∧ Typed a

end StI

/-- **C178, programs.** Every program over the integer types, every number of steps, every initial objects:
the execution of the library and the execution by C++'s integer rules agree, faults included. -/
theorem C178_program : (f : Nat) → (p : StI) → p.Typed → (σ : ObjsI) → SemP (p.run f σ) (p.denC f σ.vals)
  | 0, _, _, _ => rfl
  | _ + 1, .skip, _, σ => ⟨σ, rfl, rfl⟩
  | _ + 1, .assign n s i (m := m) (t := t) e, ho, σ => by
    have hn : n ≤ 64 := by rcases ho.2 with (h | h | h | h) | h <;> omega
    have he := C178_expr σ e ho.1
    rw [StI.run, StI.denC, dif_pos hn]
    change Sem _ (e.denC σ.vals) at he
    cases hd : e.denC σ.vals with
    | none => rw [hd] at he; obtain ⟨x, hx⟩ := he; exact ⟨x, by rw [hx]; rfl⟩
    | some v =>
      rw [hd] at he
      obtain ⟨x, hx, rfl⟩ := he
      refine ⟨_, by rw [hx]; rfl, ?_⟩
      have cx := ho.1.clean x
      have : (x.assignNat hn : Bits n s).bv = BitVec.ofInt n (numOf t x.bv) := by
        rcases ho.2 with h | ⟨rfl, rfl, rfl⟩
        · exact (C93_assign_partial ho.1.pos.2 hn h.pos.1 x cx).1
        · rw [C93_one_bit (by decide) x cx, ofInt_numOf]
          generalize x.bv = b
          revert b; decide
      rw [ObjsI.vals_put, this]
  | _ + 1, .inc n s i, ho, σ => by
    obtain ⟨z, hz, ez, -⟩ := C36_inc_partial (ExI.W.pos ho).1 (σ n s i)
    exact ⟨_, by rw [StI.run, hz]; rfl, by rw [ObjsI.vals_put, ez]; rfl⟩
  | _ + 1, .dec n s i, ho, σ => by
    obtain ⟨z, hz, ez, -⟩ := C36_dec (by have := (ExI.W.pos ho).1; omega) (σ n s i)
    exact ⟨_, by rw [StI.run, hz]; rfl, by rw [ObjsI.vals_put, ez]; rfl⟩
  | f + 1, .seq a b, ho, σ => by
    have ha := C178_program f a ho.1 σ
    rw [StI.run, StI.denC]
    cases hd : a.denC f σ.vals with
    | none => rw [hd] at ha; rw [show a.run f σ = none from ha]; rfl
    | some o =>
      rw [hd] at ha
      cases o with
      | none => obtain ⟨e, h⟩ := ha; rw [h]; exact ⟨e, rfl⟩
      | some ρ =>
        obtain ⟨σ', h, rfl⟩ := ha
        rw [h]
        exact C178_program f b ho.2 σ'
  | f + 1, .ite c a b, ho, σ => by
    have hc := C178_expr σ c ho.1
    change Sem _ (c.denC σ.vals) at hc
    rw [StI.run, StI.denC]
    cases hd : c.denC σ.vals with
    | none => rw [hd] at hc; obtain ⟨e, h⟩ := hc; rw [h]; exact ⟨e, rfl⟩
    | some v =>
      rw [hd] at hc
      obtain ⟨x, h, rfl⟩ := hc
      rw [h]
      simp only [Bits.toBool_one]
      by_cases h1 : x.bv = 1
      · simp only [h1, decide_true, if_true]; exact C178_program f a ho.2.1 σ
      · simp only [h1, decide_false, if_false, Bool.false_eq_true]; exact C178_program f b ho.2.2 σ
  | f + 1, .loop c a, ho, σ => by
    have hc := C178_expr σ c ho.1
    change Sem _ (c.denC σ.vals) at hc
    rw [StI.run, StI.denC]
    cases hd : c.denC σ.vals with
    | none => rw [hd] at hc; obtain ⟨e, h⟩ := hc; rw [h]; exact ⟨e, rfl⟩
    | some v =>
      rw [hd] at hc
      obtain ⟨x, h, rfl⟩ := hc
      rw [h]
      simp only [Bits.toBool_one]
      by_cases h1 : x.bv = 1
      · simp only [h1, decide_true, if_true]
        have ha := C178_program f a ho.2 σ
        cases hda : a.denC f σ.vals with
        | none => rw [hda] at ha; rw [show a.run f σ = none from ha]; rfl
        | some o =>
          rw [hda] at ha
          cases o with
          | none => obtain ⟨e, h⟩ := ha; rw [h]; exact ⟨e, rfl⟩
          | some ρ =>
            obtain ⟨σ', h, rfl⟩ := ha
            rw [h]
            exact C178_program f (.loop c a) ho σ'
      · simp only [h1, decide_false, if_false, Bool.false_eq_true]; exact ⟨σ, rfl, rfl⟩

/-- the expressions of `C125_refuted`, by the rules of C++ -/
example (ρ : ValsI) : (ExI.le (.lit 8 true (-1)) (.lit 8 false 255)).Typed ∧
    (ExI.le (.lit 8 true (-1)) (.lit 8 false 255)).denC ρ = some 0 ∧
    (ExI.div (.lit 8 true (-1)) (.lit 8 false 2)).denC ρ = some 0#8 ∧
    (ExI.shl (.lit 8 false 3) (.lit 16 false 257)).denC ρ = some 6#8 ∧
    (ExI.div (.lit 32 true (-1)) (.lit 32 false 2)).denC ρ = some 2147483647#32 := by
  refine ⟨by simp [ExI.Typed, ExI.W], ?_, ?_, ?_, ?_⟩ <;> rfl

end Verif
