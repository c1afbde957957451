import Verif.Props.ExprL
import Verif.Props.ExprIExact

/-!
# Expressions and programs over the 4-state integer types, by the rules of C++ (C179)

C178 for `logic`: x and z by the library's truth tables, numbers by C++'s integer arithmetic.
-/

namespace Verif

variable {n m : Nat} {s t : Bool}

namespace ExL

/-- **Reference semantics**, on 4-state vectors, numbers by the rules of C++. -/
def denC (ρ : ValsL) : {n : Nat} → {s : Bool} → ExL n s → Option (Vec n)
  | _, _, .var n s i => some (ρ n s i)
  | n, _, .lit _ _ k => some (RefL.ofBV (BitVec.ofInt n k))
  | _, _, .dflt _ _ => some RefL.allX
  | _, _, .not a => (denC ρ a).map fun x i => V4.not (x i)
  | _, _, .and a b => (denC ρ a).bind fun x => (denC ρ b).map fun y i => RefL.and (x i) (y i)
  | _, _, .or a b => (denC ρ a).bind fun x => (denC ρ b).map fun y i => RefL.or (x i) (y i)
  | _, _, .xor a b => (denC ρ a).bind fun x => (denC ρ b).map fun y i => V4.xor (x i) (y i)
  | _, s, .neg a => (denC ρ a).bind fun x => RefL.op1 (RefI.neg s) x
  | _, _, .add (s := s) (t := t) a b => (denC ρ a).bind fun x => (denC ρ b).bind fun y => RefL.op2 (RefI.add s t) x y
  | _, _, .sub (s := s) (t := t) a b => (denC ρ a).bind fun x => (denC ρ b).bind fun y => RefL.op2 (RefI.sub s t) x y
  | _, _, .mul (s := s) (t := t) a b => (denC ρ a).bind fun x => (denC ρ b).bind fun y => RefL.op2 (RefI.mul s t) x y
  | _, _, .div (s := s) (t := t) a b => (denC ρ a).bind fun x => (denC ρ b).bind fun y =>
      RefL.divOp (RefC.div s t) x y
  | _, _, .mod (s := s) (t := t) a b => (denC ρ a).bind fun x => (denC ρ b).bind fun y =>
      RefL.divOp (RefC.mod s t) x y
  | _, _, .shr (t := t) a k => (denC ρ a).bind fun x => (denC ρ k).bind fun y =>
      RefL.op2 (fun v w => RefI.shr v (numOf t w)) x y
  | _, _, .shl (n := n) (s := s) (t := t) a k => (denC ρ a).bind fun x => (denC ρ k).bind fun y =>
      RefL.op2 (fun v w => RefI.shl v (RefC.amt n s (numOf t w))) x y
  | _, _, .ashr (n := n) (s := s) (t := t) a k => (denC ρ a).bind fun x => (denC ρ k).bind fun y =>
      RefL.op2 (fun v w => RefI.ashr s v (RefC.amt n s (numOf t w))) x y
  | _, s, .ext m a => (denC ρ a).map fun x => RefL.ext s m x
  | _, _, .cast _ a => denC ρ a
  | _, _, .eq a b => (denC ρ a).bind fun x => (denC ρ b).bind fun y =>
      RefL.op2 (fun v w => some (BitVec.ofBool (decide (v = w)))) x y
  | _, _, .lt (s := s) (t := t) a b => (denC ρ a).bind fun x => (denC ρ b).bind fun y =>
      RefL.op2 (fun v w => some (BitVec.ofBool (decide (RefC.num s t v < RefC.num t s w)))) x y
  | _, _, .le (s := s) (t := t) a b => (denC ρ a).bind fun x => (denC ρ b).bind fun y =>
      RefL.op2 (fun v w => some (BitVec.ofBool (decide (RefC.num s t v ≤ RefC.num t s w)))) x y
  | _, _, .same a b => (denC ρ a).bind fun x => (denC ρ b).map fun y =>
      RefL.ofBV (BitVec.ofBool (decide (∀ i, x i = y i)))
  | _, _, .lnot a => (denC ρ a).map RefL.lnot
  | _, _, .cond c a b => (denC ρ c).bind fun x => if x 0 = .b1 then denC ρ a else denC ρ b

/-- **Typing**, as for C178; `& | ^` of two signed operands do not compile. -/
def Typed : {n : Nat} → {s : Bool} → ExL n s → Prop
  | n, s, .var _ _ _ | n, s, .dflt _ _ => ExI.W n ∨ n = 1 ∧ s = false
  | n, _, .lit _ _ _ => ExI.W n
  | _, _, .not a => Typed a
  | _, _, .and (s := s) (t := t) a b | _, _, .or (s := s) (t := t) a b | _, _, .xor (s := s) (t := t) a b =>
      Typed a ∧ Typed b ∧ (s && t) = false
  | n, _, .neg a => Typed a ∧ ExI.W n
  | n, _, .add a b | n, _, .sub a b | n, _, .mul a b | n, _, .div a b | n, _, .mod a b => Typed a ∧ Typed b ∧ ExI.W n
  | n, _, .shr a k | n, _, .shl a k | n, _, .ashr a k => Typed a ∧ Typed k ∧ ExI.W n
  | _, _, .ext (n := n) m a => Typed a ∧ ExI.W m ∧ n ≤ m
  | n, _, .cast _ a => Typed a ∧ ExI.W n
  | _, _, .eq a b | _, _, .same a b | _, _, .lt a b | _, _, .le a b => Typed a ∧ Typed b
  | _, _, .lnot a => Typed a
  | _, _, .cond c a b => Typed c ∧ Typed a ∧ Typed b

theorem Typed.width : {n : Nat} → {s : Bool} → {e : ExL n s} → e.Typed → ExI.W n ∨ n = 1
  | _, _, .var _ _ _, h | _, _, .dflt _ _, h => h.imp id And.left
  | _, _, .lit _ _ _, h => Or.inl h
  | _, _, .not a, h => Typed.width (e := a) h
  | _, _, .and a _, h | _, _, .or a _, h | _, _, .xor a _, h | _, _, .neg a, h | _, _, .add a _, h
  | _, _, .sub a _, h | _, _, .mul a _, h | _, _, .div a _, h | _, _, .mod a _, h | _, _, .shr a _, h
  | _, _, .shl a _, h | _, _, .ashr a _, h | _, _, .cast _ a, h => Typed.width (e := a) h.1
  | _, _, .ext _ _, h => Or.inl h.2.1
  | _, _, .eq _ _, _ | _, _, .lt _ _, _ | _, _, .le _ _, _ | _, _, .same _ _, _ | _, _, .lnot _, _ => Or.inr rfl
  | _, _, .cond _ a _, h => Typed.width (e := a) h.2.1

theorem Typed.le {e : ExL m t} (h : e.Typed) : 0 < m ∧ m ≤ 64 := by
  rcases Typed.width h with (h | h | h | h) | h <;> omega

end ExL

/-- an amount in range is the same for the unsigned x/z plane -/
theorem amt_false (h : ExI.W n) {k : Int} (hk : 0 ≤ RefC.amt n s k ∧ RefC.amt n s k < max 32 n) :
    RefC.amt n false k = RefC.amt n s k := by
  cases s
  · rfl
  · rw [← amt_eq h, ← amt_eq h] at *
    rw [heldAmount] at *
    rw [heldAmount]
    rcases h with rfl | rfl | rfl | rfl <;> simp [Int.bmod] at * <;> omega

/-- **C179, expressions.** Every expression over the 4-state integer types, of any size and nesting, over any
objects: the library evaluation gives the reference vector if that is defined, and faults if and only if it
is not. -/
theorem C179_expr (σ : ObjsL) : {n : Nat} → {s : Bool} → (e : ExL n s) → e.Typed →
    SemL (e.run σ) (e.denC fun n s i => (σ n s i).vec)
  | _, _, .var n s i, _ => ⟨_, rfl, rfl⟩
  | _, _, .lit n s k, ho => ⟨_, rfl, by
      show (⟨Bits.ofInt k, Bits.zero⟩ : Lg n s).vec = _
      rw [Lg.vec_known Lg.bv_zero, C60_bits (ExI.W.pos ho).1 (ExI.W.pos ho).2 k]⟩
  | _, _, .dflt n s, ho => Lg.sem_dflt (by rcases ho with (h | h | h | h) | h <;> omega)
  | _, _, .not a, ho => (C179_expr σ a ho).bindMap fun x => by
    obtain ⟨z, hz, e⟩ := C09_not_table (ExL.Typed.le (e := a) ho).1 x
    exact ⟨z, hz, Lg.vec_eq fun i hi => e i hi⟩
  | _, _, .and a b, ho => (C179_expr σ a ho.1).bind fun x => (C179_expr σ b ho.2.1).bindMap fun y => by
    obtain ⟨z, hz, e⟩ := C10_and_table_partial (ExL.Typed.le ho.1).1 x y
    exact ⟨z, hz, Lg.vec_eq fun i hi => by rw [e i hi, andDeviation_eq]; rfl⟩
  | _, _, .or a b, ho => (C179_expr σ a ho.1).bind fun x => (C179_expr σ b ho.2.1).bindMap fun y => by
    obtain ⟨z, hz, e⟩ := C11_or_table_partial (ExL.Typed.le ho.1).1 x y
    exact ⟨z, hz, Lg.vec_eq fun i hi => by rw [e i hi, orDeviation_eq]; rfl⟩
  | _, _, .xor a b, ho => (C179_expr σ a ho.1).bind fun x => (C179_expr σ b ho.2.1).bindMap fun y => by
    obtain ⟨z, hz, e⟩ := C08_xor_table (ExL.Typed.le ho.1).1 x y
    exact ⟨z, hz, Lg.vec_eq fun i hi => e i hi⟩
  | n, _, .neg a, ho => (C179_expr σ a ho.1).bind fun x => by
    have h64 := (ExI.W.pos ho.2).2
    rw [dif_pos h64, Lg.neg]
    exact semL_neg (Or.inl ho.2) (fun v => v.neg h64) _ (fun v => sem_neg ho.2 v h64) x
  | _, _, .add a b, ho => (C179_expr σ a ho.1).bind fun x => (C179_expr σ b ho.2.1).bind fun y =>
    semL_arith (Or.inl ho.2.2) _ _ (fun v w => sem_add ho.2.2 v w) x y
  | _, _, .sub a b, ho => (C179_expr σ a ho.1).bind fun x => (C179_expr σ b ho.2.1).bind fun y =>
    semL_arith (Or.inl ho.2.2) _ _ (fun v w => sem_sub ho.2.2 v w) x y
  | _, _, .mul a b, ho => (C179_expr σ a ho.1).bind fun x => (C179_expr σ b ho.2.1).bind fun y =>
    semL_arith (Or.inl ho.2.2) _ _ (fun v w => sem_mul ho.2.2 v w) x y
  | _, _, .div a b, ho => (C179_expr σ a ho.1).bind fun x => (C179_expr σ b ho.2.1).bind fun y =>
    semL_div (Or.inl ho.2.2) _ _ (fun v w => (sem_divC ho.2.2 v w).1) x y
  | _, _, .mod a b, ho => (C179_expr σ a ho.1).bind fun x => (C179_expr σ b ho.2.1).bind fun y =>
    semL_div (Or.inl ho.2.2) _ _ (fun v w => (sem_divC ho.2.2 v w).2) x y
  | _, _, .shr (t := t) a k, ho => (C179_expr σ a ho.1).bind fun x => (C179_expr σ k ho.2.1).bind fun y =>
    semL_shift (Or.inl ho.2.2) (ExL.Typed.width ho.2.1) Bits.shr (fun _ v w => RefI.shr v (numOf t w))
      (fun _ v w => sem_shrC ho.2.2 (ExL.Typed.le ho.2.1).2 v w (ExI.W.clean (ExL.Typed.width ho.2.1) w))
      (fun v w b e => by
        simp only [RefI.shr] at e ⊢
        split_ifs at e with hc
        rw [if_pos hc]; simp) x y
  | n, _, .shl (s := s) (t := t) a k, ho => (C179_expr σ a ho.1).bind fun x => (C179_expr σ k ho.2.1).bind fun y =>
    semL_shift (Or.inl ho.2.2) (ExL.Typed.width ho.2.1) Bits.shl (fun s v w => RefI.shl v (RefC.amt n s (numOf t w)))
      (fun _ v w => sem_shlC ho.2.2 (ExL.Typed.le ho.2.1).2 v w (ExI.W.clean (ExL.Typed.width ho.2.1) w))
      (fun v w b e => by
        simp only [RefI.shl] at e ⊢
        split_ifs at e with hc
        rw [amt_false ho.2.2 hc, if_pos hc]; simp) x y
  | n, _, .ashr (s := s) (t := t) a k, ho => (C179_expr σ a ho.1).bind fun x => (C179_expr σ k ho.2.1).bind fun y =>
    semL_shift (Or.inl ho.2.2) (ExL.Typed.width ho.2.1) Bits.ashr (fun s v w => RefI.ashr s v (RefC.amt n s (numOf t w)))
      (fun _ v w => sem_ashrC ho.2.2 (ExL.Typed.le ho.2.1).2 v w (ExI.W.clean (ExL.Typed.width ho.2.1) w))
      (fun v w b e => by
        simp only [RefI.ashr] at e ⊢
        split_ifs at e with hc
        · rw [amt_false ho.2.2 hc, if_pos hc]; simp
        · rw [amt_false ho.2.2 hc, if_pos hc]; simp) x y
  | _, s, .ext (n := n) m a, ho => (C179_expr σ a ho.1).map fun x => by
    have hw := ExL.Typed.width ho.1
    have hl := ExL.Typed.le ho.1
    refine Lg.vec_eq fun i hi => ?_
    rw [Lg.extend_at hl.1 ho.2.2 x ⟨ExI.W.clean hw _, ExI.W.clean hw _⟩ (fun h => by omega) hi, extAt, RefL.ext]
    show _ = if i < n then _ else _
    by_cases hin : i < n
    · rw [if_pos hin, if_pos hin, Lg.get_vec x hin]
    · rw [if_neg hin, if_neg hin, Lg.get_vec x (by omega), ← Lg.value_bit, BitVec.msb_eq_getLsbD_last]
      congr 3
      rw [← decide_not, decide_eq_decide]; omega
  | _, _, .cast true a, ho => by
    have := (C179_expr σ a ho.1).map (f := fun x => x.toSigned) (g := id) fun x => by
      refine Lg.vec_eq fun i hi => ?_
      show V4.mk (x.value.toSigned.bv.getLsbD i) _ = _
      rw [(C58_bits x.value).1]; rfl
    rw [Option.map_id_fun, id] at this
    exact this
  | _, _, .cast false a, ho => by
    have := (C179_expr σ a ho.1).map (f := fun x => x.toUnsigned) (g := id) fun x => by
      refine Lg.vec_eq fun i hi => ?_
      show V4.mk (x.value.toUnsigned.bv.getLsbD i) _ = _
      rw [(C58_bits x.value).2.1]; rfl
    rw [Option.map_id_fun, id] at this
    exact this
  | _, _, .eq a b, ho => (C179_expr σ a ho.1).bind fun x => (C179_expr σ b ho.2).bind fun y =>
    semL_rel (ExL.Typed.width ho.1) (ExL.Typed.width ho.1) _ (fun v w => decide (v = w))
      (fun v w => by rw [Bits.eq_width (ExL.Typed.width ho.1)]) x y
  | _, _, .lt (s := s) (t := t) a b, ho => (C179_expr σ a ho.1).bind fun x => (C179_expr σ b ho.2).bind fun y =>
    semL_rel (ExL.Typed.width ho.1) (ExL.Typed.width ho.2) _ (fun v w => decide (RefC.num s t v < RefC.num t s w))
      (fun v w => (Bits.lt_leC (ExL.Typed.width ho.1) (ExL.Typed.width ho.2) v w).1) x y
  | _, _, .le (s := s) (t := t) a b, ho => (C179_expr σ a ho.1).bind fun x => (C179_expr σ b ho.2).bind fun y =>
    semL_rel (ExL.Typed.width ho.1) (ExL.Typed.width ho.2) _ (fun v w => decide (RefC.num s t v ≤ RefC.num t s w))
      (fun v w => (Bits.lt_leC (ExL.Typed.width ho.1) (ExL.Typed.width ho.2) v w).2) x y
  | _, _, .same (n := n) a b, ho => (C179_expr σ a ho.1).bind fun x => (C179_expr σ b ho.2).map fun y => by
    have hw := ExL.Typed.width ho.1
    have hl := ExL.Typed.le ho.1
    have hf : Full n := by rw [Full]; rcases hw with (h | h | h | h) | h <;> simp [h]
    have hm := (C44_match_partial hl.1 (by omega) x y ⟨ExI.W.clean hw _, ExI.W.clean hw _⟩
      ⟨ExI.W.clean hw _, ExI.W.clean hw _⟩).1
    have he : x.matches' y = decide (∀ i, x.vec i = y.vec i) := by
      rw [hm, decide_eq_decide]
      exact ⟨fun h i => h.1 i i.2, fun h => ⟨fun i hi => h ⟨i, hi⟩, Or.inr (Or.inl hf)⟩⟩
    show (⟨Bits.ofInt (x.matches' y).toNat, Bits.zero⟩ : Lg 1 false).vec = _
    rw [Lg.vec_known Lg.bv_zero, (Bits.ofInt_bool _).2, he]
  | _, _, .lnot (n := n) a, ho => (C179_expr σ a ho).map fun x => by
    have hw := ExL.Typed.width (e := a) ho
    have hl := ExL.Typed.le (e := a) ho
    have cx := ExI.W.clean hw x.xz
    refine Lg.vec_eq fun i hi => ?_
    obtain rfl : i = 0 := by omega
    rw [RefL.lnot]
    by_cases hk : RefL.known x.vec
    · rw [if_pos hk, Lg.num_vec ((Lg.known_vec cx).1 hk), Lg.lnot, if_neg (by rw [Lg.anySet_vec hl.2 cx]; simp [hk]),
        Bits.anySet_native hl.2 (ExI.W.clean hw x.value)]
      by_cases h0 : x.value.bv = 0
      · rw [if_neg (by simp [h0]), decide_eq_true h0]; rfl
      · rw [if_pos (by simp; exact h0), decide_eq_false h0]; rfl
    · rw [if_neg hk, Lg.lnot, if_pos (by rw [Lg.anySet_vec hl.2 cx]; simp [hk])]
      exact Lg.x1_at
  | _, _, .cond c a b, ho => (C179_expr σ c ho.1).bind fun x => by
    rw [Lg.toBool_vec]
    by_cases h1 : x.vec 0 = .b1
    · simp only [h1, decide_true, if_true]; exact C179_expr σ a ho.2.1
    · simp only [h1, decide_false, if_false, Bool.false_eq_true]; exact C179_expr σ b ho.2.2

/-! ## Programs -/

namespace StL

/-- **Reference semantics** of programs: `none` when the fuel is used up, `some none` when an
operation is undefined. An assignment widens (`RefL.ext`) or truncates; a condition that is x or z counts as false. -/
def denC : Nat → StL → ValsL → Option (Option ValsL)
  | 0, _, _ => none
  | _ + 1, .skip, ρ => some (some ρ)
  | _ + 1, .assign n s i (t := t) e, ρ => some ((e.denC ρ).map fun v => ρ.put n s i (RefL.ext t n v))
  | _ + 1, .inc n s i, ρ => some ((RefL.op1 (fun v => some (v + 1)) (ρ n s i)).map fun v => ρ.put n s i v)
  | _ + 1, .dec n s i, ρ => some ((RefL.op1 (fun v => some (v - 1)) (ρ n s i)).map fun v => ρ.put n s i v)
  | f + 1, .seq a b, ρ =>
      match denC f a ρ with
      | none => none
      | some none => some none
      | some (some ρ') => denC f b ρ'
  | f + 1, .ite c a b, ρ =>
      match c.denC ρ with
      | none => some none
      | some v => if v 0 = .b1 then denC f a ρ else denC f b ρ
  | f + 1, .loop c a, ρ =>
      match c.denC ρ with
      | none => some none
      | some v =>
        if v 0 = .b1 then
          match denC f a ρ with
          | none => none
          | some none => some none
          | some (some ρ') => denC f (.loop c a) ρ'
        else some (some ρ)

/-- **Typing**: the expressions are over the 4-state integer types, and so are the targets, or `logic<0>` for
one bit sources. -/
def Typed : StL → Prop
  | .skip => True
  | .assign n s _ (m := m) e => e.Typed ∧ (ExI.W n ∨ n = 1 ∧ s = false ∧ m = 1)
  | .inc n _ _ | .dec n _ _ => ExI.W n
  | .seq a b => Typed a ∧ Typed b
  | .ite c a b => c.Typed ∧ Typed a ∧ Typed b
  | .loop c a => c.Typed ∧ Typed a

end StL

theorem Lg.assign_vecC {e : ExL m t} (he : e.Typed) (hn : n ≤ 64) (h : ExI.W n ∨ n = 1 ∧ s = false ∧ m = 1)
    (x : Lg m t) : (x.assignNat hn : Lg n s).vec = RefL.ext t n x.vec := by
  have hw := ExL.Typed.width he
  have hl := he.le
  have cx : x.Clean := ⟨ExI.W.clean hw _, ExI.W.clean hw _⟩
  refine Lg.vec_eq fun i hi => ?_
  rw [RefL.ext]
  show _ = if i < m then _ else _
  rcases h with h | ⟨rfl, rfl, rfl⟩
  · rw [C93_assign_logic_exact hl.2 hn h.pos.1 x cx i hi]
    by_cases hin : i < m
    · rw [if_pos hin, if_pos hin, Lg.get_vec x hin]
    · rw [if_neg hin, if_neg hin, Lg.get_vec x (by omega), ← Lg.value_bit]
  · rw [if_pos hi, Lg.get_vec x hi]
    have e : ∀ {u : Bool} (b : Bits 1 u), b.Clean → (b.assignNat hn : Bits 1 false).bv = b.bv := by
      intro u b hb
      rw [C93_one_bit (by decide) b hb]
      generalize b.bv = b
      revert b; decide
    show V4.mk ((x.value.assignNat hn : Bits 1 false).bv.getLsbD i) ((x.xz.assignNat hn : Bits 1 false).bv.getLsbD i) = _
    rw [e _ cx.1, e _ cx.2]; rfl

/-- **C179, programs.** Every program over the 4-state integer types, every number of steps, every initial
objects: the execution of the library and the reference execution agree, faults included. -/
theorem C179_program : (f : Nat) → (p : StL) → p.Typed → (σ : ObjsL) → SemPL (p.run f σ) (p.denC f σ.vals)
  | 0, _, _, _ => rfl
  | _ + 1, .skip, _, σ => ⟨σ, rfl, rfl⟩
  | _ + 1, .assign n s i (m := m) (t := t) e, ho, σ => by
    have hn : n ≤ 64 := by rcases ho.2 with (h | h | h | h) | h <;> omega
    have he := C179_expr σ e ho.1
    rw [StL.run, StL.denC, dif_pos hn]
    change SemL _ (e.denC σ.vals) at he
    cases hd : e.denC σ.vals with
    | none => rw [hd] at he; obtain ⟨x, hx⟩ := he; exact ⟨x, by rw [hx]; rfl⟩
    | some v =>
      rw [hd] at he
      obtain ⟨x, hx, rfl⟩ := he
      refine ⟨_, by rw [hx]; rfl, ?_⟩
      rw [ObjsL.vals_put, Lg.assign_vecC ho.1 hn ho.2]
  | _ + 1, .inc n s i, ho, σ => by
    have := (Lg.sem_inc_dec ho (σ n s i)).1
    rw [StL.run, StL.denC]
    change SemL _ (RefL.op1 (fun v => some (v + 1)) (σ.vals n s i)) at this
    cases hd : RefL.op1 (fun v => some (v + 1)) (σ.vals n s i) with
    | none => rw [hd] at this; obtain ⟨e, h⟩ := this; exact ⟨e, by rw [h]; rfl⟩
    | some v =>
      rw [hd] at this
      obtain ⟨x, h, rfl⟩ := this
      exact ⟨_, by rw [h]; rfl, by rw [ObjsL.vals_put]⟩
  | _ + 1, .dec n s i, ho, σ => by
    have := (Lg.sem_inc_dec ho (σ n s i)).2
    rw [StL.run, StL.denC]
    change SemL _ (RefL.op1 (fun v => some (v - 1)) (σ.vals n s i)) at this
    cases hd : RefL.op1 (fun v => some (v - 1)) (σ.vals n s i) with
    | none => rw [hd] at this; obtain ⟨e, h⟩ := this; exact ⟨e, by rw [h]; rfl⟩
    | some v =>
      rw [hd] at this
      obtain ⟨x, h, rfl⟩ := this
      exact ⟨_, by rw [h]; rfl, by rw [ObjsL.vals_put]⟩
  | f + 1, .seq a b, ho, σ => by
    have ha := C179_program f a ho.1 σ
    rw [StL.run, StL.denC]
    cases hd : a.denC f σ.vals with
    | none => rw [hd] at ha; rw [show a.run f σ = none from ha]; rfl
    | some o =>
      rw [hd] at ha
      cases o with
      | none => obtain ⟨e, h⟩ := ha; rw [h]; exact ⟨e, rfl⟩
      | some ρ =>
        obtain ⟨σ', h, rfl⟩ := ha
        rw [h]
        exact C179_program f b ho.2 σ'
  | f + 1, .ite c a b, ho, σ => by
    have hc := C179_expr σ c ho.1
    change SemL _ (c.denC σ.vals) at hc
    rw [StL.run, StL.denC]
    cases hd : c.denC σ.vals with
    | none => rw [hd] at hc; obtain ⟨e, h⟩ := hc; rw [h]; exact ⟨e, rfl⟩
    | some v =>
      rw [hd] at hc
      obtain ⟨x, h, rfl⟩ := hc
      rw [h]
      simp only [Lg.toBool_vec]
      by_cases h1 : x.vec 0 = .b1
      · simp only [h1, decide_true, if_true]; exact C179_program f a ho.2.1 σ
      · simp only [h1, decide_false, if_false, Bool.false_eq_true]; exact C179_program f b ho.2.2 σ
  | f + 1, .loop c a, ho, σ => by
    have hc := C179_expr σ c ho.1
    change SemL _ (c.denC σ.vals) at hc
    rw [StL.run, StL.denC]
    cases hd : c.denC σ.vals with
    | none => rw [hd] at hc; obtain ⟨e, h⟩ := hc; rw [h]; exact ⟨e, rfl⟩
    | some v =>
      rw [hd] at hc
      obtain ⟨x, h, rfl⟩ := hc
      rw [h]
      simp only [Lg.toBool_vec]
      by_cases h1 : x.vec 0 = .b1
      · simp only [h1, decide_true, if_true]
        have ha := C179_program f a ho.2 σ
        cases hda : a.denC f σ.vals with
        | none => rw [hda] at ha; rw [show a.run f σ = none from ha]; rfl
        | some o =>
          rw [hda] at ha
          cases o with
          | none => obtain ⟨e, h⟩ := ha; rw [h]; exact ⟨e, rfl⟩
          | some ρ =>
            obtain ⟨σ', h, rfl⟩ := ha
            rw [h]
            exact C179_program f (.loop c a) ho σ'
      · simp only [h1, decide_false, if_false, Bool.false_eq_true]; exact ⟨σ, rfl, rfl⟩

/-- mixed signedness with an x, and without -/
example (ρ : ValsL) : (ExL.le (.lit 8 true (-1)) (.lit 8 false 255)).Typed ∧
    ((ExL.le (.lit 8 true (-1)) (.lit 8 false 255)).denC ρ).map (· 0) = some .b0 ∧
    ((ExL.le (.dflt 8 true) (.lit 8 false 255)).denC ρ).map (· 0) = some .x := by
  refine ⟨by simp [ExL.Typed, ExI.W], ?_, ?_⟩ <;> rfl

end Verif
