import Verif.Props.ExprL
import Verif.Props.Conservative
import Verif.Props.Canonical

/-!
# Moving a program from `bit` to `logic` (C133)

The same client program, with every `bit` type replaced by the `logic` type of the same width
and signedness and every variable holding the same known value.
-/

namespace Verif

variable {n m : Nat} {s t : Bool}

/-- the 4-state object with the value of a 2-state one, `logic(bit)`, `logic.hh` lines 1024-1028 -/
def Bits.lift (x : Bits n s) : Lg n s := ⟨x, Bits.zero⟩

/-- all variables lifted -/
def ObjsI.lift (σ : ObjsI) : ObjsL := fun n s i => (σ n s i).lift

/-- the expression over `logic` -/
def ExI.lift : {n : Nat} → {s : Bool} → ExI n s → ExL n s
  | _, _, .var n s i => .var n s i
  | _, _, .lit n s k => .lit n s k
  | _, _, .not a => .not (lift a)
  | _, _, .and a b => .and (lift a) (lift b)
  | _, _, .or a b => .or (lift a) (lift b)
  | _, _, .xor a b => .xor (lift a) (lift b)
  | _, _, .neg a => .neg (lift a)
  | _, _, .add a b => .add (lift a) (lift b)
  | _, _, .sub a b => .sub (lift a) (lift b)
  | _, _, .mul a b => .mul (lift a) (lift b)
  | _, _, .div a b => .div (lift a) (lift b)
  | _, _, .mod a b => .mod (lift a) (lift b)
  | _, _, .shr a b => .shr (lift a) (lift b)
  | _, _, .shl a b => .shl (lift a) (lift b)
  | _, _, .ashr a b => .ashr (lift a) (lift b)
  | _, _, .ext m a => .ext m (lift a)
  | _, _, .cast t a => .cast t (lift a)
  | _, _, .eq a b => .eq (lift a) (lift b)
  | _, _, .lt a b => .lt (lift a) (lift b)
  | _, _, .le a b => .le (lift a) (lift b)
  | _, _, .cond c a b => .cond (lift c) (lift a) (lift b)

/-- the program over `logic` -/
def StI.lift : StI → StL
  | .skip => .skip
  | .assign n s i e => .assign n s i e.lift
  | .inc n s i => .inc n s i
  | .dec n s i => .dec n s i
  | .seq a b => .seq a.lift b.lift
  | .ite c a b => .ite c.lift a.lift b.lift
  | .loop c a => .loop c.lift a.lift

/-- the widths without spare storage bits: 1, 8, 16, 32, 64 and the multiples of 64 -/
def Packed (n : Nat) : Prop := 0 < n ∧ (Full n ∨ n % 64 = 0)

instance (n : Nat) : Decidable (Packed n) := by unfold Packed; infer_instance

/-- **Expressions that are covered**: bitwise operators at widths without spare storage bits
and, as for every `logic`, not between two signed operands; division up to 64 bits; extension
to a width that is not smaller; wide `==` not between two signed operands (does not compile). -/
def ExI.Lifts : {n : Nat} → {s : Bool} → ExI n s → Prop
  | _, _, .var _ _ _ | _, _, .lit _ _ _ => True
  | n, _, .not a => Lifts a ∧ Packed n
  | n, _, .and (s := s) (t := t) a b | n, _, .or (s := s) (t := t) a b | n, _, .xor (s := s) (t := t) a b =>
      Lifts a ∧ Lifts b ∧ Packed n ∧ (s && t) = false
  | _, _, .neg a | _, _, .cast _ a => Lifts a
  | _, _, .add a b | _, _, .sub a b | _, _, .mul a b | _, _, .lt a b | _, _, .le a b => Lifts a ∧ Lifts b
  | n, _, .div a b | n, _, .mod a b => Lifts a ∧ Lifts b ∧ n ≤ 64
  | n, _, .shr a k | n, _, .shl a k | n, _, .ashr a k => Lifts a ∧ Lifts k ∧ 0 < n
  | _, _, .ext (n := n) m a => Lifts a ∧ 0 < n ∧ n ≤ m
  | _, _, .eq (n := n) (s := s) (t := t) a b => Lifts a ∧ Lifts b ∧ (64 < n → (s && t) = false)
  | _, _, .cond c a b => Lifts c ∧ Lifts a ∧ Lifts b

/-- covered programs: a native variable is assigned from a native type -/
def StI.Lifts : StI → Prop
  | .skip => True
  | .assign n _ _ (m := m) e => e.Lifts ∧ (n ≤ 64 → m ≤ 64)
  | .inc n _ _ | .dec n _ _ => 0 < n
  | .seq a b => a.Lifts ∧ b.Lifts
  | .ite c a b => c.Lifts ∧ a.Lifts ∧ b.Lifts
  | .loop c a => c.Lifts ∧ a.Lifts

/-! ## operators -/

namespace Lg

theorem anySet_zero : (Bits.zero : Bits n false).anySet = false :=
  (known_zero (Bits.zero : Bits n false)).anySet

theorem lift_ext {x : Lg n s} {v : Bits n s} (hp : Packed n)
    (h : ∀ i, i < n → x.at i = V4.ofBool (v.bv.getLsbD i)) : x = v.lift := by
  have e1 : x.value = v := by
    refine (C16_full_widths hp.1 hp.2 _ _).2 (BitVec.eq_of_getLsbD_eq fun i hi => ?_)
    have := h i hi
    rw [Lg.at] at this
    revert this
    cases x.value.bv.getLsbD i <;> cases x.xz.bv.getLsbD i <;> cases v.bv.getLsbD i <;> simp [V4.mk, V4.ofBool]
  have e2 : x.xz = Bits.zero := by
    refine (C16_full_widths hp.1 hp.2 _ _).2 (BitVec.eq_of_getLsbD_eq fun i hi => ?_)
    have := h i hi
    rw [Lg.at] at this
    rw [Bits.getLsbD_bv Bits.zero, Bits.raw_zero]
    revert this
    cases x.value.bv.getLsbD i <;> cases x.xz.bv.getLsbD i <;> cases v.bv.getLsbD i <;> simp [V4.mk, V4.ofBool]
  cases x; subst e1; subst e2; rfl

theorem lift_bitwise (hp : Packed n) (x : Bits n s) (y : Bits n t) :
    x.lift.and y.lift = .ok (x.and y).lift ∧ x.lift.or y.lift = .ok (x.or y).lift ∧
    x.lift.xor y.lift = .ok (x.xor y).lift ∧ x.lift.not = .ok x.not.lift := by
  obtain ⟨⟨a, ha, ea⟩, ⟨b, hb, eb⟩, ⟨c, hc, ec⟩, ⟨d, hd, ed⟩⟩ :=
    C15_bitwise hp.1 x.lift y.lift (known_zero x) (known_zero y)
  rw [ha, hb, hc, hd, lift_ext hp ea, lift_ext hp eb, lift_ext hp ec, lift_ext hp ed]
  exact ⟨rfl, rfl, rfl, rfl⟩

theorem lift_arith (f : Bits n s → Bits n t → Res (Bits n (s && t))) (x : Bits n s) (y : Bits n t) :
    arithWith f x.lift y.lift = (f x y).map Bits.lift := by
  rw [arithWith, Bits.lift, Bits.lift, anySet_zero]; rfl

theorem lift_rel (f : Bits n s → Bits m t → Res Bool) (x : Bits n s) (y : Bits m t) :
    relWith f x.lift y.lift = (f x y).map fun c => (Bits.ofInt c.toNat : Bits 1 false).lift := by
  rw [relWith, Bits.lift, Bits.lift, anySet_zero, anySet_zero]
  have : known1 = fun c : Bool => (Bits.ofInt c.toNat : Bits 1 false).lift := by
    funext c; cases c <;> decide +kernel
  rw [this]; rfl

theorem _root_.Verif.Bits.div_zero_native (h : n ≤ 64) (x : Bits n s) (y : Bits n t) (h0 : y.nv.v = 0) :
    x.div y = .error .divZero := by
  rw [Bits.div, dif_pos h, TV.div]
  simp [h0, CTy.conv_zero]; rfl

theorem _root_.Verif.Bits.mod_zero_native (h : n ≤ 64) (x : Bits n s) (y : Bits n t) (h0 : y.nv.v = 0) :
    x.mod y = .error .divZero := by
  rw [Bits.mod, dif_pos h, TV.mod]
  simp [h0, CTy.conv_zero]; rfl

theorem lift_div (h : n ≤ 64) (f : Bits n s → Bits n t → Res (Bits n (s && t)))
    (hf : ∀ x y, y.nv.v = 0 → f x y = .error .divZero) (x : Bits n s) (y : Bits n t)
    (hd : f x y ≠ .error .divZero) :
    divWith f x.lift y.lift = (f x y).map Bits.lift := by
  have h0 : y.anySet = true := by
    rw [Bits.anySet, dif_pos h]
    have : y.nv.v ≠ 0 := fun hc => hd (hf x y hc)
    simpa using this
  rw [divWith, Bits.lift, Bits.lift]
  simp only [anySet_zero, h0, Bool.not_true, Bool.or_false, Bool.false_eq_true, if_false]
  rfl

theorem lift_shift (hn : 0 < n) (f : {s' : Bool} → Bits n s' → Bits m t → Res (Bits n (s' && t)))
    (x : Bits n s) (y : Bits m t)
    (hf : ∀ v, f x y = .ok v → ∃ k : Bits n false, f (Bits.zero : Bits n false) y = .ok k ∧ ∀ i, k.raw i = false) :
    shiftWith f x.lift y.lift = (f x y).map Bits.lift := by
  obtain ⟨d, hd, -, -⟩ := dflt_ok (n := n) (s := s && t) hn
  rw [shiftWith, hd, res_bind_ok, if_neg (by simp [Bits.lift, anySet_zero])]
  show ((f x y).bind fun v => (f (Bits.zero : Bits n false) y).map fun k => (⟨v, k⟩ : Lg n (s && t))) = _
  cases e : f x y with
  | error e' => rfl
  | ok v =>
    obtain ⟨k, hk, hr⟩ := hf v e
    rw [res_bind_ok, hk, Bits.eq_zero_of_raw hr]; rfl

theorem lift_extend (hn : 0 < n) (h : n ≤ m) (x : Bits n s) : x.lift.extend m = (x.extend m).lift := by
  have : (Bits.zero : Bits n false).extend m = Bits.zero :=
    Bits.eq_zero_of_raw fun i => by rw [Bits.raw_extend_unsigned hn h, Bits.raw_zero]
  rw [Lg.extend, Bits.lift, Bits.lift]
  show (⟨x.extend m, (Bits.zero : Bits n false).extend m⟩ : Lg m s) = _
  rw [this]

theorem lift_toBool (x : Bits 1 false) : x.lift.toBool = x.toBool := by
  rw [Lg.toBool, Bits.lift, anySet_zero]; rfl

theorem lift_neg (h : n ≤ 64) (x : Bits n s) : x.lift.neg h = (x.neg h).map Bits.lift := by
  rw [Lg.neg, Bits.lift, anySet_zero]; rfl

theorem lift_assign (hn : n ≤ 64) (hm : m ≤ 64) (x : Bits m t) :
    (x.lift.assignNat hn : Lg n s) = (x.assignNat hn : Bits n s).lift := by
  have : ((Bits.zero : Bits m false).assignNat hn : Bits n false) = Bits.zero := by
    rw [Bits.assignNat, Bits.nv_zero hm, Bits.zero, dif_pos hn]
    apply Bits.ext_native hn
    rfl
  rw [Lg.assignNat, Bits.lift, Bits.lift]
  show (⟨x.assignNat hn, (Bits.zero : Bits m false).assignNat hn⟩ : Lg n s) = _
  rw [this]

end Lg

/-! ## expressions -/

/-- the 4-state outcome is the lifted 2-state one, unless that is a division by zero -/
def Follows (r : Res (Bits n s)) (r' : Res (Lg n s)) : Prop := r ≠ .error .divZero → r' = r.map Bits.lift

namespace Follows

theorem bind {k : Nat} {u : Bool} {r : Res (Bits n s)} {r' : Res (Lg n s)} (h : Follows r r')
    {f : Bits n s → Res (Bits k u)} {f' : Lg n s → Res (Lg k u)} (hf : ∀ x, Follows (f x) (f' x.lift)) :
    Follows (r.bind f) (r'.bind f') := by
  intro hd
  cases r with
  | error e => rw [h (fun hc => hd (by rw [hc]; rfl))]; rfl
  | ok x => rw [h (by simp)]; exact hf x hd

theorem of_eq {r : Res (Bits n s)} {r' : Res (Lg n s)} (h : r' = r.map Bits.lift) : Follows r r' := fun _ => h

theorem bind2 {k : Nat} {u : Bool} {r : Res (Bits n s)} {r' : Res (Lg n s)} {q : Res (Bits m t)} {q' : Res (Lg m t)}
    (h : Follows r r') (h' : Follows q q') {f : Bits n s → Bits m t → Res (Bits k u)}
    {f' : Lg n s → Lg m t → Res (Lg k u)} (hf : ∀ x y, Follows (f x y) (f' x.lift y.lift)) :
    Follows (r.bind fun x => q.bind fun y => f x y) (r'.bind fun x => q'.bind fun y => f' x y) :=
  h.bind fun x => h'.bind fun y => hf x y

end Follows

theorem res_map_eq {α β : Type} (r : Res α) (f : α → β) : r.map f = r.bind fun x => .ok (f x) := by
  cases r <;> rfl

/-- **C133, expressions.** A covered expression of any depth, over the variables `σ`: unless it
divides by zero, the version over `logic` has the outcome of the version over `bit`, the fault
included. Missing: expressions that do not satisfy `Lifts`, for which it can be false
(`C133_refuted_native`, `C133_refuted_wide`), and division by zero, which is x over `logic`. -/
theorem C133_expr_partial (σ : ObjsI) : {n : Nat} → {s : Bool} → (e : ExI n s) → e.Lifts →
    e.run σ ≠ .error .divZero → e.lift.run σ.lift = (e.run σ).map Bits.lift
  | _, _, .var _ _ _, _ => fun _ => rfl
  | _, _, .lit _ _ _, _ => fun _ => rfl
  | _, _, .not a, h => by
      have ia : Follows _ _ := C133_expr_partial σ a h.1
      show Follows ((a.run σ).map Bits.not) _
      rw [res_map_eq]
      exact ia.bind fun x => .of_eq (Lg.lift_bitwise (t := false) h.2 x Bits.zero).2.2.2
  | _, _, .and a b, h => by
      have ia : Follows _ _ := C133_expr_partial σ a h.1
      have ib : Follows _ _ := C133_expr_partial σ b h.2.1
      show Follows ((a.run σ).bind fun x => (b.run σ).map fun y => x.and y) _
      simp only [res_map_eq]
      exact ia.bind2 ib fun x y => .of_eq (Lg.lift_bitwise h.2.2.1 x y).1
  | _, _, .or a b, h => by
      have ia : Follows _ _ := C133_expr_partial σ a h.1
      have ib : Follows _ _ := C133_expr_partial σ b h.2.1
      show Follows ((a.run σ).bind fun x => (b.run σ).map fun y => x.or y) _
      simp only [res_map_eq]
      exact ia.bind2 ib fun x y => .of_eq (Lg.lift_bitwise h.2.2.1 x y).2.1
  | _, _, .xor a b, h => by
      have ia : Follows _ _ := C133_expr_partial σ a h.1
      have ib : Follows _ _ := C133_expr_partial σ b h.2.1
      show Follows ((a.run σ).bind fun x => (b.run σ).map fun y => x.xor y) _
      simp only [res_map_eq]
      exact ia.bind2 ib fun x y => .of_eq (Lg.lift_bitwise h.2.2.1 x y).2.2.1
  | n, _, .neg a, h => by
      have ia : Follows _ _ := C133_expr_partial σ a h
      refine ia.bind fun x => .of_eq ?_
      by_cases h64 : n ≤ 64
      · rw [dif_pos h64, dif_pos h64]; exact Lg.lift_neg h64 x
      · rw [dif_neg h64, dif_neg h64]; rfl
  | _, _, .add a b, h => by
      have ia : Follows _ _ := C133_expr_partial σ a h.1
      have ib : Follows _ _ := C133_expr_partial σ b h.2
      exact ia.bind2 ib fun x y => .of_eq (Lg.lift_arith Bits.add x y)
  | _, _, .sub a b, h => by
      have ia : Follows _ _ := C133_expr_partial σ a h.1
      have ib : Follows _ _ := C133_expr_partial σ b h.2
      exact ia.bind2 ib fun x y => .of_eq (Lg.lift_arith Bits.sub x y)
  | _, _, .mul a b, h => by
      have ia : Follows _ _ := C133_expr_partial σ a h.1
      have ib : Follows _ _ := C133_expr_partial σ b h.2
      exact ia.bind2 ib fun x y => .of_eq (Lg.lift_arith Bits.mul x y)
  | _, _, .div a b, h => by
      have ia : Follows _ _ := C133_expr_partial σ a h.1
      have ib : Follows _ _ := C133_expr_partial σ b h.2.1
      exact ia.bind2 ib fun x y => Lg.lift_div h.2.2 Bits.div (fun x y => Bits.div_zero_native h.2.2 x y) x y
  | _, _, .mod a b, h => by
      have ia : Follows _ _ := C133_expr_partial σ a h.1
      have ib : Follows _ _ := C133_expr_partial σ b h.2.1
      exact ia.bind2 ib fun x y => Lg.lift_div h.2.2 Bits.mod (fun x y => Bits.mod_zero_native h.2.2 x y) x y
  | _, _, .shr a k, h => by
      have ia : Follows _ _ := C133_expr_partial σ a h.1
      have ib : Follows _ _ := C133_expr_partial σ k h.2.1
      exact ia.bind2 ib fun x y => .of_eq (Lg.lift_shift h.2.2 Bits.shr x y fun _ hv => Bits.shr_zero hv)
  | _, _, .shl a k, h => by
      have ia : Follows _ _ := C133_expr_partial σ a h.1
      have ib : Follows _ _ := C133_expr_partial σ k h.2.1
      exact ia.bind2 ib fun x y => .of_eq (Lg.lift_shift h.2.2 Bits.shl x y fun _ hv => Bits.shl_zero hv)
  | _, _, .ashr a k, h => by
      have ia : Follows _ _ := C133_expr_partial σ a h.1
      have ib : Follows _ _ := C133_expr_partial σ k h.2.1
      exact ia.bind2 ib fun x y => .of_eq (Lg.lift_shift h.2.2 Bits.ashr x y fun _ hv => Bits.ashr_zero hv)
  | _, _, .ext m a, h => by
      have ia : Follows _ _ := C133_expr_partial σ a h.1
      show Follows ((a.run σ).map _) ((a.lift.run σ.lift).map _)
      simp only [res_map_eq]
      exact ia.bind fun x => .of_eq (congrArg Except.ok (Lg.lift_extend h.2.1 h.2.2 x))
  | _, _, .cast true a, h => by
      have ia : Follows _ _ := C133_expr_partial σ a h
      show Follows ((a.run σ).map _) ((a.lift.run σ.lift).map _)
      simp only [res_map_eq]
      exact ia.bind fun x => .of_eq rfl
  | _, _, .cast false a, h => by
      have ia : Follows _ _ := C133_expr_partial σ a h
      show Follows ((a.run σ).map _) ((a.lift.run σ.lift).map _)
      simp only [res_map_eq]
      exact ia.bind fun x => .of_eq rfl
  | _, _, .eq a b, h => by
      have ia : Follows _ _ := C133_expr_partial σ a h.1
      have ib : Follows _ _ := C133_expr_partial σ b h.2.1
      show Follows ((a.run σ).bind fun x => (b.run σ).map fun y => Bits.ofInt (x.eq y).toNat) _
      simp only [res_map_eq]
      exact ia.bind2 ib fun x y => .of_eq (Lg.lift_rel (fun a b => .ok (a.eq b)) x y)
  | _, _, .lt a b, h => by
      have ia : Follows _ _ := C133_expr_partial σ a h.1
      have ib : Follows _ _ := C133_expr_partial σ b h.2
      refine ia.bind2 ib fun x y => .of_eq ?_
      refine (Lg.lift_rel Bits.lt x y).trans ?_
      cases x.lt y <;> rfl
  | _, _, .le a b, h => by
      have ia : Follows _ _ := C133_expr_partial σ a h.1
      have ib : Follows _ _ := C133_expr_partial σ b h.2
      refine ia.bind2 ib fun x y => .of_eq ?_
      refine (Lg.lift_rel Bits.le x y).trans ?_
      cases x.le y <;> rfl
  | _, _, .cond c a b, h => by
      have ic : Follows _ _ := C133_expr_partial σ c h.1
      have ia : Follows _ _ := C133_expr_partial σ a h.2.1
      have ib : Follows _ _ := C133_expr_partial σ b h.2.2
      refine ic.bind fun x => ?_
      rw [Lg.lift_toBool]
      by_cases hx : x.toBool = true
      · rw [if_pos hx, if_pos hx]; exact ia
      · rw [if_neg hx, if_neg hx]; exact ib

/-! ## programs -/

theorem ObjsI.lift_put (σ : ObjsI) (n : Nat) (s : Bool) (i : Nat) (x : Bits n s) :
    (σ.put n s i x).lift = σ.lift.put n s i x.lift := by
  funext m t j
  rw [ObjsI.lift, ObjsI.put, ObjsL.put]
  by_cases h : m = n ∧ t = s
  · obtain ⟨rfl, rfl⟩ := h
    by_cases hj : j = i
    · simp [hj]
    · simp [hj, ObjsI.lift]
  · rw [dif_neg h, dif_neg h]; rfl

theorem Lg.lift_inc_dec (hn : 0 < n) (x : Bits n s) :
    x.lift.inc = x.inc.map Bits.lift ∧ x.lift.dec = x.dec.map Bits.lift := by
  have e : (Lg.one1.extend n : Lg n false) = (Bits.oneN n).lift := by
    have h1 : Lg.one1 = Bits.lift Bits.one1 := by decide +kernel
    rw [h1]; exact Lg.lift_extend (by decide) hn _
  have key : ∀ r : Res (Bits n (s && false)), (r.map Bits.lift).map (Lg.toSign s) =
      (r.map (Bits.toSign s)).map Bits.lift := by
    intro r; cases r <;> rfl
  constructor
  · rw [Lg.inc, e, Lg.add, Lg.lift_arith, key]; rfl
  · rw [Lg.dec, e, Lg.sub, Lg.lift_arith, key]; rfl

/-- **C133, programs.** A covered program from any state, for any number of steps: unless it
divides by zero, the version over `logic` runs out of steps, faults or ends exactly as the
version over `bit` does, with the same values in all variables. Missing: programs that do not
satisfy `Lifts`, for which it can be false (`C133_refuted_native`, `C133_refuted_wide`), and
division by zero, which is x over `logic`. -/
theorem C133_program_partial : (f : Nat) → (p : StI) → p.Lifts → (σ : ObjsI) → p.run f σ ≠ some (.error .divZero) →
    p.lift.run f σ.lift = (p.run f σ).map fun r => r.map ObjsI.lift
  | 0, _, _, _, _ => by simp [StI.run, StL.run]
  | _ + 1, .skip, _, _, _ => rfl
  | f + 1, .assign n s i (m := m) (t := t) e, hp, σ, hd => by
      simp only [StI.lift, StL.run, StI.run] at hd ⊢
      by_cases h : n ≤ 64
      · rw [dif_pos h] at hd
        rw [dif_pos h, dif_pos h, C133_expr_partial σ e hp.1 (fun hc => hd (by rw [hc]; rfl))]
        cases e.run σ with
        | error e => rfl
        | ok x =>
          show some (Except.ok _) = some (Except.ok _)
          rw [ObjsI.lift_put, ← Lg.lift_assign h (hp.2 h)]
      · rw [dif_neg h] at hd
        rw [dif_neg h, dif_neg h]
        by_cases h' : m = n ∧ t = s
        · obtain ⟨rfl, rfl⟩ := h'
          simp only [and_self, dif_pos] at hd ⊢
          rw [C133_expr_partial σ e hp.1 (fun hc => hd (by rw [hc]; rfl))]
          cases e.run σ with
          | error e => rfl
          | ok x =>
            show some (Except.ok _) = some (Except.ok _)
            rw [ObjsI.lift_put]
        · rw [dif_neg h', dif_neg h']; rfl
  | f + 1, .inc n s i, hp, σ, _ => by
      simp only [StI.lift, StL.run, StI.run]
      show some ((σ n s i).lift.inc.map _) = _
      rw [(Lg.lift_inc_dec hp _).1]
      cases (σ n s i).inc with
      | error e => rfl
      | ok x =>
        show some (Except.ok _) = some (Except.ok _)
        rw [ObjsI.lift_put]
  | f + 1, .dec n s i, hp, σ, _ => by
      simp only [StI.lift, StL.run, StI.run]
      show some ((σ n s i).lift.dec.map _) = _
      rw [(Lg.lift_inc_dec hp _).2]
      cases (σ n s i).dec with
      | error e => rfl
      | ok x =>
        show some (Except.ok _) = some (Except.ok _)
        rw [ObjsI.lift_put]
  | f + 1, .seq a b, hp, σ, hd => by
      have ia := C133_program_partial f a hp.1 σ
      have ib := fun σ' => C133_program_partial f b hp.2 σ'
      simp only [StI.lift, StL.run, StI.run] at hd ⊢
      cases e : a.run f σ with
      | none => rw [ia (by rw [e]; simp), e]; rfl
      | some r =>
        rw [e] at hd
        cases r with
        | error e' =>
          have : a.run f σ ≠ some (.error .divZero) := by rw [e]; exact hd
          rw [ia this, e]; rfl
        | ok σ' =>
          rw [ia (by rw [e]; simp), e]
          exact ib σ' hd
  | f + 1, .ite c a b, hp, σ, hd => by
      have ia := C133_program_partial f a hp.2.1 σ
      have ib := C133_program_partial f b hp.2.2 σ
      have ic := C133_expr_partial σ c hp.1
      simp only [StI.lift, StL.run, StI.run] at hd ⊢
      cases e : c.run σ with
      | error e' =>
        rw [e] at hd
        rw [ic (by rw [e]; intro hc; exact hd (by cases hc; rfl)), e]; rfl
      | ok v =>
        rw [e] at hd
        rw [ic (by rw [e]; simp), e]
        show (if v.lift.toBool then _ else _) = Option.map _ (if v.toBool then _ else _)
        rw [Lg.lift_toBool]
        by_cases hv : v.toBool = true
        · simp only [hv, if_true] at hd ⊢; exact ia hd
        · simp only [hv] at hd ⊢; exact ib hd
  | f + 1, .loop c a, hp, σ, hd => by
      have ia := C133_program_partial f a hp.2 σ
      have il := fun σ' => C133_program_partial f (.loop c a) hp σ'
      have ic := C133_expr_partial σ c hp.1
      simp only [StI.lift, StL.run, StI.run] at hd il ⊢
      cases e : c.run σ with
      | error e' =>
        rw [e] at hd
        rw [ic (by rw [e]; intro hc; exact hd (by cases hc; rfl)), e]; rfl
      | ok v =>
        rw [e] at hd
        rw [ic (by rw [e]; simp), e]
        show (if v.lift.toBool then _ else _) = Option.map _ (if v.toBool then _ else _)
        rw [Lg.lift_toBool]
        by_cases hv : v.toBool = true
        · simp only [hv, if_true] at hd ⊢
          cases e2 : a.run f σ with
          | none => rw [ia (by rw [e2]; simp), e2]; rfl
          | some r =>
            rw [e2] at hd
            cases r with
            | error e' =>
              have : a.run f σ ≠ some (.error .divZero) := by rw [e2]; exact hd
              rw [ia this, e2]; rfl
            | ok σ' =>
              rw [ia (by rw [e2]; simp), e2]
              exact il σ' hd
        · simp only [hv] at hd ⊢; rfl

/-! ## cases -/

/-- `while (a < b) { a = a + ((b ^ a) >> k); ++j; }` at 32 bits, then a 128-bit sum -/
def liftCase : StI :=
  .seq (.loop (.lt (.var 32 false 0) (.var 32 false 1))
      (.seq (.assign 32 false 0 (.add (.var 32 false 0)
        (.shr (.xor (.var 32 false 1) (.var 32 false 0)) (.var 8 false 1)))) (.inc 8 false 0)))
    (.assign 128 false 0 (.add (.not (.var 128 false 1)) (.ext 128 (.var 32 false 0))))

example : liftCase.Lifts := by
  refine ⟨⟨⟨trivial, trivial⟩, ⟨⟨trivial, ⟨⟨trivial, trivial, by decide, rfl⟩, trivial, by decide⟩⟩, fun _ => by decide⟩,
    (by decide : 0 < 8)⟩, ⟨⟨⟨trivial, by decide⟩, trivial, by decide, by decide⟩, fun _ => by omega⟩⟩

example : ((liftCase.run 40 fun n s i => if n = 32 ∧ i = 1 then Bits.ofInt 1000 else if n = 8 then Bits.ofInt 1
    else Bits.ofInt 5).map fun r => r.map fun σ => ((σ 32 false 0).bv, (σ 8 false 0).bv)) =
      some (.ok (1008#32, 7#8)) := by decide +kernel

/-- `==` of two unsigned objects of one type compares the storage -/
theorem Bits.eq_iff_same (x y : Bits n false) : x.eq y = true ↔ x = y := by
  by_cases h : n ≤ 64
  · rw [Bits.eq_native h h, Bits.nv_conv h, decide_eq_true_iff]
    refine ⟨fun hv => ?_, fun e => by rw [e]⟩
    rw [← Bits.mkN_nv h x, ← Bits.mkN_nv h y]
    have ht : x.nv.ty = y.nv.ty := by simp
    cases hq : x.nv; cases hq' : y.nv
    rw [hq, hq'] at ht hv; simp only at ht hv; rw [ht, hv]
  · rw [Bits.eq, dif_neg h, dif_neg h, Big.eq_same rfl, decide_eq_true_iff]
    cases x with
    | nat h' _ => exact absurd h' h
    | big _ a =>
      cases y with
      | nat h' _ => exact absurd h' h
      | big _ b =>
        constructor
        · intro e
          have : a = b := Big.ext' (val_inj (by rw [a.len, b.len]) e)
          rw [this]
        · intro e; cases e; rfl

theorem Bits.raw_ofInt_zero (i : Nat) : (Bits.ofInt 0 : Bits n false).raw i = false := by
  by_cases h : n ≤ 64
  · have e : (Bits.ofInt 0 : Bits n false) = Bits.zero := by
      rw [Bits.ofInt, dif_pos h, CTy.conv_zero, Bits.zero, dif_pos h]; rfl
    rw [e, Bits.raw_zero]
  · rw [Bits.ofInt, dif_neg h, Bits.raw_big h, Bits.bg_big, ← Big.testBit_val', Big.val_ofU64 (by omega)]; simp

theorem Lg.lift_not_zero (hn : 0 < n) : ∃ z, (Bits.ofInt 0 : Bits n false).lift.not = .ok z ∧ z.Clean ∧ z.Known ∧
    ∀ i, z.value.raw i = decide (i < n) := by
  obtain ⟨z, hz, hv, hk⟩ := Lg.not_ok hn (Bits.ofInt 0 : Bits n false).lift
  have hk' : ∀ i, z.xz.raw i = false := fun i => by rw [hk]; exact Bits.raw_zero i
  refine ⟨z, hz, ⟨(Bits.clean_unsigned_iff _).2 fun i hi => ?_, Bits.clean_of_raw_zero hk'⟩, Lg.known_of_raw hk', fun i => ?_⟩
  · rw [hv]; simp [show ¬ i < n by omega]
  · rw [hv]
    show (_ && (!(Bits.ofInt 0 : Bits n false).raw i && !(Bits.zero : Bits n false).raw i)) = _
    rw [Bits.raw_ofInt_zero, Bits.raw_zero]; simp

/-- **C133 is false of the code** at every native width with spare storage bits: with `x = 0`,
`~x == 2^n - 1` is false for `bit` and true for `logic`. -/
theorem C133_refuted_native (h1 : 1 < n) (h : n ≤ 64) (hf : ¬ Full n) (σ : ObjsI) :
    ∃ e : ExI 1 false, e = .eq (.not (.lit n false 0)) (.lit n false (2 ^ n - 1)) ∧
      (∃ b, e.run σ = .ok b ∧ b.bv = 0) ∧ (∃ l, e.lift.run σ.lift = .ok l ∧ l.at 0 = .b1) := by
  have hne : hw n ≠ n := fun e => hf ((Bits.full_iff (by omega) h).2 e)
  have hle := le_hw h
  have hp : (0 : Int) < 2 ^ n := by positivity
  have cl : (Bits.ofInt (2 ^ n - 1) : Bits n false).Clean := by
    have hlt : (2 : Int) ^ n < 2 ^ hw n := by exact_mod_cast Nat.pow_lt_pow_right (by omega) (by omega)
    rw [C60_clean_iff h1 h, holderTy_ge (by omega), CTy.conv_unsigned_of_lt (by omega) (by omega), numOf_false,
      BitVec.toNat_ofInt]
    push_cast
    rw [Int.emod_eq_of_lt (by omega) (by omega), Int.toNat_of_nonneg (by omega)]
  have bl : (Bits.ofInt (2 ^ n - 1) : Bits n false).bv = BitVec.allOnes n := by
    rw [C60_bits h1 h]
    apply BitVec.eq_of_toNat_eq
    rw [BitVec.toNat_ofInt, BitVec.toNat_allOnes]
    push_cast
    rw [Int.emod_eq_of_lt (by omega) (by omega)]
    have : ((2 ^ n : Nat) : Int) = 2 ^ n := by push_cast; rfl
    omega
  refine ⟨_, rfl, ⟨_, rfl, ?_⟩, ?_⟩
  · have : (Bits.ofInt 0 : Bits n false).not.eq (Bits.ofInt (2 ^ n - 1) : Bits n false) = false := by
      rw [Bool.eq_false_iff]
      intro hc
      have e := congrArg (fun z => z.raw n) ((Bits.eq_iff_same _ _).1 hc)
      rw [(Bits.clean_unsigned_iff _).1 cl n le_rfl, Bits.raw_not_native h (by omega) _ (by omega),
        Bits.raw_ofInt_zero] at e
      exact absurd e (by decide)
    show (Bits.ofInt (((Bits.ofInt 0 : Bits n false).not.eq (Bits.ofInt (2 ^ n - 1) : Bits n false)).toNat : Int) : Bits 1 false).bv = 0
    rw [this]; rfl
  · obtain ⟨z, hz, cz, kz, rz⟩ := Lg.lift_not_zero (n := n) (by omega)
    have : z.value.eq (Bits.ofInt (2 ^ n - 1) : Bits n false).lift.value = true := by
      rw [Bits.eq_iff_same]
      refine Bits.Clean.ext cz.1 cl (BitVec.eq_of_getLsbD_eq fun i hi => ?_)
      show _ = (Bits.ofInt (2 ^ n - 1) : Bits n false).bv.getLsbD i
      rw [bl, Bits.getLsbD_bv, rz]; simp [hi]
    obtain ⟨l, hl, e⟩ := (C43_rel_known z _ kz (Lg.known_zero _) true).1.1 this
    refine ⟨l, ?_, e⟩
    rw [← hl]
    show (((Bits.ofInt 0 : Bits n false).lift.not).bind fun x => _) = _
    rw [hz]; rfl

/-- **C133 is false of the code** at every wide width with spare storage bits: with `x = 0`,
`~x == (~x & ~x)` is false for `bit` and true for `logic`. -/
theorem C133_refuted_wide (h : 64 < n) (hf : n % 64 ≠ 0) (σ : ObjsI) :
    ∃ e : ExI 1 false, e = .eq (.not (.lit n false 0)) (.and (.not (.lit n false 0)) (.not (.lit n false 0))) ∧
      (∃ b, e.run σ = .ok b ∧ b.bv = 0) ∧ (∃ l, e.lift.run σ.lift = .ok l ∧ l.at 0 = .b1) := by
  have h' : ¬ n ≤ 64 := by omega
  refine ⟨_, rfl, ⟨_, rfl, ?_⟩, ?_⟩
  · have : (Bits.ofInt 0 : Bits n false).not.eq ((Bits.ofInt 0 : Bits n false).not.and (Bits.ofInt 0 : Bits n false).not) =
        false := by
      rw [Bool.eq_false_iff]
      intro hc
      have e := congrArg (fun z => z.raw n) ((Bits.eq_iff_same _ _).1 hc)
      have hl : n < limbs n * 64 := by have := le_limbs n; omega
      simp only [Bits.not, Bits.and, dif_neg h', Bits.raw_big h', Bits.bg_big, Big.raw_toSign] at e
      rw [Big.raw_and (by omega), Big.raw_not _ _ hl, ← Bits.raw_big h', Bits.raw_ofInt_zero] at e
      simp at e
    show (Bits.ofInt ((Bits.eq _ _).toNat : Int) : Bits 1 false).bv = 0
    rw [this]; rfl
  · obtain ⟨z, hz, cz, kz, rz⟩ := Lg.lift_not_zero (n := n) (by omega)
    obtain ⟨w, hw', rv, rk⟩ := Lg.and_ok (by omega : 0 < n) z z
    have km : ∀ i, i < n → (Lg.knownMask z z).raw i = false := fun i hi => by
      rw [Lg.raw_knownMask (by omega) z z hi]; simp
    have kw : w.Known := Lg.known_of_raw fun i => by
      rw [rk, kz.raw]
      by_cases hi : i < n
      · rw [km i hi]; simp
      · simp [hi]
    have : z.value.eq w.value = true := by
      rw [Bits.eq_iff_same]
      refine Bits.Clean.ext cz.1 ((Bits.clean_unsigned_iff _).2 fun i hi => ?_) (Bits.bv_eq_of_raw fun i hi => ?_)
      · rw [rv]; simp [show ¬ i < n by omega]
      · rw [rv, rz, km i hi]; simp [hi]
    obtain ⟨l, hl, e⟩ := (C43_rel_known z w kz kw true).1.1 this
    refine ⟨l, ?_, e⟩
    rw [← hl]
    show (((Bits.ofInt 0 : Bits n false).lift.not).bind fun x =>
      ((((Bits.ofInt 0 : Bits n false).lift.not).bind fun a => ((Bits.ofInt 0 : Bits n false).lift.not).bind fun b =>
        a.and b).bind fun y => x.eq y)) = _
    rw [hz, res_bind_ok, res_bind_ok, res_bind_ok, hw', res_bind_ok]

end Verif
