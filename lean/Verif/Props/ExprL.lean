import Verif.Model.ExprL
import Verif.Props.ExprI
import Verif.Props.Expr4

/-!
# Client programs over the 4-state integer types (C128, C129)

The 4-state counterpart of C125 and C126, exact like them: the library evaluation faults if
and only if the reference value is undefined, and otherwise gives the reference value, x and z
included.
-/

namespace Verif

variable {n m : Nat} {s t : Bool}

/-- a 4-state vector -/
abbrev Vec (n : Nat) := Fin n → V4

/-- the bits an object holds -/
def Lg.vec (x : Lg n s) : Vec n := fun i => x.at i

/-- reference values of the variables -/
abbrev ValsL := (n : Nat) → Bool → Nat → Vec n

/-! ## Reference operators -/
namespace RefL

/-- none of the bits is x or z -/
def known (v : Vec n) : Prop := ∀ i, (v i).isKnown = true

instance (v : Vec n) : Decidable (known v) := by unfold known; infer_instance

/-- bit `i`, 0 outside -/
def get (v : Vec n) (i : Nat) : V4 := if h : i < n then v ⟨i, h⟩ else .b0

/-- the number of a vector without x and z -/
def num (v : Vec n) : BitVec n := bitsOf (fun i => get v i == .b1) n

/-- the vector of a number -/
def ofBV (b : BitVec n) : Vec n := fun i => V4.ofBool (b.getLsbD i)

/-- all x -/
def allX : Vec n := fun _ => .x

/-- unary and binary operators on numbers: all x if an operand has an x or z -/
def op1 {k : Nat} (f : BitVec n → Option (BitVec k)) (a : Vec n) : Option (Vec k) :=
  if known a then (f (num a)).map ofBV else some allX
def op2 {k : Nat} (f : BitVec n → BitVec m → Option (BitVec k)) (a : Vec n) (b : Vec m) : Option (Vec k) :=
  if known a ∧ known b then (f (num a) (num b)).map ofBV else some allX

/-- division: all x also if the divisor is 0 -/
def divOp (f : BitVec n → BitVec n → Option (BitVec n)) (a b : Vec n) : Option (Vec n) :=
  if known a ∧ known b ∧ num b ≠ 0 then (f (num a) (num b)).map ofBV else some allX

/-- `!a` -/
def lnot (a : Vec n) : Vec 1 := fun _ => if known a then V4.ofBool (decide (num a = 0)) else .x

/-- the library's `&` of two bits: IEEE 1800 table 11-11 except for `x & 0`, `z & 1` and `z & z` (C10) -/
def and (p q : V4) : V4 :=
  match p, q with
  | .x, .b0 => .x
  | .z, .b1 => .b1
  | .z, .z => .z
  | p, q => V4.and p q

/-- the library's `|` of two bits: IEEE 1800 table 11-12 except for `x | 0` and `z | 1` (C11) -/
def or (p q : V4) : V4 :=
  match p, q with
  | .x, .b0 => .b1
  | .z, .b1 => .x
  | p, q => V4.or p q

/-- widening and narrowing: the bits above a signed vector are 1 if its top bit is 1 or z, else 0
(IEEE 1800 repeats an x or z) -/
def ext (s : Bool) (m : Nat) (a : Vec n) : Vec m := fun i =>
  if i < n then get a i
  else V4.ofBool (s && decide (1 < n) && (get a (n - 1) == .b1 || get a (n - 1) == .z))

end RefL

namespace ExL

/-- **Reference semantics**, on 4-state vectors. -/
def den (ρ : ValsL) : {n : Nat} → {s : Bool} → ExL n s → Option (Vec n)
  | _, _, .var n s i => some (ρ n s i)
  | n, _, .lit _ _ k => some (RefL.ofBV (BitVec.ofInt n k))
  | _, _, .dflt _ _ => some RefL.allX
  | _, _, .not a => (den ρ a).map fun x i => V4.not (x i)
  | _, _, .and a b => (den ρ a).bind fun x => (den ρ b).map fun y i => RefL.and (x i) (y i)
  | _, _, .or a b => (den ρ a).bind fun x => (den ρ b).map fun y i => RefL.or (x i) (y i)
  | _, _, .xor a b => (den ρ a).bind fun x => (den ρ b).map fun y i => V4.xor (x i) (y i)
  | _, s, .neg a => (den ρ a).bind fun x => RefL.op1 (RefI.neg s) x
  | _, _, .add (s := s) (t := t) a b => (den ρ a).bind fun x => (den ρ b).bind fun y => RefL.op2 (RefI.add s t) x y
  | _, _, .sub (s := s) (t := t) a b => (den ρ a).bind fun x => (den ρ b).bind fun y => RefL.op2 (RefI.sub s t) x y
  | _, _, .mul (s := s) (t := t) a b => (den ρ a).bind fun x => (den ρ b).bind fun y => RefL.op2 (RefI.mul s t) x y
  | _, _, .div (s := s) (t := t) a b => (den ρ a).bind fun x => (den ρ b).bind fun y =>
      RefL.divOp (RefI.div (s && t)) x y
  | _, _, .mod (s := s) (t := t) a b => (den ρ a).bind fun x => (den ρ b).bind fun y =>
      RefL.divOp (RefI.mod (s && t)) x y
  | _, _, .shr (t := t) a k => (den ρ a).bind fun x => (den ρ k).bind fun y =>
      RefL.op2 (fun v w => RefI.shr v (numOf t w)) x y
  | _, _, .shl (t := t) a k => (den ρ a).bind fun x => (den ρ k).bind fun y =>
      RefL.op2 (fun v w => RefI.shl v (numOf t w)) x y
  | _, _, .ashr (s := s) (t := t) a k => (den ρ a).bind fun x => (den ρ k).bind fun y =>
      RefL.op2 (fun v w => RefI.ashr s v (numOf t w)) x y
  | _, s, .ext m a => (den ρ a).map fun x => RefL.ext s m x
  | _, _, .cast _ a => den ρ a
  | _, _, .eq a b => (den ρ a).bind fun x => (den ρ b).bind fun y =>
      RefL.op2 (fun v w => some (BitVec.ofBool (decide (v = w)))) x y
  | _, _, .lt (s := s) (t := t) a b => (den ρ a).bind fun x => (den ρ b).bind fun y =>
      RefL.op2 (fun v w => some (BitVec.ofBool (decide (numOf (s && t) v < numOf (s && t) w)))) x y
  | _, _, .le (s := s) (t := t) a b => (den ρ a).bind fun x => (den ρ b).bind fun y =>
      RefL.op2 (fun v w => some (BitVec.ofBool (decide (numOf (s && t) v ≤ numOf (s && t) w)))) x y
  | _, _, .same a b => (den ρ a).bind fun x => (den ρ b).map fun y =>
      RefL.ofBV (BitVec.ofBool (decide (∀ i, x i = y i)))
  | _, _, .lnot a => (den ρ a).map RefL.lnot
  | _, _, .cond c a b => (den ρ c).bind fun x => if x 0 = .b1 then den ρ a else den ρ b

/-- **Well-formed expressions**, as for C125; `& | ^` of two signed operands do not compile. -/
def Ok : {n : Nat} → {s : Bool} → ExL n s → Prop
  | n, s, .var _ _ _ | n, s, .dflt _ _ => ExI.W n ∨ n = 1 ∧ s = false
  | n, _, .lit _ _ _ => ExI.W n
  | _, _, .not a => Ok a
  | _, _, .and (s := s) (t := t) a b | _, _, .or (s := s) (t := t) a b | _, _, .xor (s := s) (t := t) a b =>
      Ok a ∧ Ok b ∧ (s && t) = false
  | n, _, .neg a => Ok a ∧ ExI.W n
  | n, _, .add a b | n, _, .sub a b | n, _, .mul a b => Ok a ∧ Ok b ∧ ExI.W n
  | n, _, .div (s := s) (t := t) a b | n, _, .mod (s := s) (t := t) a b =>
      Ok a ∧ Ok b ∧ ExI.W n ∧ (s = t ∨ n = 32 ∨ n = 64)
  | n, _, .shr (m := m) a k | n, _, .shl (m := m) a k | n, _, .ashr (m := m) a k => Ok a ∧ Ok k ∧ ExI.W n ∧ m ≤ n
  | _, _, .ext (n := n) m a => Ok a ∧ ExI.W m ∧ n ≤ m
  | n, _, .cast _ a => Ok a ∧ ExI.W n
  | _, _, .eq a b | _, _, .same a b => Ok a ∧ Ok b
  | _, _, .lt (n := n) (m := m) (s := s) (t := t) a b | _, _, .le (n := n) (m := m) (s := s) (t := t) a b =>
      Ok a ∧ Ok b ∧ (s = t ∨ n = 64 ∧ m = 64)
  | _, _, .lnot a => Ok a
  | _, _, .cond c a b => Ok c ∧ Ok a ∧ Ok b

theorem Ok.width : {n : Nat} → {s : Bool} → {e : ExL n s} → e.Ok → ExI.W n ∨ n = 1
  | _, _, .var _ _ _, h | _, _, .dflt _ _, h => h.imp id And.left
  | _, _, .lit _ _ _, h => Or.inl h
  | _, _, .not a, h => Ok.width (e := a) h
  | _, _, .and a _, h | _, _, .or a _, h | _, _, .xor a _, h | _, _, .neg a, h | _, _, .add a _, h
  | _, _, .sub a _, h | _, _, .mul a _, h | _, _, .div a _, h | _, _, .mod a _, h | _, _, .shr a _, h
  | _, _, .shl a _, h | _, _, .ashr a _, h | _, _, .cast _ a, h => Ok.width (e := a) h.1
  | _, _, .ext _ _, h => Or.inl h.2.1
  | _, _, .eq _ _, _ | _, _, .lt _ _, _ | _, _, .le _ _, _ | _, _, .same _ _, _ | _, _, .lnot _, _ => Or.inr rfl
  | _, _, .cond _ a _, h => Ok.width (e := a) h.2.1

theorem Ok.le {e : ExL m t} (h : e.Ok) : 0 < m ∧ m ≤ 64 := by
  rcases Ok.width h with (h | h | h | h) | h <;> omega

end ExL

/-- the outcome of the library is the reference value, or a fault if that is undefined -/
def SemL (r : Res (Lg n s)) (o : Option (Vec n)) : Prop :=
  match o with
  | some v => ∃ x, r = .ok x ∧ x.vec = v
  | none => ∃ f, r = .error f

namespace SemL

theorem bind {k : Nat} {u : Bool} {r : Res (Lg n s)} {o : Option (Vec n)} (h : SemL r o)
    {f : Lg n s → Res (Lg k u)} {g : Vec n → Option (Vec k)} (hf : ∀ x, SemL (f x) (g x.vec)) :
    SemL (r.bind f) (o.bind g) := by
  cases o with
  | none => obtain ⟨e, rfl⟩ := h; exact ⟨e, rfl⟩
  | some v => obtain ⟨x, rfl, rfl⟩ := h; exact hf x

theorem map {k : Nat} {u : Bool} {r : Res (Lg n s)} {o : Option (Vec n)} (h : SemL r o)
    {f : Lg n s → Lg k u} {g : Vec n → Vec k} (hf : ∀ x, (f x).vec = g x.vec) :
    SemL (r.map f) (o.map g) := by
  cases o with
  | none => obtain ⟨e, rfl⟩ := h; exact ⟨e, rfl⟩
  | some v => obtain ⟨x, rfl, rfl⟩ := h; exact ⟨_, rfl, hf x⟩

theorem bindMap {k : Nat} {u : Bool} {r : Res (Lg n s)} {o : Option (Vec n)} (h : SemL r o)
    {f : Lg n s → Res (Lg k u)} {g : Vec n → Vec k} (hf : ∀ x, ∃ y, f x = .ok y ∧ y.vec = g x.vec) :
    SemL (r.bind f) (o.map g) := by
  cases o with
  | none => obtain ⟨e, rfl⟩ := h; exact ⟨e, rfl⟩
  | some v => obtain ⟨x, rfl, rfl⟩ := h; exact hf x

end SemL

namespace Lg

theorem get_vec (x : Lg n s) {i : Nat} (hi : i < n) : RefL.get x.vec i = x.at i := by
  rw [RefL.get, dif_pos hi]; rfl

theorem vec_eq {x : Lg n s} {v : Vec n} (h : ∀ i (hi : i < n), x.at i = v ⟨i, hi⟩) : x.vec = v := by
  funext i; exact h i i.2

theorem known_vec {x : Lg n s} (hx : x.xz.Clean) : RefL.known x.vec ↔ x.Known :=
  ⟨fun h => ⟨hx, fun i hi => h ⟨i, hi⟩⟩, fun h i => h.2 i i.2⟩

theorem num_vec {x : Lg n s} (hx : x.Known) : RefL.num x.vec = x.value.bv := by
  apply BitVec.eq_of_getLsbD_eq
  intro i hi
  rw [RefL.num, getLsbD_bitsOf _ _ _ hi, get_vec x hi, hx.at hi]
  cases x.value.bv.getLsbD i <;> rfl

/-- an object whose x/z plane is 0 -/
theorem vec_known {v : Bits n s} {k : Bits n false} (hk : k.bv = 0) : (⟨v, k⟩ : Lg n s).vec = RefL.ofBV v.bv := by
  funext i
  show V4.mk (v.bv.getLsbD i) (k.bv.getLsbD i) = V4.ofBool _
  rw [hk]
  cases h : v.bv.getLsbD i <;> simp [V4.mk, V4.ofBool]

theorem bv_zero : (Bits.zero : Bits n s).bv = 0 := by
  apply BitVec.eq_of_getLsbD_eq
  intro i hi
  rw [Bits.getLsbD_bv, Bits.raw_zero]; simp

theorem anySet_vec (h : n ≤ 64) {x : Lg n s} (hx : x.xz.Clean) : x.xz.anySet = !decide (RefL.known x.vec) := by
  by_cases hk : RefL.known x.vec
  · rw [((known_vec hx).1 hk).anySet]; simp [hk]
  · simp only [hk, decide_false, Bool.not_false]
    rw [RefL.known] at hk
    push Not at hk
    obtain ⟨i, hi⟩ := hk
    exact anySet_of_unknown i.2 (Or.inl h) (by simpa [vec] using hi)

theorem sem_dflt (hn : 0 < n) : SemL (dflt : Res (Lg n s)) (some RefL.allX) := by
  obtain ⟨y, hy, h⟩ := dflt_at (n := n) (s := s) hn
  exact ⟨y, hy, vec_eq fun i hi => h i hi⟩

end Lg

/-- an outcome of the value plane with an x/z plane of 0 -/
theorem Sem.lift {r : Res (Bits n s)} {o : Option (BitVec n)} (h : Sem r o) :
    SemL (r.map fun v => (⟨v, Bits.zero⟩ : Lg n s)) (o.map RefL.ofBV) := by
  cases o with
  | none => obtain ⟨e, rfl⟩ := h; exact ⟨e, rfl⟩
  | some v => obtain ⟨x, rfl, rfl⟩ := h; exact ⟨_, rfl, Lg.vec_known Lg.bv_zero⟩

section ops

variable (h : ExI.W n ∨ n = 1)
include h

theorem ExI.W.pos' : 0 < n ∧ n ≤ 64 := by rcases h with (h | h | h | h) | h <;> omega

theorem semL_arith (f : Bits n s → Bits n t → Res (Bits n (s && t))) (g : BitVec n → BitVec n → Option (BitVec n))
    (hf : ∀ a b, Sem (f a b) (g a.bv b.bv)) (x : Lg n s) (y : Lg n t) :
    SemL (Lg.arithWith f x y) (RefL.op2 g x.vec y.vec) := by
  obtain ⟨hn, h64⟩ := ExI.W.pos' h
  have cx := ExI.W.clean h x.xz
  have cy := ExI.W.clean h y.xz
  rw [Lg.arithWith, Lg.anySet_vec h64 cx, Lg.anySet_vec h64 cy, RefL.op2]
  by_cases hx : RefL.known x.vec
  · by_cases hy : RefL.known y.vec
    · rw [if_neg (by simp [hx, hy]), if_pos ⟨hx, hy⟩, Lg.num_vec ((Lg.known_vec cx).1 hx),
        Lg.num_vec ((Lg.known_vec cy).1 hy)]
      exact (hf _ _).lift
    · rw [if_pos (by simp [hy]), if_neg (by simp [hy])]
      exact Lg.sem_dflt hn
  · rw [if_pos (by simp [hx]), if_neg (by simp [hx])]
    exact Lg.sem_dflt hn

theorem semL_div (f : Bits n s → Bits n t → Res (Bits n (s && t))) (g : BitVec n → BitVec n → Option (BitVec n))
    (hf : ∀ a b, Sem (f a b) (g a.bv b.bv)) (x : Lg n s) (y : Lg n t) :
    SemL (Lg.divWith f x y) (RefL.divOp g x.vec y.vec) := by
  obtain ⟨hn, h64⟩ := ExI.W.pos' h
  have cx := ExI.W.clean h x.xz
  have cy := ExI.W.clean h y.xz
  rw [Lg.divWith, Lg.anySet_vec h64 cx, Lg.anySet_vec h64 cy, Bits.anySet_native h64 (ExI.W.clean h y.value),
    RefL.divOp]
  by_cases hk : RefL.known x.vec ∧ RefL.known y.vec
  · rw [Lg.num_vec ((Lg.known_vec cx).1 hk.1), Lg.num_vec ((Lg.known_vec cy).1 hk.2)]
    by_cases h0 : y.value.bv = 0
    · rw [if_pos (by simp [h0]), if_neg (by simp [h0])]
      exact Lg.sem_dflt hn
    · rw [if_neg (by simp [hk.1, hk.2]; exact h0), if_pos ⟨hk.1, hk.2, h0⟩]
      exact (hf _ _).lift
  · rw [if_pos (by rw [not_and_or] at hk; rcases hk with hk | hk <;> simp [hk]), if_neg fun hc => hk ⟨hc.1, hc.2.1⟩]
    exact Lg.sem_dflt hn

theorem semL_neg (f : Bits n s → Res (Bits n s)) (g : BitVec n → Option (BitVec n))
    (hf : ∀ a, Sem (f a) (g a.bv)) (x : Lg n s) :
    SemL (if x.xz.anySet then Lg.dflt else (f x.value).map fun v => (⟨v, Bits.zero⟩ : Lg n s)) (RefL.op1 g x.vec) := by
  obtain ⟨hn, h64⟩ := ExI.W.pos' h
  have cx := ExI.W.clean h x.xz
  rw [Lg.anySet_vec h64 cx, RefL.op1]
  by_cases hx : RefL.known x.vec
  · rw [if_neg (by simp [hx]), if_pos hx, Lg.num_vec ((Lg.known_vec cx).1 hx)]
    exact (hf _).lift
  · rw [if_pos (by simp [hx]), if_neg hx]
    exact Lg.sem_dflt hn

theorem semL_shift (hm : ExI.W m ∨ m = 1) (f : {s' : Bool} → Bits n s' → Bits m t → Res (Bits n (s' && t)))
    (g : Bool → BitVec n → BitVec m → Option (BitVec n))
    (hf : ∀ (s' : Bool) (a : Bits n s') (b : Bits m t), Sem (f a b) (g s' a.bv b.bv))
    (h0 : ∀ (v w : BitVec n) (b : BitVec m), g s v b = some w → g false 0 b = some 0) (x : Lg n s) (y : Lg m t) :
    SemL (Lg.shiftWith f x y) (RefL.op2 (g s) x.vec y.vec) := by
  obtain ⟨hn, h64⟩ := ExI.W.pos' h
  have cx := ExI.W.clean h x.xz
  have cy := ExI.W.clean hm y.xz
  rw [RefL.op2]
  by_cases hk : RefL.known x.vec ∧ RefL.known y.vec
  · have kx := (Lg.known_vec cx).1 hk.1
    have ky := (Lg.known_vec cy).1 hk.2
    rw [if_pos hk, Lg.num_vec kx, Lg.num_vec ky]
    have hv := hf s x.value y.value
    have hz := hf false x.xz y.value
    rw [kx.bv_xz] at hz
    cases hg : g s x.value.bv y.value.bv with
    | none =>
      rw [hg] at hv
      obtain ⟨e, he⟩ := hv
      obtain ⟨d, hd, -, -⟩ := Lg.dflt_ok (n := n) (s := s && t) hn
      refine ⟨e, ?_⟩
      rw [Lg.shiftWith, hd, res_bind_ok, if_neg (by simp [kx.anySet, ky.anySet]), he]
      rfl
    | some w =>
      rw [hg] at hv
      rw [h0 _ _ _ hg] at hz
      obtain ⟨v, hv, rfl⟩ := hv
      obtain ⟨k, hk, ek⟩ := hz
      exact ⟨_, Lg.shiftWith_known hn f kx ky hv hk, Lg.vec_known ek⟩
  · rw [if_neg hk]
    have : y.xz.anySet = true ∨ x.xz.anySet = true := by
      rw [Lg.anySet_vec h64 cx, Lg.anySet_vec (ExI.W.pos' hm).2 cy]
      rw [not_and_or] at hk
      rcases hk with hk | hk <;> simp [hk]
    obtain ⟨z, hz, e⟩ := Lg.shiftWith_x hn f x y this
    exact ⟨z, hz, Lg.vec_eq fun i hi => e i hi⟩

theorem semL_rel (hm : ExI.W m ∨ m = 1) (f : Bits n s → Bits m t → Res Bool) (g : BitVec n → BitVec m → Bool)
    (hf : ∀ a b, f a b = .ok (g a.bv b.bv)) (x : Lg n s) (y : Lg m t) :
    SemL (Lg.relWith f x y) (RefL.op2 (fun v w => some (BitVec.ofBool (g v w))) x.vec y.vec) := by
  obtain ⟨hn, h64⟩ := ExI.W.pos' h
  have cx := ExI.W.clean h x.xz
  have cy := ExI.W.clean hm y.xz
  rw [Lg.relWith, Lg.anySet_vec h64 cx, Lg.anySet_vec (ExI.W.pos' hm).2 cy, RefL.op2]
  by_cases hk : RefL.known x.vec ∧ RefL.known y.vec
  · rw [if_neg (by simp [hk.1, hk.2]), if_pos hk, Lg.num_vec ((Lg.known_vec cx).1 hk.1),
      Lg.num_vec ((Lg.known_vec cy).1 hk.2), hf]
    refine ⟨_, rfl, Lg.vec_eq fun i hi => ?_⟩
    obtain rfl : i = 0 := by omega
    rw [Lg.known1_at]
    show _ = V4.ofBool ((BitVec.ofBool _).getLsbD 0)
    cases g x.value.bv y.value.bv <;> rfl
  · rw [if_neg hk, if_pos (by rw [not_and_or] at hk; rcases hk with hk | hk <;> simp [hk])]
    refine ⟨_, rfl, Lg.vec_eq fun i hi => ?_⟩
    obtain rfl : i = 0 := by omega
    exact Lg.x1_at

end ops

theorem Bits.eq_width (ha : ExI.W n ∨ n = 1) (x : Bits n s) (y : Bits n t) : x.eq y = decide (x.bv = y.bv) := by
  obtain ⟨hn, h1⟩ := ExI.W.pos' ha
  have hf : Full n := by rw [Full]; rcases ha with (h | h | h | h) | h <;> simp [h]
  rw [(C38_eq_partial hn (by omega) x y (ExI.W.clean ha x) (ExI.W.clean ha y)).1]
  simp [hf]

theorem andDeviation_eq (p q : V4) : (andDeviation p q).getD (V4.and p q) = RefL.and p q := by
  cases p <;> cases q <;> rfl

theorem orDeviation_eq (p q : V4) : (orDeviation p q).getD (V4.or p q) = RefL.or p q := by
  cases p <;> cases q <;> rfl

/-- the value bit under a 4-state bit -/
theorem Lg.value_bit (x : Lg n s) (i : Nat) : x.value.bv.getLsbD i = (x.at i == .b1 || x.at i == .z) := by
  rw [Lg.at]
  cases x.value.bv.getLsbD i <;> cases x.xz.bv.getLsbD i <;> rfl

theorem Lg.toBool_vec (x : Lg 1 false) : x.toBool = decide (x.vec 0 = .b1) := by
  have cx : x.Clean := ⟨ExI.W.clean (Or.inr rfl) _, ExI.W.clean (Or.inr rfl) _⟩
  rw [Bool.eq_iff_iff, C22_bool_native (by decide) x cx, decide_eq_true_iff]
  constructor
  · rintro ⟨-, i, hi, e⟩
    obtain rfl : i = 0 := by omega
    exact e
  · intro e
    have e' : x.at 0 = .b1 := e
    refine ⟨fun i hi => ?_, 0, by decide, e'⟩
    obtain rfl : i = 0 := by omega
    rw [e']; rfl

/-- **C128, partial.** A well-formed expression over the 4-state integer types, of any size and nesting,
over any objects: the library evaluation gives the reference vector if that is defined, and
faults if and only if it is not. Missing: as for C125 (`C128_refuted`). -/
theorem C128_expr_partial (σ : ObjsL) : {n : Nat} → {s : Bool} → (e : ExL n s) → e.Ok →
    SemL (e.run σ) (e.den fun n s i => (σ n s i).vec)
  | _, _, .var n s i, _ => ⟨_, rfl, rfl⟩
  | _, _, .lit n s k, ho => ⟨_, rfl, by
      show (⟨Bits.ofInt k, Bits.zero⟩ : Lg n s).vec = _
      rw [Lg.vec_known Lg.bv_zero, C60_bits (ExI.W.pos ho).1 (ExI.W.pos ho).2 k]⟩
  | _, _, .dflt n s, ho => Lg.sem_dflt (by rcases ho with (h | h | h | h) | h <;> omega)
  | _, _, .not a, ho => (C128_expr_partial σ a ho).bindMap fun x => by
    obtain ⟨z, hz, e⟩ := C09_not_table (ExL.Ok.le (e := a) ho).1 x
    exact ⟨z, hz, Lg.vec_eq fun i hi => e i hi⟩
  | _, _, .and a b, ho => (C128_expr_partial σ a ho.1).bind fun x => (C128_expr_partial σ b ho.2.1).bindMap fun y => by
    obtain ⟨z, hz, e⟩ := C10_and_table_partial (ExL.Ok.le ho.1).1 x y
    exact ⟨z, hz, Lg.vec_eq fun i hi => by rw [e i hi, andDeviation_eq]; rfl⟩
  | _, _, .or a b, ho => (C128_expr_partial σ a ho.1).bind fun x => (C128_expr_partial σ b ho.2.1).bindMap fun y => by
    obtain ⟨z, hz, e⟩ := C11_or_table_partial (ExL.Ok.le ho.1).1 x y
    exact ⟨z, hz, Lg.vec_eq fun i hi => by rw [e i hi, orDeviation_eq]; rfl⟩
  | _, _, .xor a b, ho => (C128_expr_partial σ a ho.1).bind fun x => (C128_expr_partial σ b ho.2.1).bindMap fun y => by
    obtain ⟨z, hz, e⟩ := C08_xor_table (ExL.Ok.le ho.1).1 x y
    exact ⟨z, hz, Lg.vec_eq fun i hi => e i hi⟩
  | n, _, .neg a, ho => (C128_expr_partial σ a ho.1).bind fun x => by
    have h64 := (ExI.W.pos ho.2).2
    rw [dif_pos h64, Lg.neg]
    exact semL_neg (Or.inl ho.2) (fun v => v.neg h64) _ (fun v => sem_neg ho.2 v h64) x
  | _, _, .add a b, ho => (C128_expr_partial σ a ho.1).bind fun x => (C128_expr_partial σ b ho.2.1).bind fun y =>
    semL_arith (Or.inl ho.2.2) _ _ (fun v w => sem_add ho.2.2 v w) x y
  | _, _, .sub a b, ho => (C128_expr_partial σ a ho.1).bind fun x => (C128_expr_partial σ b ho.2.1).bind fun y =>
    semL_arith (Or.inl ho.2.2) _ _ (fun v w => sem_sub ho.2.2 v w) x y
  | _, _, .mul a b, ho => (C128_expr_partial σ a ho.1).bind fun x => (C128_expr_partial σ b ho.2.1).bind fun y =>
    semL_arith (Or.inl ho.2.2) _ _ (fun v w => sem_mul ho.2.2 v w) x y
  | _, _, .div a b, ho => (C128_expr_partial σ a ho.1).bind fun x => (C128_expr_partial σ b ho.2.1).bind fun y =>
    semL_div (Or.inl ho.2.2.1) _ _ (fun v w => (sem_div_mod_mix ho.2.2.1 ho.2.2.2 v w).1) x y
  | _, _, .mod a b, ho => (C128_expr_partial σ a ho.1).bind fun x => (C128_expr_partial σ b ho.2.1).bind fun y =>
    semL_div (Or.inl ho.2.2.1) _ _ (fun v w => (sem_div_mod_mix ho.2.2.1 ho.2.2.2 v w).2) x y
  | _, _, .shr (t := t) a k, ho => (C128_expr_partial σ a ho.1).bind fun x => (C128_expr_partial σ k ho.2.1).bind fun y =>
    semL_shift (Or.inl ho.2.2.1) (ExL.Ok.width ho.2.1) Bits.shr (fun _ v w => RefI.shr v (numOf t w))
      (fun _ v w => sem_shr ho.2.2.1 ho.2.2.2 v w (ExI.W.clean (ExL.Ok.width ho.2.1) w))
      (fun v w b e => by
        simp only [RefI.shr] at e ⊢
        split_ifs at e with hc
        rw [if_pos hc]; simp) x y
  | _, _, .shl (t := t) a k, ho => (C128_expr_partial σ a ho.1).bind fun x => (C128_expr_partial σ k ho.2.1).bind fun y =>
    semL_shift (Or.inl ho.2.2.1) (ExL.Ok.width ho.2.1) Bits.shl (fun _ v w => RefI.shl v (numOf t w))
      (fun _ v w => sem_shl ho.2.2.1 ho.2.2.2 (ExL.Ok.le ho.2.1).1 v w (ExI.W.clean (ExL.Ok.width ho.2.1) w))
      (fun v w b e => by
        simp only [RefI.shl] at e ⊢
        split_ifs at e with hc
        rw [if_pos hc]; simp) x y
  | _, _, .ashr (s := s) (t := t) a k, ho => (C128_expr_partial σ a ho.1).bind fun x => (C128_expr_partial σ k ho.2.1).bind fun y =>
    semL_shift (Or.inl ho.2.2.1) (ExL.Ok.width ho.2.1) Bits.ashr (fun s v w => RefI.ashr s v (numOf t w))
      (fun _ v w => sem_ashr ho.2.2.1 ho.2.2.2 (ExL.Ok.le ho.2.1).1 v w (ExI.W.clean (ExL.Ok.width ho.2.1) w))
      (fun v w b e => by
        simp only [RefI.ashr] at e ⊢
        revert e
        split_ifs <;> simp_all) x y
  | _, s, .ext (n := n) m a, ho => (C128_expr_partial σ a ho.1).map fun x => by
    have hw := ExL.Ok.width ho.1
    have hl := ExL.Ok.le ho.1
    refine Lg.vec_eq fun i hi => ?_
    rw [Lg.extend_at hl.1 ho.2.2 x ⟨ExI.W.clean hw _, ExI.W.clean hw _⟩ (fun h => by omega) hi, extAt, RefL.ext]
    show _ = if i < n then _ else _
    by_cases hin : i < n
    · rw [if_pos hin, if_pos hin, Lg.get_vec x hin]
    · rw [if_neg hin, if_neg hin, Lg.get_vec x (by omega), ← Lg.value_bit, BitVec.msb_eq_getLsbD_last]
      congr 3
      rw [← decide_not, decide_eq_decide]; omega
  | _, _, .cast true a, ho => by
    have := (C128_expr_partial σ a ho.1).map (f := fun x => x.toSigned) (g := id) fun x => by
      refine Lg.vec_eq fun i hi => ?_
      show V4.mk (x.value.toSigned.bv.getLsbD i) _ = _
      rw [(C58_bits x.value).1]; rfl
    rw [Option.map_id_fun, id] at this
    exact this
  | _, _, .cast false a, ho => by
    have := (C128_expr_partial σ a ho.1).map (f := fun x => x.toUnsigned) (g := id) fun x => by
      refine Lg.vec_eq fun i hi => ?_
      show V4.mk (x.value.toUnsigned.bv.getLsbD i) _ = _
      rw [(C58_bits x.value).2.1]; rfl
    rw [Option.map_id_fun, id] at this
    exact this
  | _, _, .eq a b, ho => (C128_expr_partial σ a ho.1).bind fun x => (C128_expr_partial σ b ho.2).bind fun y =>
    semL_rel (ExL.Ok.width ho.1) (ExL.Ok.width ho.1) _ (fun v w => decide (v = w))
      (fun v w => by rw [Bits.eq_width (ExL.Ok.width ho.1)]) x y
  | _, _, .lt (s := s) (t := t) a b, ho => (C128_expr_partial σ a ho.1).bind fun x => (C128_expr_partial σ b ho.2.1).bind fun y =>
    semL_rel (ExL.Ok.width ho.1) (ExL.Ok.width ho.2.1) _ (fun v w => decide (numOf (s && t) v < numOf (s && t) w))
      (fun v w => (Bits.lt_le_mix (ExL.Ok.width ho.1) (ExL.Ok.width ho.2.1) ho.2.2 v w).1) x y
  | _, _, .le (s := s) (t := t) a b, ho => (C128_expr_partial σ a ho.1).bind fun x => (C128_expr_partial σ b ho.2.1).bind fun y =>
    semL_rel (ExL.Ok.width ho.1) (ExL.Ok.width ho.2.1) _ (fun v w => decide (numOf (s && t) v ≤ numOf (s && t) w))
      (fun v w => (Bits.lt_le_mix (ExL.Ok.width ho.1) (ExL.Ok.width ho.2.1) ho.2.2 v w).2) x y
  | _, _, .same (n := n) a b, ho => (C128_expr_partial σ a ho.1).bind fun x => (C128_expr_partial σ b ho.2).map fun y => by
    have hw := ExL.Ok.width ho.1
    have hl := ExL.Ok.le ho.1
    have hf : Full n := by rw [Full]; rcases hw with (h | h | h | h) | h <;> simp [h]
    have hm := (C44_match_partial hl.1 (by omega) x y ⟨ExI.W.clean hw _, ExI.W.clean hw _⟩
      ⟨ExI.W.clean hw _, ExI.W.clean hw _⟩).1
    have he : x.matches' y = decide (∀ i, x.vec i = y.vec i) := by
      rw [hm, decide_eq_decide]
      exact ⟨fun h i => h.1 i i.2, fun h => ⟨fun i hi => h ⟨i, hi⟩, Or.inr (Or.inl hf)⟩⟩
    show (⟨Bits.ofInt (x.matches' y).toNat, Bits.zero⟩ : Lg 1 false).vec = _
    rw [Lg.vec_known Lg.bv_zero, (Bits.ofInt_bool _).2, he]
  | _, _, .lnot (n := n) a, ho => (C128_expr_partial σ a ho).map fun x => by
    have hw := ExL.Ok.width (e := a) ho
    have hl := ExL.Ok.le (e := a) ho
    have cx := ExI.W.clean hw x.xz
    refine Lg.vec_eq fun i hi => ?_
    obtain rfl : i = 0 := by omega
    rw [RefL.lnot]
    by_cases hk : RefL.known x.vec
    · rw [if_pos hk, Lg.num_vec ((Lg.known_vec cx).1 hk), Lg.lnot, if_neg (by rw [Lg.anySet_vec hl.2 cx]; simp [hk]),
        Bits.anySet_native hl.2 (ExI.W.clean hw x.value)]
      by_cases h0 : x.value.bv = 0
      · rw [if_neg (by simp [h0]), decide_eq_true h0]; rfl
      · rw [if_pos (by simp; exact h0), decide_eq_false h0]; rfl
    · rw [if_neg hk, Lg.lnot, if_pos (by rw [Lg.anySet_vec hl.2 cx]; simp [hk])]
      exact Lg.x1_at
  | _, _, .cond c a b, ho => (C128_expr_partial σ c ho.1).bind fun x => by
    rw [Lg.toBool_vec]
    by_cases h1 : x.vec 0 = .b1
    · simp only [h1, decide_true, if_true]; exact C128_expr_partial σ a ho.2.1
    · simp only [h1, decide_false, if_false, Bool.false_eq_true]; exact C128_expr_partial σ b ho.2.2

/-! ## Programs -/

/-- the reference values with one variable replaced -/
def ValsL.put (ρ : ValsL) (n : Nat) (s : Bool) (i : Nat) (v : Vec n) : ValsL := fun m t j =>
  if h : m = n ∧ t = s then (if j = i then h.1 ▸ v else ρ m t j) else ρ m t j

namespace StL

/-- **Reference semantics** of programs: `none` when the fuel is used up, `some none` when an
operation is undefined. An assignment widens (`RefL.ext`) or truncates; a condition that is x or z counts as false. -/
def den : Nat → StL → ValsL → Option (Option ValsL)
  | 0, _, _ => none
  | _ + 1, .skip, ρ => some (some ρ)
  | _ + 1, .assign n s i (t := t) e, ρ => some ((e.den ρ).map fun v => ρ.put n s i (RefL.ext t n v))
  | _ + 1, .inc n s i, ρ => some ((RefL.op1 (fun v => some (v + 1)) (ρ n s i)).map fun v => ρ.put n s i v)
  | _ + 1, .dec n s i, ρ => some ((RefL.op1 (fun v => some (v - 1)) (ρ n s i)).map fun v => ρ.put n s i v)
  | f + 1, .seq a b, ρ =>
      match den f a ρ with
      | none => none
      | some none => some none
      | some (some ρ') => den f b ρ'
  | f + 1, .ite c a b, ρ =>
      match c.den ρ with
      | none => some none
      | some v => if v 0 = .b1 then den f a ρ else den f b ρ
  | f + 1, .loop c a, ρ =>
      match c.den ρ with
      | none => some none
      | some v =>
        if v 0 = .b1 then
          match den f a ρ with
          | none => none
          | some none => some none
          | some (some ρ') => den f (.loop c a) ρ'
        else some (some ρ)

/-- **Well-formed programs**: the expressions are, the targets are integer types or, for one bit
sources, `logic<0>`. -/
def Ok : StL → Prop
  | .skip => True
  | .assign n s _ (m := m) e => e.Ok ∧ (ExI.W n ∨ n = 1 ∧ s = false ∧ m = 1)
  | .inc n _ _ | .dec n _ _ => ExI.W n
  | .seq a b => Ok a ∧ Ok b
  | .ite c a b => c.Ok ∧ Ok a ∧ Ok b
  | .loop c a => c.Ok ∧ Ok a

/-- more fuel does not change the outcome -/
theorem den_mono : (f : Nat) → (p : StL) → (ρ : ValsL) → (o : Option ValsL) → p.den f ρ = some o →
    (k : Nat) → p.den (f + k) ρ = some o
  | 0, _, _, _, h, _ => absurd h (by simp [den])
  | f + 1, p, ρ, o, h, k => by
    rw [Nat.add_right_comm]
    cases p with
    | skip => exact h
    | assign n s i e => exact h
    | inc n s i => exact h
    | dec n s i => exact h
    | seq a b =>
      rw [den] at h ⊢
      cases ha : a.den f ρ with
      | none => rw [ha] at h; exact absurd h (by simp)
      | some r =>
        rw [ha] at h
        rw [den_mono f a ρ r ha k]
        cases r with
        | none => exact h
        | some ρ' => exact den_mono f b ρ' o h k
    | ite c a b =>
      rw [den] at h ⊢
      cases hc : c.den ρ with
      | none => rw [hc] at h; exact h
      | some v =>
        rw [hc] at h
        simp only at h ⊢
        split_ifs at h ⊢
        · exact den_mono f a ρ o h k
        · exact den_mono f b ρ o h k
    | loop c a =>
      rw [den] at h ⊢
      cases hc : c.den ρ with
      | none => rw [hc] at h; exact h
      | some v =>
        rw [hc] at h
        simp only at h ⊢
        split_ifs at h ⊢
        · cases ha : a.den f ρ with
          | none => rw [ha] at h; exact absurd h (by simp)
          | some r =>
            rw [ha] at h
            rw [den_mono f a ρ r ha k]
            cases r with
            | none => exact h
            | some ρ' => exact den_mono f (.loop c a) ρ' o h k
        · exact h

end StL

/-- the values the objects hold -/
def ObjsL.vals (σ : ObjsL) : ValsL := fun n s i => (σ n s i).vec

theorem ObjsL.vals_put (σ : ObjsL) (n : Nat) (s : Bool) (i : Nat) (x : Lg n s) :
    (σ.put n s i x).vals = σ.vals.put n s i x.vec := by
  funext m t j
  simp only [vals, put, ValsL.put]
  by_cases h : m = n ∧ t = s
  · obtain ⟨rfl, rfl⟩ := h
    simp only [and_self, dif_pos]
    split_ifs <;> rfl
  · rw [dif_neg h, dif_neg h]

/-- the execution of the library is the reference execution: it ends in the same number of
steps, with the same values or with a fault where that is undefined -/
def SemPL (r : Option (Res ObjsL)) (o : Option (Option ValsL)) : Prop :=
  match o with
  | none => r = none
  | some none => ∃ e, r = some (.error e)
  | some (some ρ) => ∃ σ, r = some (.ok σ) ∧ σ.vals = ρ

theorem Lg.assign_vec {e : ExL m t} (he : e.Ok) (hn : n ≤ 64) (h : ExI.W n ∨ n = 1 ∧ s = false ∧ m = 1)
    (x : Lg m t) : (x.assignNat hn : Lg n s).vec = RefL.ext t n x.vec := by
  have hw := ExL.Ok.width he
  have hl := he.le
  have cx : x.Clean := ⟨ExI.W.clean hw _, ExI.W.clean hw _⟩
  refine Lg.vec_eq fun i hi => ?_
  rw [RefL.ext]
  show _ = if i < m then _ else _
  rcases h with h | ⟨rfl, rfl, rfl⟩
  · rw [C93_assign_logic_exact hl.2 hn h.pos.1 x cx i hi]
    by_cases hin : i < m
    · rw [if_pos hin, if_pos hin, Lg.get_vec x hin]
    · rw [if_neg hin, if_neg hin, Lg.get_vec x (by omega), ← Lg.value_bit]
  · rw [if_pos hi, Lg.get_vec x hi]
    have e : ∀ {u : Bool} (b : Bits 1 u), b.Clean → (b.assignNat hn : Bits 1 false).bv = b.bv := by
      intro u b hb
      rw [C93_one_bit (by decide) b hb]
      generalize b.bv = b
      revert b; decide
    show V4.mk ((x.value.assignNat hn : Bits 1 false).bv.getLsbD i) ((x.xz.assignNat hn : Bits 1 false).bv.getLsbD i) = _
    rw [e _ cx.1, e _ cx.2]; rfl

theorem Lg.sem_inc_dec (h : ExI.W n) (x : Lg n s) :
    SemL x.inc (RefL.op1 (fun v => some (v + 1)) x.vec) ∧ SemL x.dec (RefL.op1 (fun v => some (v - 1)) x.vec) := by
  have hp := h.pos
  have cx := ExI.W.clean (Or.inl h) x.xz
  rw [RefL.op1, RefL.op1]
  by_cases hk : RefL.known x.vec
  · have kx := (Lg.known_vec cx).1 hk
    rw [if_pos hk, if_pos hk, Lg.num_vec kx]
    obtain ⟨⟨z, hz, kz, ez, -⟩, ⟨w, hw, kw, ew, -⟩⟩ := C36_inc_dec_logic_partial hp.1 x kx
    refine ⟨⟨z, hz, ?_⟩, ⟨w, hw, ?_⟩⟩
    · rw [← ez]; exact Lg.vec_known kz.bv_xz
    · rw [← ew]; exact Lg.vec_known kw.bv_xz
  · rw [if_neg hk, if_neg hk]
    have hx : x.xz.anySet = true := by rw [Lg.anySet_vec hp.2 cx]; simp [hk]
    obtain ⟨d, hd, he⟩ := Lg.dflt_at (n := n) (s := s && false) (by omega)
    have e : (Lg.toSign s d).vec = RefL.allX := by
      refine Lg.vec_eq fun i hi => ?_
      have := he i hi
      rw [Lg.at] at this ⊢
      show V4.mk ((d.value.toSign s).bv.getLsbD i) _ = _
      rw [Bits.bv_toSign]
      exact this
    constructor
    · refine ⟨_, ?_, e⟩
      rw [Lg.inc, Lg.add, Lg.arithWith, if_pos (by simp [hx]), hd]; rfl
    · refine ⟨_, ?_, e⟩
      rw [Lg.dec, Lg.sub, Lg.arithWith, if_pos (by simp [hx]), hd]; rfl

/-- **C129, partial.** Every well-formed program, every number of steps, every initial objects: the
execution of the library and the reference execution agree, faults included. Missing: programs with expressions that are not well-formed (`C128_refuted`). -/
theorem C129_program_partial : (f : Nat) → (p : StL) → p.Ok → (σ : ObjsL) → SemPL (p.run f σ) (p.den f σ.vals)
  | 0, _, _, _ => rfl
  | _ + 1, .skip, _, σ => ⟨σ, rfl, rfl⟩
  | _ + 1, .assign n s i (m := m) (t := t) e, ho, σ => by
    have hn : n ≤ 64 := by rcases ho.2 with (h | h | h | h) | h <;> omega
    have he := C128_expr_partial σ e ho.1
    rw [StL.run, StL.den, dif_pos hn]
    change SemL _ (e.den σ.vals) at he
    cases hd : e.den σ.vals with
    | none => rw [hd] at he; obtain ⟨x, hx⟩ := he; exact ⟨x, by rw [hx]; rfl⟩
    | some v =>
      rw [hd] at he
      obtain ⟨x, hx, rfl⟩ := he
      refine ⟨_, by rw [hx]; rfl, ?_⟩
      rw [ObjsL.vals_put, Lg.assign_vec ho.1 hn ho.2]
  | _ + 1, .inc n s i, ho, σ => by
    have := (Lg.sem_inc_dec ho (σ n s i)).1
    rw [StL.run, StL.den]
    change SemL _ (RefL.op1 (fun v => some (v + 1)) (σ.vals n s i)) at this
    cases hd : RefL.op1 (fun v => some (v + 1)) (σ.vals n s i) with
    | none => rw [hd] at this; obtain ⟨e, h⟩ := this; exact ⟨e, by rw [h]; rfl⟩
    | some v =>
      rw [hd] at this
      obtain ⟨x, h, rfl⟩ := this
      exact ⟨_, by rw [h]; rfl, by rw [ObjsL.vals_put]⟩
  | _ + 1, .dec n s i, ho, σ => by
    have := (Lg.sem_inc_dec ho (σ n s i)).2
    rw [StL.run, StL.den]
    change SemL _ (RefL.op1 (fun v => some (v - 1)) (σ.vals n s i)) at this
    cases hd : RefL.op1 (fun v => some (v - 1)) (σ.vals n s i) with
    | none => rw [hd] at this; obtain ⟨e, h⟩ := this; exact ⟨e, by rw [h]; rfl⟩
    | some v =>
      rw [hd] at this
      obtain ⟨x, h, rfl⟩ := this
      exact ⟨_, by rw [h]; rfl, by rw [ObjsL.vals_put]⟩
  | f + 1, .seq a b, ho, σ => by
    have ha := C129_program_partial f a ho.1 σ
    rw [StL.run, StL.den]
    cases hd : a.den f σ.vals with
    | none => rw [hd] at ha; rw [show a.run f σ = none from ha]; rfl
    | some o =>
      rw [hd] at ha
      cases o with
      | none => obtain ⟨e, h⟩ := ha; rw [h]; exact ⟨e, rfl⟩
      | some ρ =>
        obtain ⟨σ', h, rfl⟩ := ha
        rw [h]
        exact C129_program_partial f b ho.2 σ'
  | f + 1, .ite c a b, ho, σ => by
    have hc := C128_expr_partial σ c ho.1
    change SemL _ (c.den σ.vals) at hc
    rw [StL.run, StL.den]
    cases hd : c.den σ.vals with
    | none => rw [hd] at hc; obtain ⟨e, h⟩ := hc; rw [h]; exact ⟨e, rfl⟩
    | some v =>
      rw [hd] at hc
      obtain ⟨x, h, rfl⟩ := hc
      rw [h]
      simp only [Lg.toBool_vec]
      by_cases h1 : x.vec 0 = .b1
      · simp only [h1, decide_true, if_true]; exact C129_program_partial f a ho.2.1 σ
      · simp only [h1, decide_false, if_false, Bool.false_eq_true]; exact C129_program_partial f b ho.2.2 σ
  | f + 1, .loop c a, ho, σ => by
    have hc := C128_expr_partial σ c ho.1
    change SemL _ (c.den σ.vals) at hc
    rw [StL.run, StL.den]
    cases hd : c.den σ.vals with
    | none => rw [hd] at hc; obtain ⟨e, h⟩ := hc; rw [h]; exact ⟨e, rfl⟩
    | some v =>
      rw [hd] at hc
      obtain ⟨x, h, rfl⟩ := hc
      rw [h]
      simp only [Lg.toBool_vec]
      by_cases h1 : x.vec 0 = .b1
      · simp only [h1, decide_true, if_true]
        have ha := C129_program_partial f a ho.2 σ
        cases hda : a.den f σ.vals with
        | none => rw [hda] at ha; rw [show a.run f σ = none from ha]; rfl
        | some o =>
          rw [hda] at ha
          cases o with
          | none => obtain ⟨e, h⟩ := ha; rw [h]; exact ⟨e, rfl⟩
          | some ρ =>
            obtain ⟨σ', h, rfl⟩ := ha
            rw [h]
            exact C129_program_partial f (.loop c a) ho σ'
      · simp only [h1, decide_false, if_false, Bool.false_eq_true]; exact ⟨σ, rfl, rfl⟩

/-! ## A program: Euclid's algorithm with x and z -/

theorem RefL.known_ofBV (v : BitVec n) : RefL.known (RefL.ofBV v) := by
  intro i; rw [RefL.ofBV]; cases v.getLsbD i <;> rfl

theorem RefL.num_ofBV (v : BitVec n) : RefL.num (RefL.ofBV v) = v := by
  apply BitVec.eq_of_getLsbD_eq
  intro i hi
  rw [RefL.num, getLsbD_bitsOf _ _ _ hi, RefL.get, dif_pos hi]
  show (V4.ofBool (v.getLsbD i) == .b1) = _
  cases v.getLsbD i <;> rfl

theorem RefL.ext_self (v : Vec n) : RefL.ext s n v = v := by
  funext i
  rw [RefL.ext, if_pos i.2, RefL.get, dif_pos i.2]

/-- `while (logic<n-1, 0>(0) < b) { t = a % b; a = b; b = t; }` on unsigned integers -/
def euclidL (n : Nat) : StL :=
  .loop (.lt (.lit n false 0) (.var n false 1))
    (.seq (.assign n false 2 (.mod (.var n false 0) (.var n false 1)))
      (.seq (.assign n false 0 (.var n false 1)) (.assign n false 1 (.var n false 2))))

/-- the condition -/
theorem euclidL_cond (ρ : ValsL) :
    (ExL.lt (.lit n false 0) (.var n false 1) : ExL 1 false).den ρ =
      if RefL.known (ρ n false 1) then some (RefL.ofBV (BitVec.ofBool (decide (0 < (RefL.num (ρ n false 1)).toNat))))
      else some RefL.allX := by
  simp only [ExL.den, Option.bind_some, RefL.op2, RefL.known_ofBV, true_and, RefL.num_ofBV, Option.map_some]
  congr 4
  rw [Bool.and_self, decide_eq_decide, numOf_false, numOf_false]
  simp

/-- the values after one round that computed `v` -/
def euclidRound (n : Nat) (ρ : ValsL) (v : Vec n) : ValsL :=
  ((ρ.put n false 2 v).put n false 0 (ρ n false 1)).put n false 1 v

theorem euclidRound_spec (ρ : ValsL) (v : Vec n) :
    euclidRound n ρ v n false 0 = ρ n false 1 ∧ euclidRound n ρ v n false 1 = v ∧
      ∀ m t i, ¬ (m = n ∧ t = false ∧ i < 3) → euclidRound n ρ v m t i = ρ m t i := by
  refine ⟨by simp [euclidRound, ValsL.put], by simp [euclidRound, ValsL.put], fun m t i hm => ?_⟩
  simp only [euclidRound, ValsL.put]
  by_cases h : m = n ∧ t = false
  · obtain ⟨rfl, rfl⟩ := h
    have : 3 ≤ i := Nat.not_lt.1 fun h => hm ⟨rfl, rfl, h⟩
    simp only [and_self, dif_pos]
    rw [if_neg (by omega), if_neg (by omega), if_neg (by omega)]
  · simp only [dif_neg h]

/-- the loop ends when the second number is 0 or has an x or z -/
theorem euclidL_stop (ρ : ValsL) (h : ¬ RefL.known (ρ n false 1) ∨ RefL.num (ρ n false 1) = 0) (f : Nat) :
    (euclidL n).den (f + 1) ρ = some (some ρ) := by
  rw [euclidL, StL.den, euclidL_cond]
  split_ifs with hk
  · rw [h.resolve_left (not_not.2 hk)]
    show (if RefL.ofBV (BitVec.ofBool (decide (0 < (0 : BitVec n).toNat))) 0 = .b1 then _ else _) = _
    rw [if_neg]
    simp [RefL.ofBV]; decide
  · show (if RefL.allX (n := 1) 0 = .b1 then _ else _) = _
    rw [if_neg (by decide)]

/-- a round of the loop -/
theorem euclidL_step (ρ : ValsL) (hk : RefL.known (ρ n false 1)) (h0 : RefL.num (ρ n false 1) ≠ 0) {v : Vec n}
    (hv : RefL.divOp (RefI.mod false) (ρ n false 0) (ρ n false 1) = some v) (f : Nat) :
    (euclidL n).den (f + 4) ρ = (euclidL n).den (f + 3) (euclidRound n ρ v) := by
  have hpos : 0 < (RefL.num (ρ n false 1)).toNat := by
    rcases Nat.eq_zero_or_pos (RefL.num (ρ n false 1)).toNat with h | h
    · exact absurd (BitVec.eq_of_toNat_eq (by simpa using h)) h0
    · exact h
  have hmod : (ExL.mod (.var n false 0) (.var n false 1) : ExL n (false && false)).den ρ = some v := by
    simp only [ExL.den, Option.bind_some]; exact hv
  have hb : (StL.seq (.assign n false 2 (.mod (.var n false 0) (.var n false 1)))
        (.seq (.assign n false 0 (.var n false 1)) (.assign n false 1 (.var n false 2)))).den (f + 3) ρ
        = some (some (euclidRound n ρ v)) := by
    simp only [StL.den, hmod, Option.map_some]
    simp only [ExL.den, Option.map_some, RefL.ext_self]
    simp only [euclidRound, ValsL.put]
    simp
  conv_lhs => rw [euclidL, StL.den]
  rw [euclidL_cond, if_pos hk, decide_eq_true hpos]
  show (if RefL.ofBV (BitVec.ofBool true) 0 = .b1 then _ else _) = _
  rw [if_pos (by decide), hb]
  rfl

theorem euclidL_den {n : Nat} : ∀ (b : Nat) (ρ : ValsL), RefL.known (ρ n false 0) → RefL.known (ρ n false 1) →
    (RefL.num (ρ n false 1)).toNat = b →
    ∃ f ρ', (euclidL n).den f ρ = some (some ρ') ∧ RefL.known (ρ' n false 0) ∧
      (RefL.num (ρ' n false 0)).toNat = Nat.gcd (RefL.num (ρ n false 0)).toNat b ∧
      ∀ m t i, ¬ (m = n ∧ t = false ∧ i < 3) → ρ' m t i = ρ m t i := by
  intro b
  induction b using Nat.strongRecOn with
  | _ b ih =>
    intro ρ ka kb hb
    by_cases h0 : RefL.num (ρ n false 1) = 0
    · have : b = 0 := by rw [← hb, h0]; simp
      subst this
      exact ⟨1, ρ, euclidL_stop ρ (Or.inr h0) 0, ka, by simp, fun _ _ _ _ => rfl⟩
    · have hb0 : 0 < b := by
        rcases Nat.eq_zero_or_pos b with h | h
        · exact absurd (BitVec.eq_of_toNat_eq (by rw [hb, h]; simp)) h0
        · exact h
      have hv : RefL.divOp (RefI.mod false) (ρ n false 0) (ρ n false 1) =
          some (RefL.ofBV (RefL.num (ρ n false 0) % RefL.num (ρ n false 1))) := by
        rw [RefL.divOp, if_pos ⟨ka, kb, h0⟩, RefI.mod, if_neg h0]; rfl
      obtain ⟨e0, e1, e2⟩ := euclidRound_spec ρ (RefL.ofBV (RefL.num (ρ n false 0) % RefL.num (ρ n false 1)))
      obtain ⟨f, ρ', hf, hk', hg, hr⟩ := ih ((RefL.num (ρ n false 0)).toNat % b) (Nat.mod_lt _ hb0)
        (euclidRound n ρ (RefL.ofBV (RefL.num (ρ n false 0) % RefL.num (ρ n false 1))))
        (by rw [e0]; exact kb) (by rw [e1]; exact RefL.known_ofBV _)
        (by rw [e1, RefL.num_ofBV, BitVec.toNat_umod, hb])
      refine ⟨f + 4, ρ', ?_, hk', ?_, fun m t i hm => ?_⟩
      · rw [euclidL_step ρ kb h0 hv]
        exact StL.den_mono _ _ _ _ hf 3
      · rw [hg, e0, hb, Nat.gcd_comm, ← Nat.gcd_rec, Nat.gcd_comm]
      · rw [hr m t i hm, e2 m t i hm]

/-- **C129, an application.** Euclid's algorithm, written against the library at any of the
unsigned 4-state integer types, ends on all inputs without undefined behaviour and touches only
its three variables. If both inputs are free of x and z it leaves their greatest common divisor in the first
variable; if the second has an x or z it changes nothing; if only the first has one and the second is
not 0, it leaves the second in the first variable. -/
theorem C129_euclid (h : ExI.W n) (σ : ObjsL) :
    ∃ f σ', (euclidL n).run f σ = some (.ok σ') ∧
      (∀ m t i, ¬ (m = n ∧ t = false ∧ i < 3) → (σ' m t i).vec = (σ m t i).vec) ∧
      (RefL.known (σ n false 0).vec → RefL.known (σ n false 1).vec → RefL.known (σ' n false 0).vec ∧
        (RefL.num (σ' n false 0).vec).toNat =
          Nat.gcd (RefL.num (σ n false 0).vec).toNat (RefL.num (σ n false 1).vec).toNat) ∧
      (¬ RefL.known (σ n false 1).vec → (σ' n false 0).vec = (σ n false 0).vec) ∧
      (¬ RefL.known (σ n false 0).vec → RefL.known (σ n false 1).vec → RefL.num (σ n false 1).vec ≠ 0 →
        (σ' n false 0).vec = (σ n false 1).vec ∧ (σ' n false 1).vec = RefL.allX) := by
  have hok : (euclidL n).Ok := by
    simp [euclidL, StL.Ok, ExL.Ok, h]
  have key : ∀ f ρ', (euclidL n).den f σ.vals = some (some ρ') →
      ∃ σ', (euclidL n).run f σ = some (.ok σ') ∧ σ'.vals = ρ' := by
    intro f ρ' hf
    have := C129_program_partial f (euclidL n) hok σ
    rw [hf] at this
    exact this
  by_cases kb : RefL.known (σ n false 1).vec
  · by_cases ka : RefL.known (σ n false 0).vec
    · obtain ⟨f, ρ', hf, hk, hg, hr⟩ := euclidL_den (n := n) _ σ.vals ka kb rfl
      obtain ⟨σ', h1, rfl⟩ := key f ρ' hf
      exact ⟨f, σ', h1, hr, fun _ _ => ⟨hk, hg⟩, fun h => absurd kb h, fun h => absurd ka h⟩
    · by_cases h0 : RefL.num (σ n false 1).vec = 0
      · obtain ⟨σ', h1, h2⟩ := key 1 _ (euclidL_stop σ.vals (Or.inr h0) 0)
        refine ⟨1, σ', h1, fun m t i _ => congrFun (congrFun (congrFun h2 m) t) i, fun h => absurd h ka,
          fun h => absurd kb h, fun _ _ h => absurd h0 h⟩
      · have hv : RefL.divOp (RefI.mod false) (σ.vals n false 0) (σ.vals n false 1) = some RefL.allX := by
          rw [RefL.divOp, if_neg fun h => ka h.1]
        obtain ⟨e0, e1, e2⟩ := euclidRound_spec σ.vals (RefL.allX (n := n))
        have hstop := euclidL_stop (euclidRound n σ.vals RefL.allX) (Or.inl (by
          rw [e1]
          intro hc
          have := hc ⟨0, by have := h.pos; omega⟩
          cases this)) 2
        obtain ⟨σ', h1, h2⟩ := key 4 _ ((euclidL_step σ.vals kb h0 hv 0).trans hstop)
        have e : ∀ m t i, (σ' m t i).vec = euclidRound n σ.vals RefL.allX m t i :=
          fun m t i => congrFun (congrFun (congrFun h2 m) t) i
        exact ⟨4, σ', h1, fun m t i hm => by rw [e, e2 m t i hm]; rfl, fun h => absurd h ka, fun h => absurd kb h,
          fun _ _ _ => ⟨by rw [e, e0]; rfl, by rw [e, e1]⟩⟩
  · obtain ⟨σ', h1, h2⟩ := key 1 _ (euclidL_stop σ.vals (Or.inl kb) 0)
    have e : ∀ m t i, (σ' m t i).vec = (σ m t i).vec := fun m t i => congrFun (congrFun (congrFun h2 m) t) i
    exact ⟨1, σ', h1, fun m t i _ => e m t i, fun _ h => absurd h kb, fun _ => e _ _ _, fun _ h => absurd h kb⟩

/-- a nested expression with x: `!(a === b) ? (a + b) / c : -a >>> c` -/
example : (ExL.cond (.lnot (.same (.var 32 true 0) (.var 32 true 1)))
    (.div (.add (.var 32 true 0) (.var 32 true 1)) (.ext 32 (.var 8 true 2)))
    (.ashr (.neg (.var 32 true 0)) (.var 32 true 3)) : ExL 32 true).Ok := by
  simp [ExL.Ok, ExI.W]

/-- sums with an x are x, sums of known numbers follow C125; division by 0 is x -/
example : RefL.op2 (RefI.add true true) (RefL.ofBV 2147483647#32) (RefL.ofBV 1#32) = none ∧
    RefL.op2 (RefI.add true true) (RefL.ofBV 5#32) (RefL.allX) = some RefL.allX ∧
    RefL.divOp (RefI.div false) (RefL.ofBV 5#8) (RefL.ofBV 0#8) = some RefL.allX := by
  refine ⟨?_, ?_, ?_⟩
  · rw [RefL.op2, if_pos ⟨RefL.known_ofBV _, RefL.known_ofBV _⟩, RefL.num_ofBV, RefL.num_ofBV]; decide
  · rw [RefL.op2, if_neg (fun h => absurd (h.2 0) (by decide))]
  · rw [RefL.divOp, if_neg]; rw [RefL.num_ofBV]; simp

/-- **C128 is false of the code** outside the well-formed expressions, as C125. -/
theorem C128_refuted (σ : ObjsL) (ρ : ValsL) :
    ((ExL.le (.lit 8 true (-1)) (.lit 8 false 255)).run σ).map (·.at 0) = .ok .b0 ∧
    ((ExL.le (.lit 8 true (-1)) (.lit 8 false 255)).den ρ).map (· 0) = some .b1 ∧
    ((ExL.div (.lit 8 true (-1)) (.lit 8 false 2)).run σ).map (·.at 0) = .ok .b0 ∧
    ((ExL.div (.lit 8 true (-1)) (.lit 8 false 2)).den ρ).map (· 0) = some .b1 := by
  refine ⟨?_, ?_, ?_, ?_⟩
  · simp only [ExL.run, res_bind_ok]; decide +kernel
  · simp only [ExL.den, Option.bind_some, RefL.op2, RefL.divOp, RefL.known_ofBV, RefL.num_ofBV, true_and, and_self]; rfl
  · simp only [ExL.run, res_bind_ok]; decide +kernel
  · simp only [ExL.den, Option.bind_some, RefL.op2, RefL.divOp, RefL.known_ofBV, RefL.num_ofBV, true_and, and_self]; rfl

end Verif
