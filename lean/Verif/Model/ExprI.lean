import Verif.Model.Static

/-!
# Client code over the integer types

SystemVerilog's `byte`, `shortint`, `int` and `longint`, signed or unsigned, are
`bit<7, 0, s>`, `bit<15, 0, s>`, `bit<31, 0, s>` and `bit<63, 0, s>`. `ExI` is the
abstract syntax of C++ expressions over them (and over the one bit results of
comparisons), `ExI.run` composes the models of the member functions as the C++
expression does. Both operands are evaluated before an operator, a conditional
evaluates the selected branch only.
-/

namespace Verif

/-- A C++ expression of type `bit<n-1, 0, s>`. -/
inductive ExI : Nat → Bool → Type
  /-- the `i`-th variable of the type -/
  | var (n : Nat) (s : Bool) (i : Nat) : ExI n s
  /-- `bit<n-1, 0, s>(k)`, `bit.hh` line 1008 -/
  | lit (n : Nat) (s : Bool) (k : Int) : ExI n s
  | not {n : Nat} {s : Bool} (a : ExI n s) : ExI n false
  | and {n : Nat} {s t : Bool} (a : ExI n s) (b : ExI n t) : ExI n (s && t)
  | or {n : Nat} {s t : Bool} (a : ExI n s) (b : ExI n t) : ExI n (s && t)
  | xor {n : Nat} {s t : Bool} (a : ExI n s) (b : ExI n t) : ExI n (s && t)
  | neg {n : Nat} {s : Bool} (a : ExI n s) : ExI n s
  | add {n : Nat} {s t : Bool} (a : ExI n s) (b : ExI n t) : ExI n (s && t)
  | sub {n : Nat} {s t : Bool} (a : ExI n s) (b : ExI n t) : ExI n (s && t)
  | mul {n : Nat} {s t : Bool} (a : ExI n s) (b : ExI n t) : ExI n (s && t)
  | div {n : Nat} {s t : Bool} (a : ExI n s) (b : ExI n t) : ExI n (s && t)
  | mod {n : Nat} {s t : Bool} (a : ExI n s) (b : ExI n t) : ExI n (s && t)
  | shr {n m : Nat} {s t : Bool} (a : ExI n s) (k : ExI m t) : ExI n (s && t)
  | shl {n m : Nat} {s t : Bool} (a : ExI n s) (k : ExI m t) : ExI n (s && t)
  /-- `a.ashr(k)`, the `>>>` of SystemVerilog -/
  | ashr {n m : Nat} {s t : Bool} (a : ExI n s) (k : ExI m t) : ExI n (s && t)
  /-- `a.extend<m>()` -/
  | ext {n : Nat} {s : Bool} (m : Nat) (a : ExI n s) : ExI m s
  /-- `a.to_signed()`, `a.to_unsigned()` -/
  | cast {n : Nat} {s : Bool} (t : Bool) (a : ExI n s) : ExI n t
  /-- `bit<0>(a == b)` -/
  | eq {n : Nat} {s t : Bool} (a : ExI n s) (b : ExI n t) : ExI 1 false
  | lt {n m : Nat} {s t : Bool} (a : ExI n s) (b : ExI m t) : ExI 1 false
  | le {n m : Nat} {s t : Bool} (a : ExI n s) (b : ExI m t) : ExI 1 false
  /-- `c ? a : b`, with the explicit conversion of `c` to `bool` -/
  | cond {n : Nat} {s : Bool} (c : ExI 1 false) (a b : ExI n s) : ExI n s

/-- The variables of the client: one object for every type and number. -/
abbrev ObjsI := (n : Nat) → (s : Bool) → Nat → Bits n s

namespace ExI

/-- The value of the C++ expression over the objects `σ`: each case is the member
function of `bit.hh` whose model is named (`~` 350-358, `& ^ |` 367-438, unary `-`
702-708, `+ - * % /` 723-824, `>>` 485-505, `<<` 539-560, `ashr` 570-590, `extend`
220-267, `to_signed` and `to_unsigned` 836-863, `== < <=` 598-695, conversion to `bool`
315). -/
def run (σ : ObjsI) : {n : Nat} → {s : Bool} → ExI n s → Res (Bits n s)
  | _, _, .var n s i => .ok (σ n s i)
  | _, _, .lit _ _ k => .ok (Bits.ofInt k)
  | _, _, .not a => (run σ a).map Bits.not
  | _, _, .and a b => (run σ a).bind fun x => (run σ b).map fun y => x.and y
  | _, _, .or a b => (run σ a).bind fun x => (run σ b).map fun y => x.or y
  | _, _, .xor a b => (run σ a).bind fun x => (run σ b).map fun y => x.xor y
  | n, _, .neg a => (run σ a).bind fun x => if h : n ≤ 64 then x.neg h else .error .illFormed
  | _, _, .add a b => (run σ a).bind fun x => (run σ b).bind fun y => x.add y
  | _, _, .sub a b => (run σ a).bind fun x => (run σ b).bind fun y => x.sub y
  | _, _, .mul a b => (run σ a).bind fun x => (run σ b).bind fun y => x.mul y
  | _, _, .div a b => (run σ a).bind fun x => (run σ b).bind fun y => x.div y
  | _, _, .mod a b => (run σ a).bind fun x => (run σ b).bind fun y => x.mod y
  | _, _, .shr a k => (run σ a).bind fun x => (run σ k).bind fun y => x.shr y
  | _, _, .shl a k => (run σ a).bind fun x => (run σ k).bind fun y => x.shl y
  | _, _, .ashr a k => (run σ a).bind fun x => (run σ k).bind fun y => x.ashr y
  | _, _, .ext m a => (run σ a).map fun x => x.extend m
  | _, _, .cast true a => (run σ a).map fun x => x.toSigned
  | _, _, .cast false a => (run σ a).map fun x => x.toUnsigned
  | _, _, .eq a b => (run σ a).bind fun x => (run σ b).map fun y => Bits.ofInt (x.eq y).toNat
  | _, _, .lt a b => (run σ a).bind fun x => (run σ b).bind fun y =>
      (x.lt y).map fun c => Bits.ofInt c.toNat
  | _, _, .le a b => (run σ a).bind fun x => (run σ b).bind fun y =>
      (x.le y).map fun c => Bits.ofInt c.toNat
  | _, _, .cond c a b => (run σ c).bind fun x => if x.toBool then run σ a else run σ b

end ExI

/-- Statements of client code. -/
inductive StI : Type
  | skip
  /-- `v = e;` with the implicit conversion between integer types -/
  | assign (n : Nat) (s : Bool) (i : Nat) {m : Nat} {t : Bool} (e : ExI m t)
  /-- `++v;` -/
  | inc (n : Nat) (s : Bool) (i : Nat)
  /-- `--v;` -/
  | dec (n : Nat) (s : Bool) (i : Nat)
  | seq (a b : StI)
  | ite (c : ExI 1 false) (a b : StI)
  | loop (c : ExI 1 false) (a : StI)

/-- `σ` with variable `i` of type `n`, `s` replaced -/
def ObjsI.put (σ : ObjsI) (n : Nat) (s : Bool) (i : Nat) (x : Bits n s) : ObjsI := fun m t j =>
  if h : m = n ∧ t = s then (if j = i then h.1 ▸ h.2 ▸ x else σ m t j) else σ m t j

namespace StI

/-- Execution for at most `fuel` nested steps; `none` when the fuel is used up.
Assignment is `bit.hh` lines 1031-1035, `++` and `--` are lines 507-515. A wide variable is only
assigned from its own type (simplification). -/
def run : Nat → StI → ObjsI → Option (Res ObjsI)
  | 0, _, _ => none
  | _ + 1, .skip, σ => some (.ok σ)
  | _ + 1, .assign n s i (m := m) (t := t) e, σ =>
      some (if h : n ≤ 64 then (e.run σ).map fun x => σ.put n s i (x.assignNat h)
        else if h' : m = n ∧ t = s then (e.run σ).map fun x => σ.put n s i (h'.1 ▸ h'.2 ▸ x)
        else .error .illFormed)
  | _ + 1, .inc n s i, σ => some ((σ n s i).inc.map fun x => σ.put n s i x)
  | _ + 1, .dec n s i, σ => some ((σ n s i).dec.map fun x => σ.put n s i x)
  | f + 1, .seq a b, σ =>
      match run f a σ with
      | none => none
      | some (.error e) => some (.error e)
      | some (.ok σ') => run f b σ'
  | f + 1, .ite c a b, σ =>
      match c.run σ with
      | .error e => some (.error e)
      | .ok v => if v.toBool then run f a σ else run f b σ
  | f + 1, .loop c a, σ =>
      match c.run σ with
      | .error e => some (.error e)
      | .ok v =>
        if v.toBool then
          match run f a σ with
          | none => none
          | some (.error e) => some (.error e)
          | some (.ok σ') => run f (.loop c a) σ'
        else some (.ok σ)

end StI
end Verif
