import Verif.Model.Static

/-!
# Client code over the 4-state integer types

`logic<7, 0, s>`, `logic<15, 0, s>`, `logic<31, 0, s>` (SystemVerilog's `integer` when
signed) and `logic<63, 0, s>`. `ExL` is the abstract syntax of C++ expressions over them
(and over the one bit results of comparisons), `ExL.run` composes the models of the member
functions of `logic.hh` as the C++ expression does. Both operands are evaluated before an
operator, a conditional evaluates the selected branch only.
-/

namespace Verif

/-- A C++ expression of type `logic<n-1, 0, s>`. -/
inductive ExL : Nat → Bool → Type
  /-- the `i`-th variable of the type -/
  | var (n : Nat) (s : Bool) (i : Nat) : ExL n s
  /-- `logic<n-1, 0, s>(k)`, `logic.hh` lines 1009-1011 -/
  | lit (n : Nat) (s : Bool) (k : Int) : ExL n s
  /-- `logic<n-1, 0, s>()`, all x, line 1007 -/
  | dflt (n : Nat) (s : Bool) : ExL n s
  | not {n : Nat} {s : Bool} (a : ExL n s) : ExL n false
  | and {n : Nat} {s t : Bool} (a : ExL n s) (b : ExL n t) : ExL n (s && t)
  | or {n : Nat} {s t : Bool} (a : ExL n s) (b : ExL n t) : ExL n (s && t)
  | xor {n : Nat} {s t : Bool} (a : ExL n s) (b : ExL n t) : ExL n (s && t)
  | neg {n : Nat} {s : Bool} (a : ExL n s) : ExL n s
  | add {n : Nat} {s t : Bool} (a : ExL n s) (b : ExL n t) : ExL n (s && t)
  | sub {n : Nat} {s t : Bool} (a : ExL n s) (b : ExL n t) : ExL n (s && t)
  | mul {n : Nat} {s t : Bool} (a : ExL n s) (b : ExL n t) : ExL n (s && t)
  | div {n : Nat} {s t : Bool} (a : ExL n s) (b : ExL n t) : ExL n (s && t)
  | mod {n : Nat} {s t : Bool} (a : ExL n s) (b : ExL n t) : ExL n (s && t)
  | shr {n m : Nat} {s t : Bool} (a : ExL n s) (k : ExL m t) : ExL n (s && t)
  | shl {n m : Nat} {s t : Bool} (a : ExL n s) (k : ExL m t) : ExL n (s && t)
  /-- `a.ashr(k)`, the `>>>` of SystemVerilog -/
  | ashr {n m : Nat} {s t : Bool} (a : ExL n s) (k : ExL m t) : ExL n (s && t)
  /-- `a.extend<m>()` -/
  | ext {n : Nat} {s : Bool} (m : Nat) (a : ExL n s) : ExL m s
  /-- `a.to_signed()`, `a.to_unsigned()` -/
  | cast {n : Nat} {s : Bool} (t : Bool) (a : ExL n s) : ExL n t
  | eq {n : Nat} {s t : Bool} (a : ExL n s) (b : ExL n t) : ExL 1 false
  | lt {n m : Nat} {s t : Bool} (a : ExL n s) (b : ExL m t) : ExL 1 false
  | le {n m : Nat} {s t : Bool} (a : ExL n s) (b : ExL m t) : ExL 1 false
  /-- `logic<0>(a.match(b))`, the case equality `===` -/
  | same {n : Nat} {s t : Bool} (a : ExL n s) (b : ExL n t) : ExL 1 false
  /-- `!a` -/
  | lnot {n : Nat} {s : Bool} (a : ExL n s) : ExL 1 false
  /-- `c ? a : b`, with the explicit conversion of `c` to `bool` -/
  | cond {n : Nat} {s : Bool} (c : ExL 1 false) (a b : ExL n s) : ExL n s

/-- The variables of the client: one object for every type and number. -/
abbrev ObjsL := (n : Nat) → (s : Bool) → Nat → Lg n s

namespace ExL

/-- The value of the C++ expression over the objects `σ`: each case is the member
function of `logic.hh` whose model is named (`& | ^` 301-446, `~` 472-482, `!` 286-288,
`>> << ashr` 555-622, `== < <=` 645-724, `match` 667-670, `- + * / %` 731-888, `extend`
227-234, `to_signed` and `to_unsigned` 905-917, conversion to `bool` 281-284). -/
def run (σ : ObjsL) : {n : Nat} → {s : Bool} → ExL n s → Res (Lg n s)
  | _, _, .var n s i => .ok (σ n s i)
  | _, _, .lit _ _ k => .ok (Lg.ofInt k)
  | _, _, .dflt _ _ => Lg.dflt
  | _, _, .not a => (run σ a).bind Lg.not
  | _, _, .and a b => (run σ a).bind fun x => (run σ b).bind fun y => x.and y
  | _, _, .or a b => (run σ a).bind fun x => (run σ b).bind fun y => x.or y
  | _, _, .xor a b => (run σ a).bind fun x => (run σ b).bind fun y => x.xor y
  | n, _, .neg a => (run σ a).bind fun x => if h : n ≤ 64 then x.neg h else .error .illFormed
  | _, _, .add a b => (run σ a).bind fun x => (run σ b).bind fun y => x.add y
  | _, _, .sub a b => (run σ a).bind fun x => (run σ b).bind fun y => x.sub y
  | _, _, .mul a b => (run σ a).bind fun x => (run σ b).bind fun y => x.mul y
  | _, _, .div a b => (run σ a).bind fun x => (run σ b).bind fun y => x.div y
  | _, _, .mod a b => (run σ a).bind fun x => (run σ b).bind fun y => x.mod y
  | _, _, .shr a k => (run σ a).bind fun x => (run σ k).bind fun y => x.shr y
  | _, _, .shl a k => (run σ a).bind fun x => (run σ k).bind fun y => x.shl y
  | _, _, .ashr a k => (run σ a).bind fun x => (run σ k).bind fun y => x.ashr y
  | _, _, .ext m a => (run σ a).map fun x => x.extend m
  | _, _, .cast true a => (run σ a).map fun x => x.toSigned
  | _, _, .cast false a => (run σ a).map fun x => x.toUnsigned
  | _, _, .eq a b => (run σ a).bind fun x => (run σ b).bind fun y => x.eq y
  | _, _, .lt a b => (run σ a).bind fun x => (run σ b).bind fun y => x.lt y
  | _, _, .le a b => (run σ a).bind fun x => (run σ b).bind fun y => x.le y
  | _, _, .same a b => (run σ a).bind fun x => (run σ b).map fun y => Lg.ofInt (x.matches' y).toNat
  | _, _, .lnot a => (run σ a).map Lg.lnot
  | _, _, .cond c a b => (run σ c).bind fun x => if x.toBool then run σ a else run σ b

end ExL

/-- Statements of client code. -/
inductive StL : Type
  | skip
  /-- `v = e;` with the implicit conversion between integer types -/
  | assign (n : Nat) (s : Bool) (i : Nat) {m : Nat} {t : Bool} (e : ExL m t)
  /-- `++v;` -/
  | inc (n : Nat) (s : Bool) (i : Nat)
  /-- `--v;` -/
  | dec (n : Nat) (s : Bool) (i : Nat)
  | seq (a b : StL)
  | ite (c : ExL 1 false) (a b : StL)
  | loop (c : ExL 1 false) (a : StL)

/-- `σ` with variable `i` of type `n`, `s` replaced -/
def ObjsL.put (σ : ObjsL) (n : Nat) (s : Bool) (i : Nat) (x : Lg n s) : ObjsL := fun m t j =>
  if h : m = n ∧ t = s then (if j = i then h.1 ▸ h.2 ▸ x else σ m t j) else σ m t j

namespace StL

/-- Execution for at most `fuel` nested steps; `none` when the fuel is used up.
Assignment is `logic.hh` lines 1037-1043, `++` and `--` are lines 531-539. A wide variable is only
assigned from its own type (simplification). -/
def run : Nat → StL → ObjsL → Option (Res ObjsL)
  | 0, _, _ => none
  | _ + 1, .skip, σ => some (.ok σ)
  | _ + 1, .assign n s i (m := m) (t := t) e, σ =>
      some (if h : n ≤ 64 then (e.run σ).map fun x => σ.put n s i (x.assignNat h)
        else if h' : m = n ∧ t = s then (e.run σ).map fun x => σ.put n s i (h'.1 ▸ h'.2 ▸ x)
        else .error .illFormed)
  | _ + 1, .inc n s i, σ => some ((σ n s i).inc.map fun x => σ.put n s i x)
  | _ + 1, .dec n s i, σ => some ((σ n s i).dec.map fun x => σ.put n s i x)
  | f + 1, .seq a b, σ =>
      match run f a σ with
      | none => none
      | some (.error e) => some (.error e)
      | some (.ok σ') => run f b σ'
  | f + 1, .ite c a b, σ =>
      match c.run σ with
      | .error e => some (.error e)
      | .ok v => if v.toBool then run f a σ else run f b σ
  | f + 1, .loop c a, σ =>
      match c.run σ with
      | .error e => some (.error e)
      | .ok v =>
        if v.toBool then
          match run f a σ with
          | none => none
          | some (.error e) => some (.error e)
          | some (.ok σ') => run f (.loop c a) σ'
        else some (.ok σ)

end StL
end Verif
