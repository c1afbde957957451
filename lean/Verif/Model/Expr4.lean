import Verif.Model.Logic
import Verif.Model.Static

/-!
# Expressions and statements of client code over `logic<n-1, 0>`

The 4-state counterpart of `Model/Expr.lean`: `Ex4.run` composes the models of the
member functions of `logic.hh` in the way the C++ expression does.
-/

namespace Verif

/-- A C++ expression of type `logic<n-1, 0>`. -/
inductive Ex4 : Nat → Type
  /-- the `i`-th variable of width `n` -/
  | var (n i : Nat) : Ex4 n
  /-- `logic<n-1, 0>(v)`, `logic.hh` lines 1009-1011 -/
  | lit {n : Nat} (v : BitVec n) : Ex4 n
  /-- `logic<n-1, 0>()`, all x, line 1007 -/
  | dflt (n : Nat) : Ex4 n
  | not {n : Nat} (a : Ex4 n) : Ex4 n
  | and {n : Nat} (a b : Ex4 n) : Ex4 n
  | or {n : Nat} (a b : Ex4 n) : Ex4 n
  | xor {n : Nat} (a b : Ex4 n) : Ex4 n
  | neg {n : Nat} (a : Ex4 n) : Ex4 n
  | add {n : Nat} (a b : Ex4 n) : Ex4 n
  | sub {n : Nat} (a b : Ex4 n) : Ex4 n
  | mul {n : Nat} (a b : Ex4 n) : Ex4 n
  | div {n : Nat} (a b : Ex4 n) : Ex4 n
  | mod {n : Nat} (a b : Ex4 n) : Ex4 n
  | shr {n m : Nat} (a : Ex4 n) (k : Ex4 m) : Ex4 n
  | shl {n m : Nat} (a : Ex4 n) (k : Ex4 m) : Ex4 n
  | ext {n : Nat} (m : Nat) (a : Ex4 n) : Ex4 m
  | slice {n : Nat} (i j : Nat) (a : Ex4 n) : Ex4 (max i j - min i j + 1)
  | cat {n m : Nat} (a : Ex4 n) (b : Ex4 m) : Ex4 (n + m)
  | eq {n : Nat} (a b : Ex4 n) : Ex4 1
  | lt {n : Nat} (a b : Ex4 n) : Ex4 1
  | le {n : Nat} (a b : Ex4 n) : Ex4 1
  /-- `logic<0>(a.match(b))`, the case equality `===` -/
  | same {n : Nat} (a b : Ex4 n) : Ex4 1
  /-- `!a` -/
  | lnot {n : Nat} (a : Ex4 n) : Ex4 1
  /-- `c ? a : b`, with the explicit conversion of `c` to `bool` -/
  | cond {n : Nat} (c : Ex4 1) (a b : Ex4 n) : Ex4 n

/-- The variables of the client: one object for every width and number. -/
abbrev Objs4 := (n : Nat) → Nat → Lg n false

namespace Ex4

/-- The value of the C++ expression over the objects `σ`; the line numbers of the
member functions in `logic.hh` are `& | ^` 301-446, `~` 472-482, `!` 286-288, `>> <<`
555-594, `== < <=` 645-724, `match` 667-670, `- + * / %` 731-888, `slice` 178-182,
`extend` 227-234, `concat` 239-247, conversion to `bool` 281-284. -/
def run (σ : Objs4) : {n : Nat} → Ex4 n → Res (Lg n false)
  | _, .var n i => .ok (σ n i)
  | _, .lit v => .ok (Lg.ofInt v.toNat)
  | _, .dflt _ => Lg.dflt
  | _, .not a => (run σ a).bind Lg.not
  | _, .and a b => (run σ a).bind fun x => (run σ b).bind fun y => x.and y
  | _, .or a b => (run σ a).bind fun x => (run σ b).bind fun y => x.or y
  | _, .xor a b => (run σ a).bind fun x => (run σ b).bind fun y => x.xor y
  | n, .neg a => (run σ a).bind fun x => if h : n ≤ 64 then x.neg h else .error .illFormed
  | _, .add a b => (run σ a).bind fun x => (run σ b).bind fun y => x.add y
  | _, .sub a b => (run σ a).bind fun x => (run σ b).bind fun y => x.sub y
  | _, .mul a b => (run σ a).bind fun x => (run σ b).bind fun y => x.mul y
  | _, .div a b => (run σ a).bind fun x => (run σ b).bind fun y => x.div y
  | _, .mod a b => (run σ a).bind fun x => (run σ b).bind fun y => x.mod y
  | _, .shr a k => (run σ a).bind fun x => (run σ k).bind fun y => x.shr y
  | _, .shl a k => (run σ a).bind fun x => (run σ k).bind fun y => x.shl y
  | _, .ext m a => (run σ a).map fun x => x.extend m
  | _, .slice (n := n) i j a => (run σ a).bind fun x => x.slice (Rng.down n) i j
  | _, .cat (n := n) (m := m) a b => (run σ a).bind fun x => (run σ b).bind fun y =>
      if h : n + m < 64 then x.concat y h else .error .illFormed
  | _, .eq a b => (run σ a).bind fun x => (run σ b).bind fun y => x.eq y
  | _, .lt a b => (run σ a).bind fun x => (run σ b).bind fun y => x.lt y
  | _, .le a b => (run σ a).bind fun x => (run σ b).bind fun y => x.le y
  | _, .same a b => (run σ a).bind fun x => (run σ b).map fun y => Lg.ofInt (x.matches' y).toNat
  | _, .lnot a => (run σ a).map Lg.lnot
  | _, .cond c a b => (run σ c).bind fun x => if x.toBool then run σ a else run σ b

end Ex4

/-- Statements of client code over 4-state objects. -/
inductive St4 : Type
  | skip
  /-- `v = e;` -/
  | assign (n i : Nat) (e : Ex4 n)
  /-- `v.set(p, c);` with a `logic<0>`, `logic.hh` lines 134-137 -/
  | setBit (n i p : Nat) (c : Ex4 1)
  /-- `v.update(hi, lo, e);` -/
  | part (n i : Nat) {m : Nat} (hi lo : Nat) (e : Ex4 m)
  | seq (a b : St4)
  | ite (c : Ex4 1) (a b : St4)
  | loop (c : Ex4 1) (a : St4)

/-- `σ` with variable `i` of width `n` replaced -/
def Objs4.put (σ : Objs4) (n i : Nat) (x : Lg n false) : Objs4 := fun m j =>
  if h : m = n then (if j = i then h ▸ x else σ m j) else σ m j

namespace St4

/-- Execution for at most `fuel` nested steps; `none` when the fuel is used up. -/
def run : Nat → St4 → Objs4 → Option (Res Objs4)
  | 0, _, _ => none
  | _ + 1, .skip, σ => some (.ok σ)
  | _ + 1, .assign n i e, σ => some ((e.run σ).map fun x => σ.put n i x)
  | _ + 1, .setBit n i p c, σ =>
      some ((c.run σ).bind fun v => ((σ n i).setL (Rng.down n) p v).map fun x => σ.put n i x)
  | _ + 1, .part n i (m := m) hi lo e, σ =>
      some ((e.run σ).bind fun v => ((σ n i).updateRt (Rng.down n) hi lo (Rng.down m) v).map fun x => σ.put n i x)
  | f + 1, .seq a b, σ =>
      match run f a σ with
      | none => none
      | some (.error e) => some (.error e)
      | some (.ok σ') => run f b σ'
  | f + 1, .ite c a b, σ =>
      match c.run σ with
      | .error e => some (.error e)
      | .ok v => if v.toBool then run f a σ else run f b σ
  | f + 1, .loop c a, σ =>
      match c.run σ with
      | .error e => some (.error e)
      | .ok v =>
        if v.toBool then
          match run f a σ with
          | none => none
          | some (.error e) => some (.error e)
          | some (.ok σ') => run f (.loop c a) σ'
        else some (.ok σ)

end St4
end Verif
