import Verif.Model.Static

/-!
# Expressions and statements of client code

A client of the library (the simulator that generates code against it) writes
expressions and statements over objects of type `bit<w-1, 0>`. `Ex` is their
abstract syntax; `Ex.run` composes the models of the library's member functions in
the way the C++ expression does. Every operand is evaluated before the operator, a
conditional evaluates the selected branch only, and a fault in an operand is a
fault of the whole. The order in which C++ evaluates two operands is unspecified
and does not matter here because the member functions do not modify their operands.
-/

namespace Verif

/-- A C++ expression of type `bit<n-1, 0>`. -/
inductive Ex : Nat → Type
  /-- the `i`-th variable of width `n` -/
  | var (n i : Nat) : Ex n
  /-- `bit<n-1, 0>(v)`, `bit.hh` line 1008 -/
  | lit {n : Nat} (v : BitVec n) : Ex n
  | not {n : Nat} (a : Ex n) : Ex n
  | and {n : Nat} (a b : Ex n) : Ex n
  | or {n : Nat} (a b : Ex n) : Ex n
  | xor {n : Nat} (a b : Ex n) : Ex n
  | neg {n : Nat} (a : Ex n) : Ex n
  | add {n : Nat} (a b : Ex n) : Ex n
  | sub {n : Nat} (a b : Ex n) : Ex n
  | mul {n : Nat} (a b : Ex n) : Ex n
  | div {n : Nat} (a b : Ex n) : Ex n
  | mod {n : Nat} (a b : Ex n) : Ex n
  | shr {n m : Nat} (a : Ex n) (k : Ex m) : Ex n
  | shl {n m : Nat} (a : Ex n) (k : Ex m) : Ex n
  /-- `a.extend<m>()` -/
  | ext {n : Nat} (m : Nat) (a : Ex n) : Ex m
  /-- `a.slice<i, j>()` -/
  | slice {n : Nat} (i j : Nat) (a : Ex n) : Ex (max i j - min i j + 1)
  /-- `a.concat(b)` -/
  | cat {n m : Nat} (a : Ex n) (b : Ex m) : Ex (n + m)
  /-- `bit<0>(a == b)`; the comparison operators return `bool` -/
  | eq {n : Nat} (a b : Ex n) : Ex 1
  | lt {n : Nat} (a b : Ex n) : Ex 1
  | le {n : Nat} (a b : Ex n) : Ex 1
  /-- `c ? a : b`, with the explicit conversion of `c` to `bool` -/
  | cond {n : Nat} (c : Ex 1) (a b : Ex n) : Ex n

/-- The variables of the client: one object for every width and number. -/
abbrev Objs := (n : Nat) → Nat → Bits n false

namespace Ex

/-- The value of the C++ expression over the objects `σ`: each case is the member
function of `bit.hh` whose model is named (`~` 350-358, `& ^ |` 367-438, unary `-`
702-708, `+ - * % /` 723-824, `>>` 485-505, `<<` 539-560, `extend` 220-267, `slice`
153-179, `concat` 272-278, `== < <=` 598-695, conversion to `bool` 315). -/
def run (σ : Objs) : {n : Nat} → Ex n → Res (Bits n false)
  | _, .var n i => .ok (σ n i)
  | _, .lit v => .ok (Bits.ofInt v.toNat)
  | _, .not a => (run σ a).map Bits.not
  | _, .and a b => (run σ a).bind fun x => (run σ b).map fun y => x.and y
  | _, .or a b => (run σ a).bind fun x => (run σ b).map fun y => x.or y
  | _, .xor a b => (run σ a).bind fun x => (run σ b).map fun y => x.xor y
  | n, .neg a => (run σ a).bind fun x => if h : n ≤ 64 then x.neg h else .error .illFormed
  | _, .add a b => (run σ a).bind fun x => (run σ b).bind fun y => x.add y
  | _, .sub a b => (run σ a).bind fun x => (run σ b).bind fun y => x.sub y
  | _, .mul a b => (run σ a).bind fun x => (run σ b).bind fun y => x.mul y
  | _, .div a b => (run σ a).bind fun x => (run σ b).bind fun y => x.div y
  | _, .mod a b => (run σ a).bind fun x => (run σ b).bind fun y => x.mod y
  | _, .shr a k => (run σ a).bind fun x => (run σ k).bind fun y => x.shr y
  | _, .shl a k => (run σ a).bind fun x => (run σ k).bind fun y => x.shl y
  | _, .ext m a => (run σ a).map fun x => x.extend m
  | _, .slice (n := n) i j a => (run σ a).bind fun x => x.slice (Rng.down n) i j
  | _, .cat (n := n) (m := m) a b => (run σ a).bind fun x => (run σ b).bind fun y =>
      if h : n + m < 64 then x.concat y h else .error .illFormed
  | _, .eq a b => (run σ a).bind fun x => (run σ b).map fun y => Bits.ofInt (x.eq y).toNat
  | _, .lt a b => (run σ a).bind fun x => (run σ b).bind fun y =>
      (x.lt y).map fun c => Bits.ofInt c.toNat
  | _, .le a b => (run σ a).bind fun x => (run σ b).bind fun y =>
      (x.le y).map fun c => Bits.ofInt c.toNat
  | _, .cond c a b => (run σ c).bind fun x => if x.toBool then run σ a else run σ b

end Ex

/-- Statements of client code. -/
inductive St : Type
  | skip
  /-- `v = e;` -/
  | assign (n i : Nat) (e : Ex n)
  /-- `v.set(p, c);` with a `bit<0>`, `bit.hh` lines 100-114 -/
  | setBit (n i p : Nat) (c : Ex 1)
  /-- `v.update(hi, lo, e);`, `bit.hh` lines 1177-1193 -/
  | part (n i : Nat) {m : Nat} (hi lo : Nat) (e : Ex m)
  | seq (a b : St)
  | ite (c : Ex 1) (a b : St)
  | loop (c : Ex 1) (a : St)

/-- `σ` with variable `i` of width `n` replaced -/
def Objs.put (σ : Objs) (n i : Nat) (x : Bits n false) : Objs := fun m j =>
  if h : m = n then (if j = i then h ▸ x else σ m j) else σ m j

namespace St

/-- Execution for at most `fuel` nested steps; `none` when the fuel is used up. -/
def run : Nat → St → Objs → Option (Res Objs)
  | 0, _, _ => none
  | _ + 1, .skip, σ => some (.ok σ)
  | _ + 1, .assign n i e, σ => some ((e.run σ).map fun x => σ.put n i x)
  | _ + 1, .setBit n i p c, σ =>
      some ((c.run σ).bind fun v => ((σ n i).setBit (Rng.down n) p v.toBool).map fun x => σ.put n i x)
  | _ + 1, .part n i (m := m) hi lo e, σ =>
      some ((e.run σ).bind fun v => ((σ n i).updateRt (Rng.down n) hi lo (Rng.down m) v).map fun x => σ.put n i x)
  | f + 1, .seq a b, σ =>
      match run f a σ with
      | none => none
      | some (.error e) => some (.error e)
      | some (.ok σ') => run f b σ'
  | f + 1, .ite c a b, σ =>
      match c.run σ with
      | .error e => some (.error e)
      | .ok v => if v.toBool then run f a σ else run f b σ
  | f + 1, .loop c a, σ =>
      match c.run σ with
      | .error e => some (.error e)
      | .ok v =>
        if v.toBool then
          match run f a σ with
          | none => none
          | some (.error e) => some (.error e)
          | some (.ok σ') => run f (.loop c a) σ'
        else some (.ok σ)

end St
end Verif
