/-!
# C++ integer semantics

The arithmetic that the library's native (at most 64 bit wide) values rely on.
This file models the C++20 language on an LP64 platform, not a file of `/repo`;
it is used by the models of `/repo/include/logic/*.hh` and `/repo/src/util.cc`.
-/

namespace Verif

/-- Outcomes that are not values: undefined behaviour, exceptions, divergence. -/
inductive Fault
  /-- shift count negative or not smaller than the promoted width -/
  | shift
  /-- signed integer overflow -/
  | overflow
  /-- integer division by zero -/
  | divZero
  /-- array access out of bounds -/
  | oob
  /-- control flows off the end of a function that returns a value -/
  | noReturn
  /-- an exception leaves the function -/
  | throws
  /-- the computation does not finish within the given fuel -/
  | diverge
  /-- use of a reference to an object whose lifetime has ended -/
  | dangling
  /-- not a run-time outcome: the instantiation does not compile -/
  | illFormed
  deriving DecidableEq, Repr

/-- Result of a C++ evaluation. -/
abbrev Res (α : Type) := Except Fault α

instance {α} [DecidableEq α] : DecidableEq (Res α) := fun a b =>
  match a, b with
  | .ok x, .ok y => if h : x = y then isTrue (by rw [h]) else isFalse (by simp [h])
  | .error x, .error y => if h : x = y then isTrue (by rw [h]) else isFalse (by simp [h])
  | .ok _, .error _ => isFalse (by simp)
  | .error _, .ok _ => isFalse (by simp)

/-- The C++ integer types used by the library: `bool` and the fixed width
integers (`int8_t` ... `uint64_t`, `__uint128_t`); `int` is `int 32 true`. -/
inductive CTy
  | bool
  | int (w : Nat) (sg : Bool)
  deriving DecidableEq, Repr

namespace CTy

/-- Number of value bits (including the sign bit). -/
def width : CTy → Nat
  | bool => 1
  | int w _ => w

/-- Is the type a signed integer type? -/
def signed : CTy → Bool
  | bool => false
  | int _ s => s

/-- Conversion of an integer value to the type: `bool` tests for non-zero,
unsigned types reduce modulo `2^w`, signed types take the representative in
`[-2^(w-1), 2^(w-1))` (defined behaviour since C++20). -/
def conv : CTy → Int → Int
  | bool, x => if x = 0 then 0 else 1
  | int w false, x => x % (2 ^ w : Nat)
  | int w true, x => x.bmod (2 ^ w)

/-- Integral promotion: `bool` and types narrower than `int` become `int`. -/
def promote : CTy → CTy
  | bool => int 32 true
  | int w s => if w < 32 then int 32 true else int w s

/-- Usual arithmetic conversions on two integer types. -/
def usual (a b : CTy) : CTy :=
  match promote a, promote b with
  | int wa sa, int wb sb =>
    if sa = sb then int (max wa wb) sa
    else if wa = wb then int wa false
    else if wa < wb then int wb sb
    else int wa sa
  | _, _ => int 32 true

end CTy

/-- `int` -/
abbrev tInt : CTy := .int 32 true
/-- `unsigned int`, `uint32_t` -/
abbrev tU32 : CTy := .int 32 false
/-- `uint64_t`, `unsigned long long` -/
abbrev tU64 : CTy := .int 64 false

/-- an expression of type `int` with the mathematical value `v`: overflow is undefined -/
def intRes (v : Int) : Res Int := if -2 ^ 31 ≤ v ∧ v < 2 ^ 31 then .ok v else .error .overflow

/-- A typed C++ integer value. -/
structure TV where
  ty : CTy
  v : Int
  deriving DecidableEq, Repr

namespace TV

/-- `static_cast<t>(x)` and every implicit conversion. -/
def cast (t : CTy) (x : TV) : TV := ⟨t, t.conv x.v⟩

/-- A binary arithmetic operator: operands are brought to the common type, an
unsigned result wraps, a signed result that is not representable is undefined
behaviour. -/
def arith (f : Int → Int → Int) (x y : TV) : Res TV :=
  let t := CTy.usual x.ty y.ty
  let r := f (t.conv x.v) (t.conv y.v)
  if t.signed && t.conv r != r then .error .overflow else .ok ⟨t, t.conv r⟩

/-- built-in `+` -/
def add : TV → TV → Res TV := arith (· + ·)
/-- built-in `-` -/
def sub : TV → TV → Res TV := arith (· - ·)
/-- built-in `*` -/
def mul : TV → TV → Res TV := arith (· * ·)

/-- built-in `/` (truncating; zero divisor is undefined behaviour) -/
def div (x y : TV) : Res TV :=
  if (CTy.usual x.ty y.ty).conv y.v = 0 then .error .divZero else arith Int.tdiv x y

/-- built-in `%` (sign of the dividend; zero divisor is undefined, and so is
`INT_MIN % -1`, whose quotient is not representable) -/
def mod (x y : TV) : Res TV :=
  if (CTy.usual x.ty y.ty).conv y.v = 0 then .error .divZero
  else
    match arith Int.tdiv x y with
    | .error e => .error e
    | .ok _ => arith Int.tmod x y

/-- unary `-`: `0 - x` in the promoted type -/
def neg (x : TV) : Res TV :=
  let t := x.ty.promote
  let r := - t.conv x.v
  if t.signed && t.conv r != r then .error .overflow else .ok ⟨t, t.conv r⟩

/-- built-in `<<`: the count must lie in `[0, width)` of the promoted left
operand; since C++20 the result is the value modulo `2^width`. -/
def shl (x c : TV) : Res TV :=
  let t := x.ty.promote
  if c.v < 0 ∨ (t.width : Int) ≤ c.v then .error .shift
  else .ok ⟨t, t.conv (t.conv x.v * 2 ^ c.v.toNat)⟩

/-- built-in `>>`: arithmetic for signed types (C++20). -/
def shr (x c : TV) : Res TV :=
  let t := x.ty.promote
  if c.v < 0 ∨ (t.width : Int) ≤ c.v then .error .shift
  else .ok ⟨t, t.conv (t.conv x.v / 2 ^ c.v.toNat)⟩

/-- A binary bitwise operator on the common type. -/
def bitw (f : (w : Nat) → BitVec w → BitVec w → BitVec w) (x y : TV) : TV :=
  let t := CTy.usual x.ty y.ty
  ⟨t, t.conv (f t.width (BitVec.ofInt t.width x.v) (BitVec.ofInt t.width y.v)).toInt⟩

/-- built-in `&` -/
def band : TV → TV → TV := bitw fun _ a b => a &&& b
/-- built-in `|` -/
def bor : TV → TV → TV := bitw fun _ a b => a ||| b
/-- built-in `^` -/
def bxor : TV → TV → TV := bitw fun _ a b => a ^^^ b

/-- built-in `~` on the promoted operand: `-1 - x` modulo `2^width` -/
def bnot (x : TV) : TV :=
  let t := x.ty.promote
  ⟨t, t.conv (-1 - x.v)⟩

/-- relational operators compare in the common type -/
def cmp (f : Int → Int → Bool) (x y : TV) : Bool :=
  let t := CTy.usual x.ty y.ty
  f (t.conv x.v) (t.conv y.v)

/-- built-in `==` -/
def eq : TV → TV → Bool := cmp fun a b => a == b
/-- built-in `>` -/
def gt : TV → TV → Bool := cmp fun a b => decide (b < a)
/-- built-in `<` -/
def lt : TV → TV → Bool := cmp fun a b => decide (a < b)
/-- built-in `>=` -/
def ge : TV → TV → Bool := cmp fun a b => decide (b ≤ a)
/-- built-in `<=` -/
def le : TV → TV → Bool := cmp fun a b => decide (a ≤ b)

/-- an `int` literal or `int` expression -/
def int (x : Int) : TV := ⟨tInt, x⟩
/-- a `uint64_t` expression -/
def u64 (x : Int) : TV := ⟨tU64, tU64.conv x⟩

end TV

/-- `for (i = a; i < b; i++) st = f i st` -/
def loop {σ : Type} (a b : Nat) (st : σ) (f : Nat → σ → σ) : σ :=
  (List.range' a (b - a)).foldl (fun s i => f i s) st

/-- The same loop with a body that may fault. -/
def loopM {σ : Type} (a b : Nat) (st : σ) (f : Nat → σ → Res σ) : Res σ :=
  (List.range' a (b - a)).foldlM (fun s i => f i s) st

end Verif
