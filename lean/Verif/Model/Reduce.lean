import Verif.Model.BigNum

/-!
# `std::reduce` with an unspecified evaluation order

`Big.reduceOr` and `Big.reduceAnd` (`Verif/Model/BigNum.lean`) fold from the left
and store every intermediate result in the `int` accumulator. The C++ standard
leaves the grouping, the order of the operands and the place where an
intermediate result is converted to the type of the initial value (`int`, because
`big_num.hh` passes the literal `0`) to the implementation. `RTree` is one such
choice.
-/

namespace Verif

/-- An evaluation of `std::reduce(first, last, 0, op)`: the leaves are the initial
value and the elements. `node true` keeps its result in a variable of type `int`,
`node false` passes it on in the type of `op`'s result. -/
inductive RTree
  | init
  | elem (v : BitVec 64)
  | node (toInt : Bool) (l r : RTree)

/-- an intermediate value: an `int` or a `uint64_t` -/
inductive RVal
  | i32 (v : BitVec 32)
  | u64 (v : BitVec 64)

namespace RVal
/-- conversion to `uint64_t` in the usual arithmetic conversions -/
def toU64 : RVal → BitVec 64
  | i32 v => v.signExtend 64
  | u64 v => v

/-- conversion to `int` -/
def toI32 : RVal → BitVec 32
  | i32 v => v
  | u64 v => v.setWidth 32

/-- `[](auto a, auto b) { return a | b; }`, `big_num.hh` lines 456-457, 469-470,
479-480, 774, 811, 816; `f64` is the operator at 64 bits, `f32` at 32 bits -/
def op (f64 : BitVec 64 → BitVec 64 → BitVec 64) (f32 : BitVec 32 → BitVec 32 → BitVec 32) :
    RVal → RVal → RVal
  | i32 a, i32 b => i32 (f32 a b)
  | a, b => u64 (f64 a.toU64 b.toU64)
end RVal

namespace RTree

/-- the elements at the leaves -/
def elems : RTree → List (BitVec 64)
  | init => []
  | elem v => [v]
  | node _ l r => l.elems ++ r.elems

/-- how often the initial value is used -/
def inits : RTree → Nat
  | init => 1
  | elem _ => 0
  | node _ l r => l.inits + r.inits

/-- value of an evaluation tree -/
def eval (f64 : BitVec 64 → BitVec 64 → BitVec 64) (f32 : BitVec 32 → BitVec 32 → BitVec 32) :
    RTree → RVal
  | init => .i32 0
  | elem v => .u64 v
  | node c l r =>
    let v := RVal.op f64 f32 (l.eval f64 f32) (r.eval f64 f32)
    if c then .i32 v.toI32 else v

/-- the `int` returned for `a | b` -/
def or (t : RTree) : BitVec 32 := (t.eval (· ||| ·) (· ||| ·)).toI32

/-- the `int` returned for `a & b`, `big_num.hh` line 790 -/
def and (t : RTree) : BitVec 32 := (t.eval (· &&& ·) (· &&& ·)).toI32

end RTree
end Verif
