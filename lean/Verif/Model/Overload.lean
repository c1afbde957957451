import Verif.Model.Bit

/-!
# Overload sets

The `requires` clauses and template parameters that decide which overload of a member a call selects. A call compiles if
exactly one candidate is viable and the chosen body compiles; here the first half. `size` is an `int`
(`bit.hh` 18, `logic.hh` 11), so the clauses compare signed numbers; the overflow of `abs_diff` and `size - 1 + op_lsb` for ranges of
`2^31` bits or more is not modelled. None of the clauses names a concept, so none is more constrained than another and two viable candidates with the
same parameters are ambiguous.
-/

namespace Verif

/-- the results of the candidates whose constraint holds -/
def viable {α : Type} (l : List (Bool × α)) : List α := (l.filter (·.1)).map (·.2)

/-- `in_range`, `util.hh` 23 -/
def inRange (a lo hi : Nat) : Bool := decide (lo ≤ a) && decide (a ≤ hi)

/-- `native_num`, `util.hh` 49 -/
def nativeNum (a : Nat) : Bool := decide (a ≤ 64)

/-- `match_endian`, `util.hh` 76-78 -/
def matchEndian (h1 l1 h2 l2 : Int) : Bool :=
  (decide (h1 ≥ l1) && decide (h2 ≥ l2)) || (decide (h1 < l1) && decide (h2 < l2))

/-- `total_size`, `util.hh` 80 -/
def totalSize (msb lsb : Int) : Nat := (msb - lsb).natAbs + 1

/-- holder of a value: a C++ integer type or a `big_num` -/
inductive Holder
  | prim (t : CTy)
  | big
  deriving DecidableEq

/-- the specialisations of `get_holder_type`, `util.hh` 85-138 -/
def holderSpecs (n : Nat) (s : Bool) : List (Bool × Holder) :=
  [(inRange n 1 1 && !s, .prim .bool), (inRange n 1 1 && s, .prim .bool),
   (inRange n 2 8 && !s, .prim (.int 8 false)), (inRange n 2 8 && s, .prim (.int 8 true)),
   (inRange n 9 16 && !s, .prim (.int 16 false)), (inRange n 9 16 && s, .prim (.int 16 true)),
   (inRange n 17 32 && !s, .prim (.int 32 false)), (inRange n 17 32 && s, .prim (.int 32 true)),
   (inRange n 33 64 && !s, .prim (.int 64 false)), (inRange n 33 64 && s, .prim (.int 64 true)),
   (decide (65 ≤ n), .big)]

/-- the overloads of `to_num`, `bit.hh` 969-995 and `logic.hh` 947-1001: the type of the result -/
def toNumSpecs (n : Nat) (s : Bool) : List (Bool × CTy) :=
  [(s && decide (n ≤ 8), .int 8 true), (!s && decide (n ≤ 8), .int 8 false),
   (s && decide (8 < n) && decide (n ≤ 16), .int 16 true), (!s && decide (8 < n) && decide (n ≤ 16), .int 16 false),
   (s && decide (16 < n) && decide (n ≤ 32), .int 32 true), (!s && decide (16 < n) && decide (n ≤ 32), .int 32 false),
   (s && decide (32 < n) && decide (n ≤ 64), .int 64 true), (!s && decide (32 < n) && decide (n ≤ 64), .int 64 false)]

/-- which of the bodies of `slice` -/
inductive SliceForm
  /-- `bit.hh` 153-155 -/
  | native
  /-- `bit.hh` 160-169 -/
  | small
  /-- `bit.hh` 173-179 -/
  | wide
  deriving DecidableEq

/-- `bit::slice<a, b>()`, `bit.hh` 153-179; the result has `abs_diff(a, b) + 1` bits -/
def sliceSpecs (r : Rng) (a b : Int) : List (Bool × SliceForm) :=
  let fit := decide (max a b < r.size)
  let low := decide (b ≥ r.lsb)
  [(fit && nativeNum r.size && low, .native),
   (fit && !nativeNum r.size && nativeNum (a - b).natAbs && low, .small),
   (fit && !nativeNum r.size && !nativeNum (a - b).natAbs && low, .wide)]

/-- `logic::slice<a, b>()`, `logic.hh` 178-182; its body slices both planes (`logic.hh` 1125-1130), which are `bit`s -/
def sliceSpecs4 (r : Rng) (a b : Int) : List (Bool × SliceForm) :=
  (viable (sliceSpecs r a b)).map fun f => (decide (max a b < r.size), f)

/-- which of the bodies of `extend` -/
inductive ExtendForm
  | native | same | narrow | nativeToWide | wide
  deriving DecidableEq

/-- `bit::extend<k>()`, `bit.hh` 220-267, for `0 < k` (`extend<0>` has no viable form, its result type is ill-formed) -/
def extendSpecs (n k : Nat) : List (Bool × ExtendForm) :=
  [(decide (k > n) && nativeNum k, .native), (decide (k = n), .same), (decide (k < n), .narrow),
   (decide (k > n) && !nativeNum k && nativeNum n, .nativeToWide),
   (decide (k > n) && !nativeNum k && !nativeNum n, .wide)]

/-- `logic::extend<k>()`, `logic.hh` 227-229 -/
def extendSpecs4 (n k : Nat) : List (Bool × ExtendForm) :=
  (viable (extendSpecs n k)).map fun f => (decide (k ≥ n), f)

/-- which of the bodies of a binary operator -/
inductive OpForm
  /-- both operands are extended first -/
  | mixed
  /-- the operand has the size of `*this` -/
  | equal
  deriving DecidableEq

/-- the operators `& | ^ + - * / %` of `bit` on a `bit` (`bit.hh` 360-371, 393-404, 426-437, 716-728 and so on) and of `logic` on a `logic`
(`logic.hh` 294-302 and so on), right operand of range `q`: the second template takes `bit<size - 1 + op_lsb, op_lsb, op_signed>` and so
deduces `op_lsb` and compares the rest -/
def opSpecs (r q : Rng) : List (Bool × OpForm) :=
  [(decide (totalSize q.msb q.lsb ≠ r.size), .mixed), (decide (q.msb = r.size - 1 + q.lsb), .equal)]

/-- the operators `& | ^` of `logic` on a `bit` (`logic.hh` 329-333, 394-398, 448-452) -/
def opSpecs4b (r q : Rng) : List (Bool × OpForm) := [(decide (totalSize q.msb q.lsb ≠ r.size), .mixed)]

/-- members with one form for native and one for wide vectors: `r_and`, `r_xor`, `any_set` (`bit.hh` 460-465, 473-481, 868-873) -/
def twoSpecs (n : Nat) : List (Bool × Bool) := [(nativeNum n, true), (!nativeNum n, false)]

/-- `bit::update<hi, lo>`, `bit.hh` 933-934 -/
def updateSpecs (r : Rng) (hi lo : Int) : List (Bool × Unit) :=
  [(decide (hi < r.size) && decide (lo < r.size), ())]

/-- `logic::update<hi, lo>`, `logic.hh` 923-925 and 1133-1136 -/
def updateSpecs4 (r : Rng) (hi lo : Int) : List (Bool × Unit) :=
  [(decide (hi < r.size) && decide (lo < r.size) && matchEndian hi lo r.msb r.lsb, ())]

/-- `get<idx>()`, `bit.hh` 49-50; `logic::get<idx>()` (`logic.hh` 72-83) calls it on both planes -/
def getSpecs (r : Rng) (i : Int) : List (Bool × Unit) := [(decide (i < r.size) && nativeNum r.size, ())]

end Verif
