import Verif.Model.Array

/-!
# Template indices, vector indices, assignments, variadic `concat`, 2-state arrays

The members of `include/logic/bit.hh`, `logic.hh` and `array.hh` that take their
index as a template argument or as a vector, the assignment operators, and
`packed_array` of 2-state elements.

Not modelled because they never compile: `bit(logic &&)` (`bit.hh` 1017-1020, the
template parameters have the wrong type), assignments to and from wide values of
another shape (`big_num`'s constructor is explicit), `logic::get(logic)`
(`logic.hh` 85-99), `logic::get(bit)` of a wide value (line 107), narrowing
`extend` of a signed value (`bit.hh` 236 has no conversion), `slice_array` and
`update` of a 2-state `packed_array` (private members of `bit`), `logic op bit`
for `& | ^ << >>` (`logic.hh` 329-333 only accepts other widths, for which the
conversion in its body does not exist).
-/

namespace Verif

namespace Bits
variable {n m : Nat} {s t : Bool}

/-- `get<idx>()`, `bit.hh` 49-52, `requires(idx < size && native_num)` -/
def getC (r : Rng) (b : Bits n s) (idx : Int) : Res Bool :=
  if idx < n ∧ n ≤ 64 then b.get r idx else .error .illFormed

/-- `set<idx>(v)` and `set<idx, v>()`, `bit.hh` 85-98, 116-134; the wide form calls
`big_num::set<i>`, which requires `i < size` (`big_num.hh` 31-51) -/
def setC (r : Rng) (b : Bits n s) (idx : Int) (v : Bool) : Res (Bits n s) :=
  let i := TV.u64 (physIdx r idx - r.lo)
  if h : n ≤ 64 then setNat h b i v
  else if i.v < n then .ok (.big h ((b.bg h).set i.v.toNat v)) else .error .illFormed

/-- `get(bit)`, `bit.hh` 54-67: the low bound is subtracted from the index before
`get_` (1093-1102) is called. No call compiles as the source stands: the result `bit<0>` of `get_` is
returned as `bool`, and `operator bool` (315) is explicit. The definition gives the bit that the body
selects, which is the result once that return type is `bit<0>`. A wide index does not compile either
(`op.value.value`, line 61). -/
def getIdx (r : Rng) (b : Bits n s) (op : Bits m t) : Res Bool :=
  if m ≤ 64 then (TV.sub op.nv (TV.int r.lo)).bind fun i => b.get r (tInt.conv i.v)
  else .error .illFormed

/-- reading a vector of width `a` as one of width `b` -/
def castW {a b : Nat} (h : a = b) (x : Bits a s) : Bits b s := h ▸ x

/-- `extend<m>()` of an unsigned value to fewer bits, `bit.hh` 232-237 -/
def narrow (r : Rng) (x : Bits n false) (m : Nat) (hm : 0 < m) : Res (Bits m false) :=
  (x.slice r (m - 1) 0).map (castW (by omega))

/-- `operator=(T v)` of a native value, `bit.hh` 1037-1041 -/
def assignInt (h : n ≤ 64) (v : TV) : Bits n s := mkN h v

/-- constructor from a `big_num`, `bit.hh` 1013-1015 (`size <= 64`) -/
def ofBig (h : n ≤ 64) (b : Big m t) : Bits n s := mkN h ⟨tU64, ((b.limb 0).toNat : Int)⟩

/-- an argument of the variadic `concat` -/
abbrev Arg := Σ w : Nat × Bool, Bits w.1 w.2

/-- `concat(arg0, args...)`, `bit.hh` 295-298, and the free function, `logic.hh`
1198-1201 -/
def concatAll : {n : Nat} → {s : Bool} → Bits n s → List Arg → Res Arg
  | n, s, x, [] => .ok ⟨(n, s), x⟩
  | n, _, x, ⟨(m, _), y⟩ :: ys =>
    if h : n + m < 64 then (x.concat y (by omega)).bind fun z => concatAll z ys
    else .error .illFormed

/-- `operator bool`, `bit.hh` 315 -/
def toBool (x : Bits n s) : Bool := x.anySet
/-- `operator!`, `bit.hh` 316 -/
def lnot (x : Bits n s) : Bool := !x.anySet
/-- unary `+`, `bit.hh` 710 -/
def pos (x : Bits n s) : Bits n s := x

/-- assignment through `slice_ref<k, increase>(base)`, `bit.hh` 205-215, 1217-1231;
`base` is `base.to_num()` -/
def updateBase (r : Rng) (x : Bits n s) (k : Nat) (increase : Bool) (base : Int) (ro : Rng) (op : Bits m t) :
    Res (Bits n s) :=
  let b := tInt.conv base
  (intRes (if increase then b + ((k : Int) - 1) else b - ((k : Int) - 1))).bind fun e =>
  x.updateRt r b e ro op

/-- `negate()` in place, `bit.hh` 900-907 (the wide form does not compile) -/
def negateMut (h : n ≤ 64) (x : Bits n s) : Res (Bits n s) :=
  (TV.add (TV.bnot x.nv) (TV.int 1)).bind fun v => (mkN h v : Bits n s).maskOff

/-- `operator>>=`, `bit.hh` 531-537; returning `*this` as a reference to the
result type only compiles if the two types are the same -/
def shrAssign (x : Bits n s) (y : Bits m t) : Res (Bits n s) :=
  if s && !t then .error .illFormed else (x.shr y).map (toSign s)
/-- `operator<<=`, `bit.hh` 562-568 -/
def shlAssign (x : Bits n s) (y : Bits m t) : Res (Bits n s) :=
  if s && !t then .error .illFormed else (x.shl y).map (toSign s)

end Bits

namespace Lg
variable {n m : Nat} {s t : Bool}

/-- `x_set<idx>()`, `logic.hh` 141-144 -/
def xSetC (r : Rng) (x : Lg n s) (idx : Int) : Res Bool :=
  (x.xz.getC r idx).bind fun m => (x.value.getC r idx).map fun v => m && !v

/-- `z_set<idx>()`, `logic.hh` 148-151 -/
def zSetC (r : Rng) (x : Lg n s) (idx : Int) : Res Bool :=
  (x.xz.getC r idx).bind fun m => (x.value.getC r idx).map fun v => m && v

/-- `set_x<idx>()`, `logic.hh` 158-162 -/
def setXC (r : Rng) (x : Lg n s) (idx : Int) : Res (Lg n s) :=
  (x.xz.setC r idx true).bind fun k => (x.value.setC r idx false).map fun v => ⟨v, k⟩

/-- `set_z<idx>()`, `logic.hh` 169-173 -/
def setZC (r : Rng) (x : Lg n s) (idx : Int) : Res (Lg n s) :=
  (x.xz.setC r idx true).bind fun k => (x.value.setC r idx true).map fun v => ⟨v, k⟩

/-- `get<idx>()`, `logic.hh` 72-83; there is no test against the declared range -/
def getC (r : Rng) (x : Lg n s) (idx : Int) : Res (Lg 1 false) :=
  (x.xSetC r idx).bind fun isX =>
  if isX then zero1.setXC (Rng.down 1) idx
  else
    (x.zSetC r idx).bind fun isZ =>
    if isZ then zero1.setZC (Rng.down 1) idx
    else (x.value.getC r idx).map fun b => known1 b

/-- `set<idx>(v)` and `set<idx, v>()`, `logic.hh` 122-132 -/
def setC (r : Rng) (x : Lg n s) (idx : Int) (v : Bool) : Res (Lg n s) :=
  (x.value.setC r idx v).bind fun v => (x.xz.setC r idx false).map fun k => ⟨v, k⟩

/-- `get(bit)` of a native value, `logic.hh` 101-114: the low bound is subtracted
and `operator[]` tests the difference against the declared range -/
def getIdx (r : Rng) (x : Lg n s) (op : Bits m t) : Res (Lg 1 false) :=
  if n ≤ 64 ∧ m ≤ 64 then
    (TV.sub op.nv (TV.int r.lo)).bind fun i => x.get r (tInt.conv i.v)
  else .error .illFormed

/-- `operator=(T v)` of a native value, `logic.hh` 1045-1050 -/
def assignInt (h : n ≤ 64) (v : TV) : Lg n s := ⟨Bits.assignInt h v, Bits.assignInt h (TV.int 0)⟩

/-- assignment and conversion between native widths, `logic.hh` 1037-1043 and
1052-1056 -/
def assignNat (x : Lg n s) (hm : m ≤ 64) : Lg m t := ⟨x.value.assignNat hm, x.xz.assignNat hm⟩

/-- an argument of the variadic `concat` -/
abbrev Arg := Σ w : Nat × Bool, Lg w.1 w.2

/-- `concat(arg0, args...)`, `logic.hh` 259-262 and 1198-1201 -/
def concatAll : {n : Nat} → {s : Bool} → Lg n s → List Arg → Res Arg
  | n, s, x, [] => .ok ⟨(n, s), x⟩
  | n, _, x, ⟨(m, _), y⟩ :: ys =>
    if h : n + m < 64 then (x.concat y (by omega)).bind fun z => concatAll z ys
    else .error .illFormed

/-- assignment through `slice_ref<k, increase>(base)`, `logic.hh` 212-222 and
`bit.hh` 1217-1231; `base` is `base.to_num()` -/
def updateBase (r : Rng) (x : Lg n s) (k : Nat) (increase : Bool) (base : Int) (ro : Rng) (op : Lg m t) :
    Res (Lg n s) :=
  let b := tInt.conv base
  (intRes (if increase then b + ((k : Int) - 1) else b - ((k : Int) - 1))).bind fun e =>
  x.updateRt r b e ro op

/-- `op(logic(y))` inside the class, as in `logic.hh` 653: the operand takes the
type of `*this` -/
def withBit {α : Type} (f : Lg n s → Lg n s → Res α) (x : Lg n s) (y : Bits n t) : Res α :=
  if convertible t s then f x (ofBits y) else .error .illFormed

/-- `operator==(bit)`, `logic.hh` 651-654 -/
def eqBit (x : Lg n s) (y : Bits n t) : Res (Lg 1 false) := withBit eq x y
/-- `operator!=(bit)`, `logic.hh` 662-665 -/
def neBit (x : Lg n s) (y : Bits n t) : Res (Lg 1 false) := withBit ne x y
/-- `match(bit)`, `logic.hh` 672-675 -/
def matchBit (x : Lg n s) (y : Bits n t) : Res Bool := withBit (fun a b => .ok (a.matches' b)) x y
/-- `operator>(bit)`, `logic.hh` 693-696 -/
def gtBit (x : Lg n s) (y : Bits n t) : Res (Lg 1 false) := withBit gt x y
/-- `operator<(bit)`, `logic.hh` 704-707 -/
def ltBit (x : Lg n s) (y : Bits n t) : Res (Lg 1 false) := withBit lt x y
/-- `operator>=(bit)`, `logic.hh` 715-718 -/
def geBit (x : Lg n s) (y : Bits n t) : Res (Lg 1 false) := withBit ge x y
/-- `operator<=(bit)`, `logic.hh` 726-729 -/
def leBit (x : Lg n s) (y : Bits n t) : Res (Lg 1 false) := withBit le x y
/-- `operator+(bit)`, `logic.hh` 764-767 -/
def addBit (x : Lg n s) (y : Bits n t) : Res (Lg n (s && s)) := withBit add x y
/-- `operator-(bit)`, `logic.hh` 795-798 -/
def subBit (x : Lg n s) (y : Bits n t) : Res (Lg n (s && s)) := withBit sub x y
/-- `operator*(bit)`, `logic.hh` 826-829 -/
def mulBit (x : Lg n s) (y : Bits n t) : Res (Lg n (s && s)) := withBit mul x y
/-- `operator/(bit)`, `logic.hh` 858-861 -/
def divBit (x : Lg n s) (y : Bits n t) : Res (Lg n (s && s)) := withBit div x y
/-- `operator%(bit)`, `logic.hh` 890-893 -/
def modBit (x : Lg n s) (y : Bits n t) : Res (Lg n (s && s)) := withBit mod x y

/-- `operator>>=`, `logic.hh` 574-581 -/
def shrAssign (x : Lg n s) (y : Lg m t) : Res (Lg n s) :=
  if s && !t then .error .illFormed else (x.shr y).map (toSign s)
/-- `operator<<=`, `logic.hh` 602-609 -/
def shlAssign (x : Lg n s) (y : Lg m t) : Res (Lg n s) :=
  if s && !t then .error .illFormed else (x.shl y).map (toSign s)

end Lg

end Verif
