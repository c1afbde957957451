import Verif.Model.Logic
import Verif.Model.Array

/-!
Index arithmetic in `int`, `include/logic/bit.hh`, `include/logic/logic.hh` and
`include/logic/array.hh`.

The definitions of `Model/Bit.lean` and `Model/Logic.lean` compute positions in
unbounded integers. The source computes them in `int`, where a result outside the type
is undefined behaviour. The definitions below evaluate the same functions with every
`int` expression checked by `intRes`; each check stands where the source evaluates the
expression, before the access that uses it. An index argument is assumed to be an `int`.
Constant forms (`set<idx>`, `slice<a, b>`, `update<hi, lo>`) evaluate the same
expressions at compile time, where an overflow is a compilation error.
-/

namespace Verif

namespace Bits

variable {n m : Nat} {s t : Bool}

/-- `idx = lsb - idx` for ascending ranges, `bit.hh` 70-72, 101-103, 1094-1096 -/
def physI (r : Rng) (idx : Int) : Res Int := if r.bigEndian then .ok idx else intRes (r.lsb - idx)

/-- `operator[](int)` and `get_`, `bit.hh` 47 and 1093-1102 -/
def getI (r : Rng) (b : Bits n s) (idx : Int) : Res Bool :=
  (physI r idx).bind fun _ => b.get r idx

/-- `static_cast<uint64_t>(idx - util::min(lsb, msb))`, `bit.hh` 73 and 104: the
subtraction is made in `int` -/
def posI (r : Rng) (idx : Int) : Res Int := (physI r idx).bind fun i => intRes (i - r.lo)

/-- `set(int, bool)`, `bit.hh` 69-83 -/
def setI (r : Rng) (b : Bits n s) (idx : Int) (v : Bool) : Res (Bits n s) :=
  (posI r idx).bind fun _ => b.set r idx v

/-- `set(int, bit<0>)`, `bit.hh` 100-114 -/
def setBitI (r : Rng) (b : Bits n s) (idx : Int) (v : Bool) : Res (Bits n s) :=
  (posI r idx).bind fun _ => b.setBit r idx v

/-- `slice<k>(a, b)`, `bit.hh` 186-189 and 1150-1175: the native form subtracts the low
bound from both ends in `int`; the wide form converts the ends to `uint64_t` -/
def sliceRtI (r : Rng) (x : Bits n s) (k : Nat) (a b : Int) : Res (Bits k false) :=
  if n ≤ 64 then
    (intRes (max a b - r.lo)).bind fun _ => (intRes (min a b - r.lo)).bind fun _ => x.sliceRt r k a b
  else x.sliceRt r k a b

/-- the operand index `util::max(op_lo, op_hi) - i` or `i`, `bit.hh` 941-945 and
1184-1188, `logic.hh` 1143-1147 and 1168-1172 -/
def opIdxI (r ro : Rng) (i : Int) : Res Int :=
  if ro.bigEndian ^^ r.bigEndian then intRes (ro.hi - i) else .ok i

/-- `update(hi, lo, op)` and `update_`, `bit.hh` 951-956 and 1177-1193: the end
`max(hi, lo) + 1` is an `int`; the operand index is an `int` converted to `uint64_t`,
from which `start` is subtracted modulo `2^64`, and the difference is converted to the
`int` parameter of `operator[]` -/
def updateRtI (r : Rng) (x : Bits n s) (hi lo : Int) (ro : Rng) (op : Bits m t) : Res (Bits n s) :=
  let start := min hi lo
  (intRes (max hi lo + 1)).bind fun stop =>
  loopM 0 (stop - start).toNat x fun k x =>
    let i := start + k
    (opIdxI r ro i).bind fun idx =>
    (op.getI ro (tInt.conv (tU64.conv (tU64.conv idx - tU64.conv start)))).bind fun b => x.setBitI r i b

end Bits

namespace Lg

variable {n m : Nat} {s t : Bool}

/-- `operator[](int)`, `logic.hh` 54-70: the bounds are compared first, the index is
normalised in `bit::operator[]` -/
def getI (r : Rng) (x : Lg n s) (idx : Int) : Res (Lg 1 false) :=
  if idx ≤ r.hi ∧ r.lo ≤ idx then
    (dflt : Res (Lg 1 false)).bind fun _ => (Bits.physI r idx).bind fun _ => x.get r idx
  else dflt

/-- `set(int, logic<0>)` and `set_`, `logic.hh` 134-137 and 1111-1115 -/
def setLI (r : Rng) (x : Lg n s) (idx : Int) (l : Lg 1 t) : Res (Lg n s) :=
  (Bits.posI r idx).bind fun _ => x.setL r idx l

/-- body of the loop of `update_`, `logic.hh` 1164-1182 -/
def updateStepI (r : Rng) (start : Int) (ro : Rng) (op : Lg m t) (i : Int) (x : Lg n s) :
    Res (Lg n s) :=
  (Bits.opIdxI r ro i).bind fun idx0 =>
  let idx := tU64.conv (tU64.conv idx0 - tU64.conv start)
  if idx > tU64.conv ro.hi ∨ idx < tU64.conv ro.lo then x.setLI r i zero1
  else (op.getI ro (tInt.conv idx)).bind fun b => x.setLI r i b

/-- run-time `update(hi, lo, op)` and `update_`, `logic.hh` 929-934 and 1160-1183 -/
def updateRtI (r : Rng) (x : Lg n s) (hi lo : Int) (ro : Rng) (op : Lg m t) : Res (Lg n s) :=
  let start := min hi lo
  (intRes (max hi lo + 1)).bind fun stop =>
  loopM 0 (stop - start).toNat x fun k x => updateStepI r start ro op (start + k) x

end Lg
/-- `unpacked_array::operator[](int)`, `array.hh` 132-140: `idx - util::min(msb, lsb)` is an
`int`, converted to `uint32_t` -/
def UArr.getI {α : Type} {r : Rng} (dflt : α) (x : UArr α r) (idx : Int) : Res α :=
  (intRes (idx - r.lo)).map fun _ => x.get dflt idx

end Verif
