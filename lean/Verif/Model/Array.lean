import Verif.Model.Logic

/-!
# Model of `include/logic/array.hh`, `struct.hh` and `union.hh`

Line numbers refer to `/repo/include/logic/array.hh` unless stated otherwise.

A packed array of `logic` elements of width `w` over the index range `ra` is one
4-state vector of `ra.size * w` bits with range `[size-1:0]` (lines 12-15 and
37-49). `packed_struct` and `union_` (`struct.hh` 9-20, `union.hh` 10-21) are
plain vectors; their fields are `slice`/`update` calls. Indexing with a wide
(more than 64 bits) index does not compile (`op >= size_logic`).
-/

namespace Verif

/-- `packed_array<logic<w-1,0,s>, msb, lsb>`, lines 37-50 -/
abbrev PArr (w : Nat) (s : Bool) (ra : Rng) := Lg (ra.size * w) s

namespace PArr

variable {w m : Nat} {s t : Bool} {ra : Rng}

/-- the declared range of the underlying vector, line 14 -/
def rng (w : Nat) (ra : Rng) : Rng := Rng.down (ra.size * w)

/-- the guard of lines 83 and 103: the index holds x/z or is not below
`array_size`, the number of *bits* (line 48) -/
def guard (w : Nat) (ra : Rng) (op : Lg m t) : Res Bool :=
  if op.xz.anySet then .ok true
  else (op.ge (Lg.ofInt (ra.size * w : Nat) : Lg 32 false)).map Lg.toBool

/-- lines 87-95 and 107-115: `int index = op.value.value; idx = index - min(msb, lsb)`, then
`idx * base_size` and `(idx + 1) * base_size`, all of type `int` (`base_size` is the
`int` of `logic.hh` line 11) -/
def bounds (w : Nat) (ra : Rng) (op : Lg m t) : Res (Int × Int) :=
  (intRes (tInt.conv op.value.nv.v - ra.lo)).bind fun idx =>
  (intRes (idx * w)).bind fun a =>
  (intRes (idx + 1)).bind fun next => (intRes (next * w)).map fun b => (a, b)

/-- `operator[](logic)`, lines 79-98; the slice bounds are `idx * base_size` and
`(idx + 1) * base_size`, inclusive -/
def get (x : PArr w s ra) (op : Lg m t) : Res (Lg w false) :=
  (guard w ra op).bind fun out =>
  if out then Lg.dflt
  else
    (bounds w ra op).bind fun p => Lg.sliceRt (rng w ra) x w p.1 p.2

/-- `update(logic, value)`, lines 100-117 -/
def update {k : Nat} {u : Bool} (x : PArr w s ra) (op : Lg m t) (rv : Rng) (v : Lg k u) :
    Res (PArr w s ra) :=
  (guard w ra op).bind fun out =>
  if out then .ok x
  else
    (bounds w ra op).bind fun p => Lg.update (rng w ra) x p.1 p.2 rv v

/-- `slice_array<hi, lo>()`, lines 52-64 -/
def sliceArray (x : PArr w s ra) (hi lo : Int) :
    Res (Lg (max (((max hi lo - ra.lo) + 1) * w - 1).toNat ((min hi lo - ra.lo) * w).toNat -
      min (((max hi lo - ra.lo) + 1) * w - 1).toNat ((min hi lo - ra.lo) * w).toNat + 1) false) :=
  Lg.slice (rng w ra) x (((max hi lo - ra.lo) + 1) * w - 1).toNat ((min hi lo - ra.lo) * w).toNat

/-- `update<hi, lo>(v)`, lines 68-77 -/
def updateSlice {k : Nat} {u : Bool} (x : PArr w s ra) (hi lo : Int) (rv : Rng) (v : Lg k u) :
    Res (PArr w s ra) :=
  Lg.update (rng w ra) x (((max hi lo - ra.lo) + 1) * w - 1) ((min hi lo - ra.lo) * w) rv v

end PArr

/-- `packed_array<bit<w-1,0,s>, msb, lsb>`, lines 17-20 and 37-50. Its
`update<hi, lo>` (lines 68-77) does not compile, because `bit` has no constant
form of `update_`, and its `slice_array` (lines 52-64) only when the array is
native. -/
abbrev PArr2 (w : Nat) (s : Bool) (ra : Rng) := Bits (ra.size * w) s

namespace PArr2

variable {w m : Nat} {s t : Bool} {ra : Rng}

/-- `operator[](logic)`, lines 79-98; `T_{}` is zero -/
def get (x : PArr2 w s ra) (op : Lg m t) : Res (Bits w false) :=
  (PArr.guard w ra op).bind fun out =>
  if out then .ok Bits.zero
  else
    (PArr.bounds w ra op).bind fun p => Bits.sliceRt (PArr.rng w ra) x w p.1 p.2

/-- `update(logic, value)`, lines 100-117, over `bit.hh` 1177-1193 -/
def update {k : Nat} {u : Bool} (x : PArr2 w s ra) (op : Lg m t) (rv : Rng) (v : Bits k u) :
    Res (PArr2 w s ra) :=
  (PArr.guard w ra op).bind fun out =>
  if out then .ok x
  else
    (PArr.bounds w ra op).bind fun p => Bits.updateRt (PArr.rng w ra) x p.1 p.2 rv v

/-- `slice_array<hi, lo>()` of a native array, lines 52-64 over `bit.hh` 1123-1148 -/
def sliceArray (x : PArr2 w s ra) (hi lo : Int) :
    Res (Bits (max (((max hi lo - ra.lo) + 1) * w - 1).toNat ((min hi lo - ra.lo) * w).toNat -
      min (((max hi lo - ra.lo) + 1) * w - 1).toNat ((min hi lo - ra.lo) * w).toNat + 1) false) :=
  if ra.size * w ≤ 64 then
    Bits.slice (PArr.rng w ra) x (((max hi lo - ra.lo) + 1) * w - 1).toNat ((min hi lo - ra.lo) * w).toNat
  else .error .illFormed

end PArr2

/-- `unpacked_array<T, msb, lsb>`, lines 126-130 -/
structure UArr (α : Type) (r : Rng) where
  vals : List α
  len : vals.length = r.size

namespace UArr

variable {α : Type} {r : Rng}

/-- `operator[](int)`, lines 132-140; `dflt` is `T{}`. The subtraction is
converted to `uint32_t`; it is assumed not to overflow `int`. -/
def get (dflt : α) (x : UArr α r) (idx : Int) : α :=
  let i := (tU32.conv (idx - r.lo)).toNat
  if i ≥ r.size then dflt else x.vals.getD i dflt

/-- `update<idx>(v)`, lines 142-149: the guard tests `idx`, the store uses
`idx - min(msb, lsb)` -/
def update (x : UArr α r) (idx : Int) (v : α) : Res (UArr α r) :=
  if tU64.conv idx ≥ (r.size : Int) then .ok x
  else
    let i := (tU64.conv (idx - r.lo)).toNat
    if i < r.size then .ok ⟨x.vals.set i v, by simpa using x.len⟩ else .error .oob

end UArr
end Verif
