import Verif.Model.Array

/-!
# Packed arrays of packed arrays (`array.hh` 9-20, 25-28 and 37-50)

`packed_array<packed_array<logic<w-1,0,s>, ...>, msb, lsb>` has as `T::size` the `size` its element type inherits from `logic`, the number of
bits of the whole inner array, and as `T::is_signed` and `T::is_4state` those of the innermost element. An index yields the base type of lines 25-28, a plain vector and not the
inner array: a second index goes to `logic::operator[]`.
-/

namespace Verif

/-- `array_size`, line 48: the bits of an array of arrays with the index ranges `ds`, outermost first, and elements of `w` bits -/
def dimBits (w : Nat) : List Rng → Nat
  | [] => w
  | r :: ds => r.size * dimBits w ds

/-- a packed array with the index ranges `ds`: one vector, lines 12-15 -/
abbrev MArr (w : Nat) (s : Bool) (ds : List Rng) := Lg (dimBits w ds) s

namespace MArr

variable {w m : Nat} {s t : Bool} {r : Rng} {ds : List Rng}

/-- `a[op]`, lines 79-98: the packed array whose elements are the inner arrays -/
def row (x : MArr w s (r :: ds)) (op : Lg m t) : Res (Lg (dimBits w ds) false) := PArr.get (w := dimBits w ds) (ra := r) x op

/-- `a[op][j]`: `logic::operator[]` (`logic.hh` 59-70) on the vector that the first index gives -/
def rowIndex (x : MArr w s (r :: ds)) (op : Lg m t) (j : Nat) : Res (Lg 1 false) :=
  (x.row op).bind fun z => z.get (Rng.down (dimBits w ds)) j

/-- `a.update(op, v)`, lines 100-117, with a vector of the size of an inner array -/
def setRow {u : Bool} (x : MArr w s (r :: ds)) (op : Lg m t) (v : Lg (dimBits w ds) u) : Res (MArr w s (r :: ds)) :=
  PArr.update (w := dimBits w ds) (ra := r) x op (Rng.down (dimBits w ds)) v

/-- client code: the inner indices (counted from 0) as run-time slices `z.slice<k>(i * k, i * k + k - 1)` of the vector, one after the other,
with `k` the bits of an element of the current dimension -/
def walk : (ds : List Rng) → List Nat → Lg (dimBits w ds) false → Res (Lg w false)
  | [], _, z => .ok z
  | r :: ds, i :: l, z =>
    (z.sliceRt (Rng.down (r.size * dimBits w ds)) (dimBits w ds) ((i * dimBits w ds : Nat) : Int) ((i * dimBits w ds + dimBits w ds - 1 : Nat) : Int)).bind
      fun z => walk ds l z
  | _ :: _, [], _ => .error .illFormed

end MArr
end Verif
