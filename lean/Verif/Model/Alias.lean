import Verif.Model.Logic

/-!
# Slice assignment whose operand is the assigned object

`update` takes its operand by const reference and reads one bit of it per iteration,
after the previous iteration has written its bit. When the operand is the object itself
(`x.update(hi, lo, x)`, `x.slice_ref(hi, lo) = x`) the reads see the writes. `Bits.update`,
`Bits.updateRt` and `Lg.update` have the operand as a separate value, which is right only
when it is a different object; the definitions of this file are the same loops with the
operand read from the current state. The endianness test compares a type with itself, so
its branch is not taken.
-/

namespace Verif

variable {n : Nat} {s : Bool}

/-- `x.update<hi, lo>(x)`, `bit.hh` lines 933-949, with `op` bound to `*this` -/
def Bits.updateSelf (r : Rng) (x : Bits n s) (hi lo : Int) : Res (Bits n s) :=
  let start := min hi lo
  let stop := max hi lo + 1
  loopM 0 (stop - start).toNat x fun k x =>
    let i := start + k
    (x.get r i).bind fun b => x.setBit r i b

/-- `x.update(hi, lo, x)`, `bit.hh` lines 951-956 and 1177-1193, and
`x.slice_ref(hi, lo) = x`, lines 1216-1231, with `op` bound to `*this` -/
def Bits.updateRtSelf (r : Rng) (x : Bits n s) (hi lo : Int) : Res (Bits n s) :=
  let start := min hi lo
  let stop := max hi lo + 1
  loopM 0 (stop - start).toNat x fun k x =>
    let i := start + k
    (x.get r (i - start)).bind fun b => x.setBit r i b

/-- `x.update<hi, lo>(x)` and `x.update(hi, lo, x)`, `logic.hh` lines 923-934 and
1133-1183, with `op` bound to `*this` -/
def Lg.updateSelf (r : Rng) (x : Lg n s) (hi lo : Int) : Res (Lg n s) :=
  let start := min hi lo
  let stop := max hi lo + 1
  loopM 0 (stop - start).toNat x fun k x => Lg.updateStep r start r x (start + k) x

end Verif
