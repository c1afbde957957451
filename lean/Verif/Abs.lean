import Verif.Spec
import Verif.Model.Logic

/-!
# Abstraction functions

What the bits of a modelled object are, independent of how it is stored.
`Verif/Props/Access.lean` proves that `operator[]` reads exactly these bits.
-/

namespace Verif

/-- the number stored in a little-endian list of 64-bit limbs -/
def val : List (BitVec 64) → Nat
  | [] => 0
  | v :: vs => v.toNat + 2 ^ 64 * val vs

/-- the `n` bits of a 2-state object -/
def Bits.bv {n : Nat} {s : Bool} : Bits n s → BitVec n
  | .nat _ r => r.setWidth n
  | .big _ b => BitVec.ofNat n (val b.vals)

/-- the number denoted by `n` bits of a declared signedness; a one bit signed
object is held in a `bool` and denotes 0 or 1 -/
def numOf (s : Bool) {n : Nat} (b : BitVec n) : Int :=
  if s && !decide (n ≤ 1) then b.toInt else b.toNat

/-- The storage holds the denoted number and nothing else: the bits above the
declared width repeat the sign of a signed native object and are zero
otherwise. -/
def Bits.Clean {n : Nat} {s : Bool} (x : Bits n s) : Prop :=
  match x with
  | .nat _ _ => x.nv.v = numOf s x.bv
  | .big _ b => val b.vals < 2 ^ n

/-- 4-state bit from the two planes: `xz` says x/z, the value plane which -/
def V4.mk (v xz : Bool) : V4 :=
  match xz, v with
  | false, false => .b0
  | false, true => .b1
  | true, false => .x
  | true, true => .z

/-- the 4-state bit at position `i` -/
def Lg.at {n : Nat} {s : Bool} (x : Lg n s) (i : Nat) : V4 :=
  V4.mk (x.value.bv.getLsbD i) (x.xz.bv.getLsbD i)

/-- both planes hold nothing outside the declared width -/
def Lg.Clean {n : Nat} {s : Bool} (x : Lg n s) : Prop := x.value.Clean ∧ x.xz.Clean

/-- no bit is x or z, and the x/z plane holds nothing outside the declared width -/
def Lg.Known {n : Nat} {s : Bool} (x : Lg n s) : Prop :=
  x.xz.Clean ∧ ∀ i, i < n → (x.at i).isKnown = true

/-- Bit positions that the emptiness test of the library looks at: all positions
of a native value, the lower half of every 64-bit limb of a wide one. -/
def seen (n i : Nat) : Prop := n ≤ 64 ∨ i % 64 < 32

instance (n i : Nat) : Decidable (seen n i) := inferInstanceAs (Decidable (_ ∨ _))

/-- some bit at a position the library's emptiness test looks at is x or z -/
def Lg.SeenXZ {n : Nat} {s : Bool} (x : Lg n s) : Prop :=
  ∃ i, i < n ∧ seen n i ∧ (x.at i).isKnown = false

/-- widths of the C++ integer types: the holder has no spare bits -/
def Full (n : Nat) : Prop := n = 1 ∨ n = 8 ∨ n = 16 ∨ n = 32 ∨ n = 64

instance (n : Nat) : Decidable (Full n) := inferInstanceAs (Decidable (_ ∨ _))

/-- every non-zero 64-bit chunk of the bit vector has a one in its lower half -/
def LowHalves {n : Nat} (b : BitVec n) : Prop :=
  ∀ c, (∃ j, j < 64 ∧ b.getLsbD (64 * c + j) = true) → ∃ j, j < 32 ∧ b.getLsbD (64 * c + j) = true

end Verif
