import Verif.Model.Array

/-!
# Object layout

Where the members of the library's objects lie in memory: `big_num.hh` 16 (`std::array<uint64_t, s> values`),
`bit.hh` 26 (`T value`), `logic.hh` 15-19 (`value`, `xz_mask`), `array.hh` 38 and 130. The rules are those of the
Itanium C++ ABI on x86-64: a member starts at the next multiple of its alignment, the size of a class is rounded up to
its alignment, integers are stored with the low byte first. Static members take no space. `std::array<T, n>` is a
class with one member `T[n]`. The base class of `packed_array` is its only subobject.
-/

namespace Verif

/-- a C++ object type, as far as its layout goes -/
inductive Ty
  /-- an integer of `b` bytes, aligned to its size -/
  | int (b : Nat)
  /-- `t[n]` -/
  | arr (n : Nat) (t : Ty)
  /-- a class with one member or base class -/
  | wrap (t : Ty)
  /-- a class with two members -/
  | pair (t u : Ty)

/-- the next multiple of `a` -/
def roundUp (x a : Nat) : Nat := (x + a - 1) / a * a

namespace Ty

/-- `alignof` -/
def align : Ty → Nat
  | int b => b
  | arr _ t => t.align
  | wrap t => t.align
  | pair t u => max t.align u.align

/-- `sizeof` -/
def size : Ty → Nat
  | int b => b
  | arr n t => n * t.size
  | wrap t => roundUp t.size t.align
  | pair t u => roundUp (roundUp t.size u.align + u.size) (max t.align u.align)

end Ty

/-- the holder `T`, `util.hh` 82-138 and `big_num.hh` 17-21 -/
def holderL (n : Nat) : Ty := if n ≤ 64 then .int (sizeofBits n / 8) else .wrap (.wrap (.arr (limbs n) (.int 8)))

/-- `bit<msb, lsb, s>`, `bit.hh` 26 -/
def bitL (n : Nat) : Ty := .wrap (holderL n)

/-- `logic<msb, lsb, s>`, `logic.hh` 15-19 -/
def logicL (n : Nat) : Ty := .pair (bitL n) (bitL n)

/-- `packed_array<T, msb, lsb>` over `logic` (`four`) or `bit` elements of `w` bits, `array.hh` 12-20 and 37-38 -/
def packedL (four : Bool) (w : Nat) (ra : Rng) : Ty :=
  .wrap (if four then logicL (ra.size * w) else bitL (ra.size * w))

/-- `unpacked_array<T, msb, lsb>`, `array.hh` 126-130 -/
def unpackedL (t : Ty) (ra : Rng) : Ty := .wrap (.wrap (.arr ra.size t))

/-- The bytes of an object; `none` is padding. -/
abbrev Rep := List (Option (BitVec 8))

namespace Rep

/-- padding up to `k` bytes -/
def pad (r : Rep) (k : Nat) : Rep := r ++ List.replicate (k - r.length) none

/-- an integer of `b` bytes, the low byte first -/
def ofInt {k : Nat} (b : Nat) (v : BitVec k) : Rep := (List.range b).map fun i => some (v.extractLsb' (8 * i) 8)

/-- a class with one member of type `t` -/
def wrap (t : Ty) (r : Rep) : Rep := r.pad (Ty.wrap t).size

/-- a class with two members of types `t` and `u` -/
def pair (t u : Ty) (r q : Rep) : Rep := (r.pad (roundUp t.size u.align) ++ q).pad (Ty.pair t u).size

end Rep

/-- the bytes of a `bit` -/
def Bits.rep {n : Nat} {s : Bool} : Bits n s → Rep
  | .nat _ r => Rep.wrap (holderL n) (Rep.ofInt (sizeofBits n / 8) r)
  | .big _ b => Rep.wrap (holderL n) (Rep.wrap (.wrap (.arr (limbs n) (.int 8)))
      (Rep.wrap (.arr (limbs n) (.int 8)) (b.vals.flatMap (Rep.ofInt 8))))

/-- the bytes of a `logic` -/
def Lg.rep {n : Nat} {s : Bool} (x : Lg n s) : Rep := Rep.pair (bitL n) (bitL n) x.value.rep x.xz.rep

end Verif
