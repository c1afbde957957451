import Verif.Model.Bit

/-!
# Model of `include/logic/logic.hh` (4-state vectors)

Line numbers refer to `/repo/include/logic/logic.hh` unless stated otherwise.

Instantiations that do not compile and are not modelled: signed-signed bitwise
operators (`result.value &= ~mask` returns a reference of another type),
unary minus of a wide value, `r_xor` of signed, one bit and wide values
(`std::popcount`), `logic op bit` for operands of a different shape (the name
`logic` inside the class is the class itself), `get(op)` (lines 85-114).
-/

namespace Verif

/-- `logic<msb, lsb, s>` of size `n`: the two planes of lines 15-19 -/
structure Lg (n : Nat) (s : Bool) where
  value : Bits n s
  xz : Bits n false
  deriving DecidableEq

namespace Lg

variable {n m : Nat} {s t : Bool}

/-! ### constructors -/

/-- default constructor, line 1007: value 0 and `xz_mask.mask()` -/
def dflt : Res (Lg n s) := (Bits.zero : Bits n false).mask.map fun k => ⟨Bits.zero, k⟩

/-- constructor from an arithmetic value, lines 1009-1011 -/
def ofInt (v : Int) : Lg n s := ⟨Bits.ofInt v, Bits.zero⟩

/-- conversion from `bit`, lines 1024-1028 -/
def ofBits (b : Bits n t) : Lg n s := ⟨b.toSign s, Bits.zero⟩

/-- conversion and assignment between equally wide objects, lines 1030-1056 -/
def toSign (t : Bool) (x : Lg n s) : Lg n t := ⟨x.value.toSign t, x.xz⟩

/-- `x_()`, lines 1059-1064 -/
def x1 : Lg 1 false := ⟨Bits.mkN (by decide) ⟨.bool, 0⟩, Bits.mkN (by decide) ⟨.bool, 1⟩⟩
/-- `one_()`, lines 1066-1071 -/
def one1 : Lg 1 false := ⟨Bits.mkN (by decide) ⟨.bool, 1⟩, Bits.mkN (by decide) ⟨.bool, 0⟩⟩
/-- `zero_()`, lines 1073-1078 -/
def zero1 : Lg 1 false := ⟨Bits.mkN (by decide) ⟨.bool, 0⟩, Bits.mkN (by decide) ⟨.bool, 0⟩⟩
/-- a known single bit -/
def known1 (b : Bool) : Lg 1 false := if b then one1 else zero1

/-! ### single bits -/

/-- `x_set`, line 139 -/
def xSet (r : Rng) (x : Lg n s) (idx : Int) : Res Bool :=
  (x.xz.get r idx).bind fun m => (x.value.get r idx).map fun v => m && !v

/-- `z_set`, line 146 -/
def zSet (r : Rng) (x : Lg n s) (idx : Int) : Res Bool :=
  (x.xz.get r idx).bind fun m => (x.value.get r idx).map fun v => m && v

/-- `set_x(int)`, lines 153-156 -/
def setX (r : Rng) (x : Lg n s) (idx : Int) : Res (Lg n s) :=
  (x.xz.set r idx true).bind fun k => (x.value.set r idx false).map fun v => ⟨v, k⟩

/-- `set_z(int)`, lines 164-167 -/
def setZ (r : Rng) (x : Lg n s) (idx : Int) : Res (Lg n s) :=
  (x.xz.set r idx true).bind fun k => (x.value.set r idx true).map fun v => ⟨v, k⟩

/-- `operator[](int)`, lines 54-70. The result object is a one bit `logic`, but
`set_x`/`set_z` are called on it with the index into `*this`. -/
def get (r : Rng) (x : Lg n s) (idx : Int) : Res (Lg 1 false) :=
  if idx ≤ r.hi ∧ r.lo ≤ idx then
    (dflt : Res (Lg 1 false)).bind fun res =>
    (x.xSet r idx).bind fun isX =>
    if isX then res.setX (Rng.down 1) idx
    else
      (x.zSet r idx).bind fun isZ =>
      if isZ then res.setZ (Rng.down 1) idx
      else (x.value.get r idx).map fun b => known1 b
  else dflt

/-- `set(int, bool)`, lines 116-120 -/
def set (r : Rng) (x : Lg n s) (idx : Int) (v : Bool) : Res (Lg n s) :=
  (x.value.set r idx v).bind fun v => (x.xz.set r idx false).map fun k => ⟨v, k⟩

/-- the `bool` in the holder of a one bit object -/
def hold1 {s : Bool} (b : Bits 1 s) : Bool := b.nv.v != 0

/-- `set(int, logic<0>)` and `set_`, lines 134-137 and 1111-1115 -/
def setL (r : Rng) (x : Lg n s) (idx : Int) (l : Lg 1 t) : Res (Lg n s) :=
  (x.value.set r idx (hold1 l.value)).bind fun v =>
  (x.xz.set r idx (hold1 l.xz)).map fun k => ⟨v, k⟩

/-! ### slices, extension, concatenation -/

/-- `slice<a, b>()`, lines 178-182 and 1117-1131 -/
def slice (r : Rng) (x : Lg n s) (a b : Nat) : Res (Lg (max a b - min a b + 1) false) :=
  (x.value.slice r a b).bind fun v => (x.xz.slice r a b).map fun k => ⟨v, k⟩

/-- run-time `slice<k>(a, b)`, lines 190-196 -/
def sliceRt (r : Rng) (x : Lg n s) (k : Nat) (a b : Int) : Res (Lg k false) :=
  (x.value.sliceRt r k a b).bind fun v => (x.xz.sliceRt r k a b).map fun k => ⟨v, k⟩

/-- `slice<k, increase>(base)`, lines 200-210 -/
def sliceBase (r : Rng) (x : Lg n s) (k : Nat) (increase : Bool) (base : Int) :
    Res (Lg k false) :=
  let b := tInt.conv base
  (intRes (if increase then b + ((k : Int) - 1) else b - ((k : Int) - 1))).bind fun e =>
  x.sliceRt r k b e

/-- `extend<m>()`, lines 227-234 -/
def extend (m : Nat) (x : Lg n s) : Lg m s := ⟨x.value.extend m, x.xz.extend m⟩

/-- `concat(logic)`, lines 239-247 -/
def concat (x : Lg n s) (y : Lg m t) (h : n + m < 64) : Res (Lg (n + m) s) :=
  (x.value.concat y.value h).bind fun v =>
  (x.xz.concat y.xz h).map fun k => ⟨v.toSign s, k⟩

/-- `concat(bit)`, lines 249-257; the x/z plane is extended, not shifted -/
def concatBit (x : Lg n s) (y : Bits m t) (h : n + m < 64) : Res (Lg (n + m) s) :=
  (x.value.concat y h).map fun v => ⟨v.toSign s, x.xz.extend (n + m)⟩

/-- A target of `unpack`: an unsigned or signed `logic` variable. -/
abbrev Target := Σ w : Nat × Bool, Lg w.1 w.2

/-- assignment of a slice to a plane of an `unpack` target, lines 1095-1096 with
`bit.hh` 1031-1035: equal widths copy, native widths convert, others do not
compile -/
def assignPlane {k w : Nat} {t : Bool} (b : Bits k false) : Res (Bits w t) :=
  if h : k = w then .ok ((h ▸ b : Bits w false).toSign t)
  else if hw : w ≤ 64 then (if k ≤ 64 then .ok (Bits.mkN hw b.nv) else .error .illFormed)
  else .error .illFormed

/-- one step of `unpack_`, lines 1091-1097: bits `base ..` into a target of width
`w`; `requires(base < size)` -/
def unpackOne (r : Rng) (x : Lg n s) (base w : Nat) (t : Bool) : Res (Lg w t) :=
  if base < n then
    let ub := min (n - 1) (w + base - 1)
    (x.value.slice r base ub).bind fun v => (assignPlane v).bind fun v =>
    (x.xz.slice r base ub).bind fun k => (assignPlane k).map fun k => ⟨v, k⟩
  else .error .illFormed

/-- `unpack_`, lines 1099-1109: consecutive fields starting at `base` -/
def unpackFrom (r : Rng) (x : Lg n s) : Nat → List (Nat × Bool) → Res (List Target)
  | _, [] => .ok []
  | base, (w, t) :: ws =>
    (x.unpackOne r base w t).bind fun y =>
    (unpackFrom r x (base + w) ws).map fun ys => ⟨(w, t), y⟩ :: ys

/-- `unpack`, lines 267-276: descending ranges process the arguments in reverse.
Result `i` is the new value of argument `i`. The first base is `lsb`. -/
def unpack (r : Rng) (x : Lg n s) (ws : List (Nat × Bool)) : Res (List Target) :=
  if r.bigEndian then (x.unpackFrom r r.lsb.toNat ws.reverse).map List.reverse
  else x.unpackFrom r r.lsb.toNat ws

/-! ### boolean operators -/

/-- `operator bool`, lines 281-284 -/
def toBool (x : Lg n s) : Bool := !x.xz.anySet && x.value.anySet

/-- `operator!`, lines 286-288 -/
def lnot (x : Lg n s) : Lg 1 false :=
  if x.xz.anySet then x1 else if x.value.anySet then zero1 else one1

/-! ### bitwise operators -/

/-- the mask of lines 321-322 and 387-388 -/
def knownMask (x : Lg n s) (y : Lg n t) : Bits n false :=
  (((x.xz.xor y.xz).and x.xz.not).and x.value).or
    (((y.xz.xor x.xz).and y.xz.not).and x.value.not)

/-- `operator&` on equal sizes, lines 301-327 -/
def and (x : Lg n s) (y : Lg n t) : Res (Lg n (s && t)) :=
  let mask := knownMask x y
  ((x.value.and y.value).andAssign mask.not).bind fun v =>
  ((x.xz.and y.xz : Bits n false).orAssign mask).map fun k => ⟨v, k⟩

/-- `operator|` on equal sizes, lines 360-392 -/
def or (x : Lg n s) (y : Lg n t) : Res (Lg n (s && t)) :=
  let k : Bits n false := x.xz.or y.xz
  ((x.value.or y.value).andAssign k.not).bind fun v =>
  let mask := knownMask x y
  (v.orAssign mask).bind fun v => (k.andAssign mask.not).map fun k => ⟨v, k⟩

/-- `operator^` on equal sizes, lines 425-446 -/
def xor (x : Lg n s) (y : Lg n t) : Res (Lg n (s && t)) :=
  let k : Bits n false := x.xz.or y.xz
  ((x.value.xor y.value).andAssign k.not).map fun v => ⟨v, k⟩

/-- `operator~`, lines 472-482 -/
def not (x : Lg n s) : Res (Lg n false) :=
  (x.value.not.andAssign x.xz.not).map fun v => ⟨v, x.xz⟩

/-- `operator&` on different sizes and `and_`, lines 294-299 and 335-342 -/
def andMix (x : Lg n s) (y : Lg m t) : Res (Lg (max n m) (s && t)) :=
  (x.extend (max n m)).and (y.extend (max n m))
/-- `operator|` on different sizes and `or_`, lines 353-358 and 400-407 -/
def orMix (x : Lg n s) (y : Lg m t) : Res (Lg (max n m) (s && t)) :=
  (x.extend (max n m)).or (y.extend (max n m))
/-- `operator^` on different sizes and `xor_`, lines 418-423 and 454-461: line
459 computes `l | r` -/
def xorMix (x : Lg n s) (y : Lg m t) : Res (Lg (max n m) (s && t)) :=
  (x.extend (max n m)).or (y.extend (max n m))

/-- `operator&=` with an equally wide operand, lines 344-351 -/
def andAssign (x : Lg n s) (y : Lg n t) : Res (Lg n s) := (x.and y).map (toSign s)
/-- `operator|=`, lines 409-416 -/
def orAssign (x : Lg n s) (y : Lg n t) : Res (Lg n s) := (x.or y).map (toSign s)
/-- `operator^=`, lines 463-470 -/
def xorAssign (x : Lg n s) (y : Lg n t) : Res (Lg n s) := (x.xor y).map (toSign s)

/-! ### reductions -/

/-- the loop of `r_and`, lines 488-496, from index `i` with `k` iterations left -/
def rAndLoop (r : Rng) (x : Lg n s) : Nat → Nat → Res (Lg 1 false)
  | _, 0 => .ok one1
  | i, k + 1 =>
    (x.value.get r i).bind fun b => (x.xz.get r i).bind fun m =>
    if !b && !m then .ok zero1 else if m then .ok x1 else rAndLoop r x (i + 1) k

/-- `r_and()`, lines 485-497 -/
def rAnd (r : Rng) (x : Lg n s) : Res (Lg 1 false) := x.rAndLoop r 0 n

/-- the loop of `r_or`, lines 502-510 -/
def rOrLoop (r : Rng) (x : Lg n s) : Nat → Nat → Res (Lg 1 false)
  | _, 0 => .ok zero1
  | i, k + 1 =>
    (x.value.get r i).bind fun b => (x.xz.get r i).bind fun m =>
    if b && !m then .ok one1 else if m then .ok x1 else rOrLoop r x (i + 1) k

/-- `r_or()`, lines 501-511 -/
def rOr (r : Rng) (x : Lg n s) : Res (Lg 1 false) := x.rOrLoop r 0 n

/-- `r_xor()`, lines 515-527; `size - bits_count` is a `uint64_t` -/
def rXor (x : Lg n s) : Lg 1 false :=
  if x.xz.anySet then x1
  else known1 ((BitVec.ofNat 64 n - BitVec.ofNat 64 x.value.popcount).toNat % 2 != 0)

/-- `r_nand()`, line 499 -/
def rNand (r : Rng) (x : Lg n s) : Res (Lg 1 false) := (x.rAnd r).map lnot
/-- `r_nor()`, line 513 -/
def rNor (r : Rng) (x : Lg n s) : Res (Lg 1 false) := (x.rOr r).map lnot
/-- `r_xnor()`, line 529 -/
def rXnor (x : Lg n s) : Lg 1 false := x.rXor.lnot

/-! ### shifts -/

/-- common shape of the shifts, lines 555-566, 583-594, 611-635: all x if either
operand holds x/z, otherwise both planes are shifted -/
def shiftWith
    (f : {s' : Bool} → Bits n s' → Bits m t → Res (Bits n (s' && t)))
    (x : Lg n s) (y : Lg m t) : Res (Lg n (s && t)) :=
  dflt.bind fun (res : Lg n (s && t)) =>
  if y.xz.anySet || x.xz.anySet then res.xz.mask.map fun k => ⟨res.value, k⟩
  else (f x.value y.value).bind fun v => (f x.xz y.value).map fun k => ⟨v, k⟩

/-- `operator>>`, lines 555-566 -/
def shr (x : Lg n s) (y : Lg m t) : Res (Lg n (s && t)) := shiftWith Bits.shr x y
/-- `operator<<`, lines 583-594 -/
def shl (x : Lg n s) (y : Lg m t) : Res (Lg n (s && t)) := shiftWith Bits.shl x y
/-- `ashr`, lines 611-622 -/
def ashr (x : Lg n s) (y : Lg m t) : Res (Lg n (s && t)) := shiftWith Bits.ashr x y
/-- `ashl`, lines 624-635 -/
def ashl (x : Lg n s) (y : Lg m t) : Res (Lg n (s && t)) := shiftWith Bits.ashl x y

/-! ### comparison -/

/-- common shape of the relational operators, lines 645-729 -/
def relWith (f : Bits n s → Bits m t → Res Bool) (x : Lg n s) (y : Lg m t) : Res (Lg 1 false) :=
  if x.xz.anySet || y.xz.anySet then .ok x1 else (f x.value y.value).map known1

/-- `operator==`, lines 645-649 -/
def eq (x : Lg n s) (y : Lg m t) : Res (Lg 1 false) := relWith (fun a b => .ok (a.eq b)) x y
/-- `operator!=`, lines 656-660 -/
def ne (x : Lg n s) (y : Lg m t) : Res (Lg 1 false) := relWith (fun a b => .ok (a.ne b)) x y
/-- `operator>`, lines 687-691 -/
def gt (x : Lg n s) (y : Lg m t) : Res (Lg 1 false) := relWith Bits.gt x y
/-- `operator<`, lines 698-702 -/
def lt (x : Lg n s) (y : Lg m t) : Res (Lg 1 false) := relWith Bits.lt x y
/-- `operator>=`, lines 709-713 -/
def ge (x : Lg n s) (y : Lg m t) : Res (Lg 1 false) := relWith Bits.ge x y
/-- `operator<=`, lines 720-724 -/
def le (x : Lg n s) (y : Lg m t) : Res (Lg 1 false) := relWith Bits.le x y

/-- `match`, lines 667-670 -/
def matches' (x : Lg n s) (y : Lg m t) : Bool := x.value.eq y.value && x.xz.eq y.xz
/-- `nmatch`, lines 677-680 -/
def nmatches (x : Lg n s) (y : Lg m t) : Bool := !x.matches' y

/-! ### arithmetic -/

/-- unary `-`, lines 731-737 (native) -/
def neg (x : Lg n s) (h : n ≤ 64) : Res (Lg n s) :=
  if x.xz.anySet then dflt
  else (x.value.neg h).map fun v => ⟨v, Bits.zero⟩

/-- unary `+`, lines 739-742 -/
def pos (x : Lg n s) : Res (Lg n s) := if x.xz.anySet then dflt else .ok x

/-- common shape of `+ - *`, lines 755-762, 786-793, 817-824 -/
def arithWith (f : Bits n s → Bits n t → Res (Bits n (s && t)))
    (x : Lg n s) (y : Lg n t) : Res (Lg n (s && t)) :=
  if x.xz.anySet || y.xz.anySet then dflt
  else (f x.value y.value).map fun v => ⟨v, Bits.zero⟩

/-- `operator+` on equal sizes, lines 755-762 -/
def add (x : Lg n s) (y : Lg n t) : Res (Lg n (s && t)) := arithWith Bits.add x y
/-- `operator-` on equal sizes, lines 786-793 -/
def sub (x : Lg n s) (y : Lg n t) : Res (Lg n (s && t)) := arithWith Bits.sub x y
/-- `operator*` on equal sizes, lines 817-824 -/
def mul (x : Lg n s) (y : Lg n t) : Res (Lg n (s && t)) := arithWith Bits.mul x y

/-- common shape of `/ %`, lines 848-856, 880-888 -/
def divWith (f : Bits n s → Bits n t → Res (Bits n (s && t)))
    (x : Lg n s) (y : Lg n t) : Res (Lg n (s && t)) :=
  if x.xz.anySet || y.xz.anySet || !y.value.anySet then dflt
  else (f x.value y.value).map fun v => ⟨v, Bits.zero⟩

/-- `operator/` on equal sizes, lines 848-856 -/
def div (x : Lg n s) (y : Lg n t) : Res (Lg n (s && t)) := divWith Bits.div x y
/-- `operator%` on equal sizes, lines 880-888 -/
def mod (x : Lg n s) (y : Lg n t) : Res (Lg n (s && t)) := divWith Bits.mod x y

/-- `operator+` on different sizes and `add`, lines 748-753 and 769-777 -/
def addMix (x : Lg n s) (y : Lg m t) : Res (Lg (max n m) (s && t)) :=
  (x.extend (max n m)).add (y.extend (max n m))
/-- `operator-` on different sizes and `minus`, lines 779-784 and 800-808 -/
def subMix (x : Lg n s) (y : Lg m t) : Res (Lg (max n m) (s && t)) :=
  (x.extend (max n m)).sub (y.extend (max n m))
/-- `operator*` on different sizes and `multiply`, lines 810-815 and 831-839 -/
def mulMix (x : Lg n s) (y : Lg m t) : Res (Lg (max n m) (s && t)) :=
  (x.extend (max n m)).mul (y.extend (max n m))
/-- `operator/` on different sizes and `divide`, lines 841-846 and 863-871 -/
def divMix (x : Lg n s) (y : Lg m t) : Res (Lg (max n m) (s && t)) :=
  (x.extend (max n m)).div (y.extend (max n m))
/-- `operator%` on different sizes and `mod`, lines 873-878 and 895-903 -/
def modMix (x : Lg n s) (y : Lg m t) : Res (Lg (max n m) (s && t)) :=
  (x.extend (max n m)).mod (y.extend (max n m))

/-- prefix `operator++`, lines 531-534 -/
def inc (x : Lg n s) : Res (Lg n s) := (x.add (one1.extend n)).map (toSign s)
/-- prefix `operator--`, lines 536-539 -/
def dec (x : Lg n s) : Res (Lg n s) := (x.sub (one1.extend n)).map (toSign s)
/-- postfix `operator++`, lines 542-546: new object and returned value -/
def postInc (x : Lg n s) : Res (Lg n s × Lg n s) := x.inc.map fun y => (y, x)
/-- postfix `operator--`, lines 549-553 -/
def postDec (x : Lg n s) : Res (Lg n s × Lg n s) := x.dec.map fun y => (y, x)

/-- `to_signed()`, lines 905-910 -/
def toSigned (x : Lg n s) : Lg n true := ⟨x.value.toSigned, x.xz⟩
/-- `to_unsigned()`, lines 912-917 -/
def toUnsigned (x : Lg n s) : Lg n false := ⟨x.value.toUnsigned, x.xz⟩

/-! ### slice assignment -/

/-- body of the loops of lines 1139-1157 and 1164-1182 at index `i` -/
def updateStep (r : Rng) (start : Int) (ro : Rng) (op : Lg m t) (i : Int) (x : Lg n s) :
    Res (Lg n s) :=
  let idx0 := if ro.bigEndian ^^ r.bigEndian then ro.hi - i else i
  let idx := tU64.conv (idx0 - start)
  if idx > tU64.conv ro.hi ∨ idx < tU64.conv ro.lo then x.setL r i zero1
  else (op.get ro (tInt.conv idx)).bind fun b => x.setL r i b

/-- `update<hi, lo>(op)` and `update_`, lines 923-927 and 1133-1158; also the run
time form, lines 929-934 and 1160-1183, and assignment through `slice_ref`,
`bit.hh` 1202-1231 -/
def update (r : Rng) (x : Lg n s) (hi lo : Int) (ro : Rng) (op : Lg m t) : Res (Lg n s) :=
  let start := min hi lo
  let stop := max hi lo + 1
  loopM 0 (stop - start).toNat x fun k x => updateStep r start ro op (start + k) x

/-- run-time `update(hi, lo, op)`, lines 929-934: the bounds are ordered and
passed to `update_`, lines 1160-1183 -/
def updateRt (r : Rng) (x : Lg n s) (hi lo : Int) (ro : Rng) (op : Lg m t) : Res (Lg n s) :=
  let a := min hi lo
  let b := max hi lo
  let start := min a b
  let stop := max a b + 1
  loopM 0 (stop - start).toNat x fun k x => updateStep r start ro op (start + k) x

/-! ### conversions -/

/-- `to_uint64()`, lines 939-944 -/
def toUint64 (x : Lg n s) : BitVec 64 := if x.xz.anySet then 0 else x.value.toUint64
/-- `to_num()`, lines 947-1001 -/
def toNum (x : Lg n s) : Int := if x.xz.anySet then 0 else x.value.toNum

end Lg

/-- Does `logic(b)` compile for a `b` of signedness `s` inside a `logic` of
signedness `t`? `value(b)` (line 1026) has a constructor for the same type and for
signed arguments (`bit.hh` 1043-1046), none from unsigned to signed. -/
def convertible (s t : Bool) : Bool := s || !t

/-- `bit > logic`, `bit.hh` 640-643: `(v < *this).to_num()`, where `v < bit`
converts the bit to the type of `v` (`logic.hh` 704-707), so both have the same
shape -/
def Bits.gtL {n : Nat} {s t : Bool} (x : Bits n s) (v : Lg n t) : Res Bool :=
  if convertible s t then (v.lt (Lg.ofBits x : Lg n t)).map fun l => l.toNum != 0
  else .error .illFormed
/-- `bit < logic`, `bit.hh` 659-662 -/
def Bits.ltL {n : Nat} {s t : Bool} (x : Bits n s) (v : Lg n t) : Res Bool :=
  if convertible s t then (v.gt (Lg.ofBits x : Lg n t)).map fun l => l.toNum != 0
  else .error .illFormed
/-- `bit >= logic`, `bit.hh` 678-681 -/
def Bits.geL {n : Nat} {s t : Bool} (x : Bits n s) (v : Lg n t) : Res Bool :=
  if convertible s t then (v.le (Lg.ofBits x : Lg n t)).map fun l => l.toNum != 0
  else .error .illFormed
/-- `bit <= logic`, `bit.hh` 697-700 -/
def Bits.leL {n : Nat} {s t : Bool} (x : Bits n s) (v : Lg n t) : Res Bool :=
  if convertible s t then (v.ge (Lg.ofBits x : Lg n t)).map fun l => l.toNum != 0
  else .error .illFormed

/-- `operator""_logic`, lines 1190-1192 -/
def litLogic (v : BitVec 64) : Lg 32 true :=
  (Lg.ofInt (tInt.conv v.toNat) : Lg 32 true).extend 32
/-- `operator""_logic64`, lines 1193-1195 -/
def litLogic64 (v : BitVec 64) : Lg 64 true :=
  (Lg.ofInt ((CTy.int 64 true).conv v.toNat) : Lg 64 true).extend 64

end Verif
