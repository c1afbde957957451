import Verif.Model.BigNum

/-!
# Model of `include/logic/bit.hh` (2-state vectors)

Line numbers refer to `/repo/include/logic/bit.hh` unless stated otherwise.

Template arguments and `int` index expressions are exact integers (no `int`
overflow in index arithmetic is modelled). `if constexpr (native_num)` becomes
`if h : n ≤ 64`.

Instantiations that do not compile and are not modelled: `str` of an unsigned
wide value (line 37, `negative()` needs a signed limb type), `concat` with 64 or
more result bits (lines 279-290), shifts of a native value by a wide amount (lines
495-502), `<` and `>` of a wide value and a native one (`big_num.hh` 526; in the
other order the function ends without a return, fault `noReturn`), `operator-()` of
a wide value (line 706), native `r_xor` (line 476), native `all_set` (line 922),
`unpack` (lines 301-310, 1058-1085: a `bit` is assigned to a holder), compound
assignments whose declared reference type differs from `*this`. The 65-bit constant
slice of a wide value (line 166) does not compile either and is the fault
`illFormed`.
-/

namespace Verif

/-! ## Holder types, `include/logic/util.hh` -/

/-- Storage width in bits of the native holder, `util.hh` 82-133. `bool` is kept
as one bit (its only values are 0 and 1). -/
def hw (n : Nat) : Nat :=
  if n ≤ 1 then 1 else if n ≤ 8 then 8 else if n ≤ 16 then 16 else if n ≤ 32 then 32 else 64

/-- `sizeof(T) * 8` of the native holder; `sizeof(bool)` is 1. -/
def sizeofBits (n : Nat) : Nat := if n ≤ 1 then 8 else hw n

/-- `util::get_holder_type<n, s>::type` for native sizes, `util.hh` 82-133 -/
def holderTy (n : Nat) (s : Bool) : CTy := if n ≤ 1 then .bool else .int (hw n) s

/-- `std::numeric_limits<T>::max()` of the holder -/
def holderMax (n : Nat) (s : Bool) : TV :=
  if n ≤ 1 then ⟨.bool, 1⟩
  else if s then ⟨.int (hw n) true, 2 ^ (hw n - 1) - 1⟩
  else ⟨.int (hw n) false, 2 ^ hw n - 1⟩

/-- Declared range `<msb, lsb>`, lines 15-19. -/
structure Rng where
  msb : Int
  lsb : Int
  deriving DecidableEq, Repr

namespace Rng
/-- `size`, line 18 -/
def size (r : Rng) : Nat := (r.msb - r.lsb).natAbs + 1
/-- `big_endian`, line 19 -/
def bigEndian (r : Rng) : Bool := decide (r.msb ≥ r.lsb)
/-- `util::min(msb, lsb)` -/
def lo (r : Rng) : Int := min r.msb r.lsb
/-- `util::max(msb, lsb)` -/
def hi (r : Rng) : Int := max r.msb r.lsb
/-- the range `[n-1:0]` -/
def down (n : Nat) : Rng := ⟨(n : Int) - 1, 0⟩
/-- the range `[0:n-1]` -/
def up (n : Nat) : Rng := ⟨0, (n : Int) - 1⟩
end Rng

/-- `bit<msb, lsb, s>` of size `n`: member `value` of type `T`, lines 24-26. A
native value is the bit pattern of its holder. -/
inductive Bits (n : Nat) (s : Bool)
  | nat (h : n ≤ 64) (r : BitVec (hw n))
  | big (h : ¬ n ≤ 64) (b : Big n s)
  deriving DecidableEq

namespace Bits

variable {n m : Nat} {s t : Bool}

/-- The holder value of a native object as a typed C++ integer. -/
def nv : Bits n s → TV
  | .nat _ r => ⟨holderTy n s, if s && !decide (n ≤ 1) then r.toInt else (r.toNat : Int)⟩
  | .big _ _ => ⟨holderTy n s, 0⟩

/-- The limb array of a wide object. -/
def bg (b : Bits n s) (h : ¬ n ≤ 64) : Big n s :=
  match b with
  | .nat h' _ => absurd h' h
  | .big _ b => b

/-- Assignment of a C++ integer to the holder (`value = x`), converting. -/
def mkN (h : n ≤ 64) (x : TV) : Bits n s :=
  .nat h (BitVec.ofInt (hw n) ((holderTy n s).conv x.v))

/-- default constructor, lines 1022-1028 -/
def zero : Bits n s := if h : n ≤ 64 then mkN h (TV.int 0) else .big h Big.zero

/-- constructor from the holder type, line 1008 (the argument is first converted
to `T`); a wide value takes an unsigned arithmetic argument, lines 1009-1011 -/
def ofInt (v : Int) : Bits n s :=
  if h : n ≤ 64 then mkN h ⟨holderTy n s, (holderTy n s).conv v⟩
  else .big h (Big.ofU64 (BitVec.ofInt 64 v))

/-- conversion and assignment between equally wide objects, lines 1031-1046 -/
def toSign (t : Bool) (b : Bits n s) : Bits n t :=
  if h : n ≤ 64 then mkN h b.nv else .big h ((b.bg h).toSign t)

/-- assignment of a native `bit` to a native `bit` of another width, lines
1031-1035 -/
def assignNat (b : Bits n s) (hm : m ≤ 64) : Bits m t := mkN hm b.nv

/-! ### single bits -/

/-- index normalisation of lines 70-72, 101-103 and 1094-1096 -/
def physIdx (r : Rng) (idx : Int) : Int := if r.bigEndian then idx else r.lsb - idx

/-- `operator[](int)` and `get_`, lines 47 and 1093-1102 (also 1104-1120). The
result `bit<0>` is given by its `bool` value. -/
def get (r : Rng) (b : Bits n s) (idx : Int) : Res Bool :=
  let i := physIdx r idx
  if h : n ≤ 64 then
    (TV.shr b.nv (TV.int i)).map fun v => (TV.band v (TV.int 1)).v != 0
  else .ok ((b.bg h).get (tU64.conv i).toNat)

/-- `value |= 1ull << i` or `value &= ~(1ull << i)`, lines 75-79 and 106-110 -/
def setNat (h : n ≤ 64) (b : Bits n s) (i : TV) (v : Bool) : Res (Bits n s) :=
  (TV.shl (TV.u64 1) i).map fun m =>
    if v then mkN h (TV.bor b.nv m) else mkN h (TV.band b.nv (TV.bnot m))

/-- `set(int, bool)`, lines 69-83 (also 85-98 and 121-134) -/
def set (r : Rng) (b : Bits n s) (idx : Int) (v : Bool) : Res (Bits n s) :=
  let i := TV.u64 (physIdx r idx - r.lo)
  if h : n ≤ 64 then setNat h b i v
  else .ok (.big h ((b.bg h).set i.v.toNat v))

/-- `set(int, bit<0>)`, lines 100-114: a wide value is indexed with `idx`, not
with the rebased `i` -/
def setBit (r : Rng) (b : Bits n s) (idx : Int) (v : Bool) : Res (Bits n s) :=
  let i := TV.u64 (physIdx r idx - r.lo)
  if h : n ≤ 64 then setNat h b i v
  else .ok (.big h ((b.bg h).set (tU64.conv (physIdx r idx)).toNat v))

/-- `negative()`, lines 139-145 -/
def negative (b : Bits n s) : Bool :=
  if h : n ≤ 64 then decide (b.nv.v < 0) else (b.bg h).negative

/-! ### masks -/

/-- `bit_mask()`, lines 1196-1199 -/
def bitMask (n : Nat) : TV := holderMax n false

/-- `value_mask(requested_size)`, lines 1087-1091 -/
def valueMask (n : Nat) (s : Bool) (requested : TV) : Res TV :=
  (TV.sub (TV.u64 64) (requested.cast tU64)).bind fun c =>
    (TV.shr (TV.u64 (2 ^ 64 - 1)) c).map fun m => m.cast (holderTy n s)

/-- `mask_off()`, lines 326-337 -/
def maskOff (b : Bits n s) : Res (Bits n s) :=
  if h : n ≤ 64 then
    if n > 1 then
      (TV.shr (bitMask n) (TV.u64 (sizeofBits n - n))).map fun mask => mkN h (TV.band b.nv mask)
    else .ok b
  else .ok (.big h (b.bg h).maskOff)

/-- `clear()`, lines 339-345 -/
def clear (_ : Bits n s) : Bits n s := zero

/-- `mask()`, lines 875-885 -/
def mask (b : Bits n s) : Res (Bits n s) :=
  if h : n ≤ 64 then
    if n = 1 then .ok (mkN h ⟨.bool, 1⟩)
    else (TV.shr (holderMax n s) (TV.u64 (sizeofBits n - n))).map (mkN h)
  else .ok (.big h (b.bg h).mask)

/-- `any_set()`, lines 868-873; also `operator bool` (315), `r_or` (469) -/
def anySet (b : Bits n s) : Bool :=
  if h : n ≤ 64 then b.nv.v != 0 else (b.bg h).anySet

/-! ### slices -/

/-- native part of the constant slice, lines 1127-1147; `a` and `b` are the
template arguments, the result has `|a-b|+1` bits -/
def sliceNat (r : Rng) (x : Bits n s) (a b : Int) (k : Nat) (hk : k ≤ 64) : Res (Bits k false) :=
  let mx := max a b - r.lo
  let mn := min a b - r.lo
  if k = 1 ∧ n = 1 then .ok (mkN hk ⟨.bool, if x.nv.v != 0 then 1 else 0⟩)
  else
    (TV.shl (bitMask n) (TV.int mn)).bind fun m1 =>
    (TV.shr (bitMask n) (TV.u64 ((sizeofBits n : Int) - mx - (if s then 2 else 1)))).bind fun m2 =>
    let mask := (TV.band (m1.cast tU64) m2).cast tU64
    (TV.shr (TV.band x.nv (mask.cast (holderTy n s))) (TV.int mn)).map (mkN hk)

/-- `slice<a, b>()`, lines 153-179 and 1123-1148, for template arguments that
satisfy `max(a, b) < size && b >= lsb`. The wide forms (160-179) ignore the
declared low bound; `native_num(abs_diff(a, b))` in line 161 also selects the narrow
form for results of 65 bits, where line 166 assigns an integer to a limb array and does
not compile. -/
def slice (r : Rng) (x : Bits n s) (a b : Nat) : Res (Bits (max a b - min a b + 1) false) :=
  if h : n ≤ 64 then
    if hk : max a b - min a b + 1 ≤ 64 then sliceNat r x a b _ hk else .error .illFormed
  else
    let v := (x.bg h).sliceFixed a b
    if hk : max a b - min a b + 1 ≤ 64 then .ok (mkN hk ⟨tU64, ((v.limb 0).toNat : Int)⟩)
    else if max a b - min a b = 64 then .error .illFormed
    else .ok (.big hk v)

/-- run-time slice `slice<k>(a, b)`, lines 186-189 and 1150-1175. In the native
case the source requires nothing about `k`; a wide `k` there assigns an integer
to a limb array and does not compile. -/
def sliceRt (r : Rng) (x : Bits n s) (k : Nat) (a b : Int) : Res (Bits k false) :=
  if h : n ≤ 64 then
    if hk : k ≤ 64 then
      let mx := max a b - r.lo
      let mn := min a b - r.lo
      (TV.shl (bitMask n) (TV.int mn)).bind fun m1 =>
      (TV.shr (bitMask n) (TV.u64 ((sizeofBits n : Int) - mx - 1))).bind fun m2 =>
      let mask := (TV.band (m1.cast tU64) m2).cast tU64
      (TV.shr (TV.band x.nv (mask.cast (holderTy n s))) (TV.int mn)).map (mkN hk)
    else .error .illFormed
  else
    ((x.bg h).sliceRt k (tU64.conv a).toNat (tU64.conv b).toNat).map fun v =>
      if hk : k ≤ 64 then mkN hk ⟨tU64, ((v.limb 0).toNat : Int)⟩ else .big hk v

/-- `slice<k, increase>(base)`, lines 193-203; `base` is `base.to_num()` -/
def sliceBase (r : Rng) (x : Bits n s) (k : Nat) (increase : Bool) (base : Int) :
    Res (Bits k false) :=
  let b := tInt.conv base
  (intRes (if increase then b + ((k : Int) - 1) else b - ((k : Int) - 1))).bind fun e =>
  sliceRt r x k b e

/-! ### extension and concatenation -/

/-- `extend<m>()` for `m >= n`, lines 220-230 and 240-267 -/
def extend (m : Nat) (x : Bits n s) : Bits m s :=
  if hmn : m = n then hmn ▸ x
  else if hm : m ≤ 64 then mkN hm x.nv
  else if h : n ≤ 64 then
    let r : Big m s := Big.zero.setLimb 0 (BitVec.ofInt 64 (tU64.conv x.nv.v))
    if s && x.negative then
      .big hm (loop 1 (limbs m) r fun i r => r.setLimb i (BitVec.allOnes 64)).maskOff
    else .big hm r
  else .big hm ((x.bg h).extend m)

/-- `concat(bit)`, lines 272-278 (`final_size < 64`, the other branch does not
compile) -/
def concat (x : Bits n s) (y : Bits m t) (h : n + m < 64) : Res (Bits (n + m) false) :=
  (TV.shl x.nv (TV.int m)).map fun v => mkN (Nat.le_of_lt h) (TV.bor v y.nv)

/-! ### bitwise operators -/

/-- `operator~`, lines 350-358 -/
def not (x : Bits n s) : Bits n false :=
  if h : n ≤ 64 then
    if n = 1 then mkN h ⟨.bool, if x.nv.v = 0 then 1 else 0⟩ else mkN h (TV.bnot x.nv)
  else .big h ((x.bg h).not.toSign false)

/-- `operator&` on equal sizes, lines 367-372 -/
def and (x : Bits n s) (y : Bits n t) : Bits n (s && t) :=
  if h : n ≤ 64 then mkN h (TV.band x.nv y.nv) else .big h ((x.bg h).and (y.bg h))

/-- `operator^` on equal sizes, lines 400-405 -/
def xor (x : Bits n s) (y : Bits n t) : Bits n (s && t) :=
  if h : n ≤ 64 then mkN h (TV.bxor x.nv y.nv) else .big h ((x.bg h).xor (y.bg h))

/-- `operator|` on equal sizes, lines 433-438 -/
def or (x : Bits n s) (y : Bits n t) : Bits n (s && t) :=
  if h : n ≤ 64 then mkN h (TV.bor x.nv y.nv) else .big h ((x.bg h).or (y.bg h))

/-- `operator&` on different sizes and `and_`, lines 360-365 and 374-382 -/
def andMix (x : Bits n s) (y : Bits m t) : Res (Bits (max n m) (s && t)) :=
  ((x.extend (max n m)).and (y.extend (max n m))).maskOff

/-- `operator^` on different sizes and `xor_`, lines 393-398 and 407-415 -/
def xorMix (x : Bits n s) (y : Bits m t) : Res (Bits (max n m) (s && t)) :=
  ((x.extend (max n m)).xor (y.extend (max n m))).maskOff

/-- `operator|` on different sizes and `or_`, lines 426-431 and 440-448 -/
def orMix (x : Bits n s) (y : Bits m t) : Res (Bits (max n m) (s && t)) :=
  ((x.extend (max n m)).or (y.extend (max n m))).maskOff

/-- `operator&=` with an equally wide operand, lines 384-391 (compiles when the
result signedness is that of `*this`) -/
def andAssign (x : Bits n s) (y : Bits n t) : Res (Bits n s) := ((x.and y).toSign s).maskOff

/-- `operator^=`, lines 417-424 -/
def xorAssign (x : Bits n s) (y : Bits n t) : Res (Bits n s) := ((x.xor y).toSign s).maskOff

/-- `operator|=`, lines 450-457 -/
def orAssign (x : Bits n s) (y : Bits n t) : Res (Bits n s) := ((x.or y).toSign s).maskOff

/-! ### reductions -/

/-- `r_and()`, lines 460-465; the wide form calls `r_xor` -/
def rAnd (x : Bits n s) : Res Bool :=
  if h : n ≤ 64 then
    (TV.shr (holderMax n s) (TV.u64 (sizeofBits n - n))).map fun max => TV.eq x.nv max
  else .ok (x.bg h).rXor

/-- `r_nand()`, line 467 -/
def rNand (x : Bits n s) : Res Bool := x.rAnd.map (!·)
/-- `r_or()`, line 469 -/
def rOr (x : Bits n s) : Bool := x.anySet
/-- `r_nor()`, line 471 -/
def rNor (x : Bits n s) : Bool := !x.rOr
/-- `r_xor()` of wide values, line 481 (the native form does not compile) -/
def rXorBig (x : Bits n s) (h : ¬ n ≤ 64) : Bool := (x.bg h).rXor
/-- `r_xnor()` of wide values, line 483 -/
def rXnorBig (x : Bits n s) (h : ¬ n ≤ 64) : Bool := !(x.rXorBig h)

/-- number of ones of a bit pattern, `std::popcount` -/
def countOnes {w : Nat} (b : BitVec w) : Nat := (List.range w).countP fun i => b.getLsbD i

/-- `popcount()`, lines 318-324, of an unsigned native value wider than one bit
(other instantiations do not compile) -/
def popcount (x : Bits n s) : Nat := match x with
  | .nat _ r => countOnes r
  | .big _ _ => 0

/-! ### shifts -/

/-- the shift amount as `uint64_t` operand of a wide shift: the limb array, or a
native holder value converted to `uint64_t` -/
def amtU64 (y : Bits m t) : Nat := (tU64.conv y.nv.v).toNat

/-- `operator>>`, lines 485-505 (native value by wide amount does not compile and
is reported as `illFormed`) -/
def shr (x : Bits n s) (y : Bits m t) : Res (Bits n (s && t)) :=
  if h : n ≤ 64 then
    if m ≤ 64 then
      (TV.shr x.nv (y.nv.cast (holderTy n s))).bind fun v =>
      (TV.sub (TV.int n) y.nv).bind fun req =>
      (valueMask n s req).map fun mask => mkN h (TV.band v mask)
    else .error .illFormed
  else if hm : m ≤ 64 then .ok (.big h (((x.bg h).shr y.amtU64).toSign _))
  else .ok (.big h ((x.bg h).shrBig (y.bg hm)))

/-- `operator<<`, lines 539-560 -/
def shl (x : Bits n s) (y : Bits m t) : Res (Bits n (s && t)) :=
  if h : n ≤ 64 then
    if m ≤ 64 then (TV.shl x.nv (y.nv.cast (holderTy n s))).map (mkN h) else .error .illFormed
  else if hm : m ≤ 64 then .ok (.big h (((x.bg h).shl y.amtU64).toSign _))
  else .ok (.big h ((x.bg h).shlBig (y.bg hm)))

/-- `ashr`, lines 570-590 -/
def ashr (x : Bits n s) (y : Bits m t) : Res (Bits n (s && t)) :=
  if h : n ≤ 64 then
    if m ≤ 64 then (TV.shr x.nv (y.nv.cast (holderTy n s))).map (mkN h) else .error .illFormed
  else if hm : m ≤ 64 then .ok (.big h (((x.bg h).ashr y.amtU64).toSign _))
  else .ok (.big h ((x.bg h).ashrBig (y.bg hm)))

/-- `ashl`, lines 592-596 -/
def ashl (x : Bits n s) (y : Bits m t) : Res (Bits n (s && t)) := x.shl y

/-! ### comparison -/

/-- `operator==`, lines 598-605; between a wide and a native value the limb
comparison with a number is used (in both orders, by C++20 rewriting). Two signed
wide operands only compile with a wider right operand. -/
def eq (x : Bits n s) (y : Bits m t) : Bool :=
  if h : n ≤ 64 then
    if hm : m ≤ 64 then TV.eq x.nv (y.nv.cast (holderTy n s))
    else (y.bg hm).eqNum (BitVec.ofInt 64 x.nv.v)
  else if hm : m ≤ 64 then (x.bg h).eqNum (BitVec.ofInt 64 y.nv.v)
  else (x.bg h).eq (y.bg hm)

/-- `operator!=`, lines 607-614 -/
def ne (x : Bits n s) (y : Bits m t) : Bool := !x.eq y

/-- `match`, lines 616-619 -/
def matches' (x : Bits n s) (y : Bits m t) : Bool := x.eq y

/-- `nmatch`, lines 621-624 -/
def nmatches (x : Bits n s) (y : Bits m t) : Bool := !x.matches' y

/-- native ordering, lines 628-634: signed only when both operands are signed,
otherwise both are converted to `uint64_t` -/
def cmpNat (f : TV → TV → Bool) (x : Bits n s) (y : Bits m t) : Bool :=
  if s && t then f x.nv y.nv else f (x.nv.cast tU64) (y.nv.cast tU64)

/-- `operator>`, lines 626-638. With a native left and a wide right operand
control flows off the end of the function; with a wide left and a native right
operand the body of `big_num::operator>(T)` does not compile. -/
def gt (x : Bits n s) (y : Bits m t) : Res Bool :=
  if h : n ≤ 64 then (if m ≤ 64 then .ok (cmpNat TV.gt x y) else .error .noReturn)
  else if hm : m ≤ 64 then .error .illFormed else (x.bg h).gt (y.bg hm)

/-- `operator<`, lines 645-657 -/
def lt (x : Bits n s) (y : Bits m t) : Res Bool :=
  if h : n ≤ 64 then (if m ≤ 64 then .ok (cmpNat TV.lt x y) else .error .noReturn)
  else if hm : m ≤ 64 then .error .illFormed else (x.bg h).lt (y.bg hm)

/-- `operator>=`, lines 664-676 -/
def ge (x : Bits n s) (y : Bits m t) : Res Bool :=
  if h : n ≤ 64 then (if m ≤ 64 then .ok (cmpNat TV.ge x y) else .error .noReturn)
  else if hm : m ≤ 64 then .error .illFormed else (x.bg h).ge (y.bg hm)

/-- `operator<=`, lines 683-695 -/
def le (x : Bits n s) (y : Bits m t) : Res Bool :=
  if h : n ≤ 64 then (if m ≤ 64 then .ok (cmpNat TV.le x y) else .error .noReturn)
  else if hm : m ≤ 64 then .error .illFormed else (x.bg h).le (y.bg hm)

/-! ### arithmetic -/

/-- unary `-`, lines 702-708 (native; the wide form does not compile) -/
def neg (x : Bits n s) (h : n ≤ 64) : Res (Bits n s) := (TV.neg x.nv).map (mkN h)

/-- `operator+` on equal sizes, lines 723-728 -/
def add (x : Bits n s) (y : Bits n t) : Res (Bits n (s && t)) :=
  if h : n ≤ 64 then (TV.add x.nv y.nv).map (mkN h) else .ok (.big h ((x.bg h).add (y.bg h)))

/-- `operator-` on equal sizes, lines 747-752 -/
def sub (x : Bits n s) (y : Bits n t) : Res (Bits n (s && t)) :=
  if h : n ≤ 64 then (TV.sub x.nv y.nv).map (mkN h) else .ok (.big h ((x.bg h).sub (y.bg h)))

/-- `operator*` on equal sizes, lines 771-776 -/
def mul (x : Bits n s) (y : Bits n t) : Res (Bits n (s && t)) :=
  if h : n ≤ 64 then (TV.mul x.nv y.nv).map (mkN h) else ((x.bg h).mul (y.bg h)).map (.big h)

/-- `operator/` on equal sizes, lines 819-824; a wide dividend must be unsigned
(a signed one does not compile) -/
def div (x : Bits n s) (y : Bits n t) : Res (Bits n (s && t)) :=
  if h : n ≤ 64 then (TV.div x.nv y.nv).map (mkN h)
  else (((x.bg h).toSign false).div (y.bg h)).map fun q => .big h (q.toSign _)

/-- `operator%` on equal sizes, lines 795-800 -/
def mod (x : Bits n s) (y : Bits n t) : Res (Bits n (s && t)) :=
  if h : n ≤ 64 then (TV.mod x.nv y.nv).map (mkN h)
  else (((x.bg h).toSign false).mod (y.bg h)).map fun q => .big h (q.toSign _)

/-- `operator+` on different sizes and `add`, lines 716-721 and 730-738 -/
def addMix (x : Bits n s) (y : Bits m t) : Res (Bits (max n m) (s && t)) :=
  (x.extend (max n m)).add (y.extend (max n m))
/-- `operator-` on different sizes and `minus`, lines 740-745 and 754-762 -/
def subMix (x : Bits n s) (y : Bits m t) : Res (Bits (max n m) (s && t)) :=
  (x.extend (max n m)).sub (y.extend (max n m))
/-- `operator*` on different sizes and `multiply`, lines 764-769 and 778-786 -/
def mulMix (x : Bits n s) (y : Bits m t) : Res (Bits (max n m) (s && t)) :=
  (x.extend (max n m)).mul (y.extend (max n m))
/-- `operator/` on different sizes and `divide`, lines 812-817 and 826-834 -/
def divMix (x : Bits n s) (y : Bits m t) : Res (Bits (max n m) (s && t)) :=
  (x.extend (max n m)).div (y.extend (max n m))
/-- `operator%` on different sizes and `mod`, lines 788-793 and 802-810 -/
def modMix (x : Bits n s) (y : Bits m t) : Res (Bits (max n m) (s && t)) :=
  (x.extend (max n m)).mod (y.extend (max n m))

/-- `one_()`, lines 1048-1052 -/
def one1 : Bits 1 false := mkN (by decide) ⟨.bool, 1⟩

/-- the summand of `++`/`--` brought to the width of `*this`: `one_()` itself for
one bit, its extension otherwise -/
def oneN (n : Nat) : Bits n false := one1.extend n

/-- prefix `operator++`, lines 507-510 -/
def inc (x : Bits n s) : Res (Bits n s) := (x.add (oneN n)).map (toSign s)
/-- prefix `operator--`, lines 512-515 -/
def dec (x : Bits n s) : Res (Bits n s) := (x.sub (oneN n)).map (toSign s)
/-- postfix `operator++`, lines 518-522: new object and returned value -/
def postInc (x : Bits n s) : Res (Bits n s × Bits n s) := x.inc.map fun y => (y, x)
/-- postfix `operator--`, lines 525-529 -/
def postDec (x : Bits n s) : Res (Bits n s × Bits n s) := x.dec.map fun y => (y, x)

/-- `to_signed()`, lines 836-848 -/
def toSigned (x : Bits n s) : Bits n true := x.toSign true
/-- `to_unsigned()`, lines 850-863 -/
def toUnsigned (x : Bits n s) : Bits n false := x.toSign false

/-- `highest_bit()`, lines 887-898 -/
def highestBit (x : Bits n s) : Nat :=
  if h : n ≤ 64 then
    if x.nv.v = 0 then n else 64 - (BitVec.ofInt 64 x.nv.v).clz.toNat - 1
  else (x.bg h).highestBit

/-- `negate() const`, lines 909-918 -/
def negate (x : Bits n s) : Res (Bits n false) :=
  if h : n ≤ 64 then
    (TV.add (TV.bnot x.nv) (TV.int 1)).bind fun v => (mkN h v : Bits n false).maskOff
  else .ok (.big h ((x.bg h).negate.toSign false))

/-! ### slice assignment -/

/-- the loop of `update<hi, lo>(op)`, lines 933-949; the operand is read at `i`,
not at `i - start` -/
def update (r : Rng) (x : Bits n s) (hi lo : Int) (ro : Rng) (op : Bits m t) : Res (Bits n s) :=
  let start := min hi lo
  let stop := max hi lo + 1
  loopM 0 (stop - start).toNat x fun k x =>
    let i := start + k
    let idx := if ro.bigEndian ^^ r.bigEndian then ro.hi - i else i
    (op.get ro idx).bind fun b => x.setBit r i b

/-- `update(hi, lo, op)` and `update_`, lines 951-956 and 1177-1193 -/
def updateRt (r : Rng) (x : Bits n s) (hi lo : Int) (ro : Rng) (op : Bits m t) : Res (Bits n s) :=
  let start := min hi lo
  let stop := max hi lo + 1
  loopM 0 (stop - start).toNat x fun k x =>
    let i := start + k
    let idx := if ro.bigEndian ^^ r.bigEndian then ro.hi - i else i
    (op.get ro (idx - start)).bind fun b => x.setBit r i b

/-! ### conversions -/

/-- `to_uint64()`, lines 961-967 -/
def toUint64 (x : Bits n s) : BitVec 64 :=
  if h : n ≤ 64 then BitVec.ofInt 64 x.nv.v else (x.bg h).toUint64

/-- `to_num()`, lines 969-995 (native only): the holder value; a one bit value is
returned as an 8-bit number -/
def toNum (x : Bits n s) : Int :=
  (CTy.int (sizeofBits n) s).conv x.nv.v

end Bits

/-- `operator""_bit`, lines 1237-1239 -/
def litBit (v : BitVec 64) : Bits 32 true :=
  (Bits.ofInt (tInt.conv v.toNat) : Bits 32 true).extend 32
/-- `operator""_bit64`, lines 1240-1242 -/
def litBit64 (v : BitVec 64) : Bits 64 true :=
  (Bits.ofInt ((CTy.int 64 true).conv v.toNat) : Bits 64 true).extend 64

end Verif
