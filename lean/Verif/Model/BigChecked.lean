import Verif.Model.BigNum

/-!
# `include/logic/big_num.hh` with every array access checked

`Verif.Model.BigNum` reads and writes limbs with total functions: a read past the end of the array gives
zero there and a write past the end has no effect. In the source both are undefined. This file follows
the same functions once more with every `values[i]`, every iterator `values.begin() + k`, every shift
count and every argument of `__builtin_clzll` checked, the outcome of a failing check being a `Fault`.
`Verif.Props.Bounds` shows which functions can fail.

Line numbers refer to `/repo/include/logic/big_num.hh`.
-/

namespace Verif
namespace Big

variable {n m : Nat} {s t : Bool}

/-- `values[i]` as an rvalue on `std::array<uint64_t, s> values`, line 16 -/
def rd (x : Big n s) (i : Nat) : Res (BitVec 64) :=
  if i < limbs n then .ok (x.limb i) else .error .oob

/-- `values[i] = v`, line 16 -/
def wr (x : Big n s) (i : Nat) (v : BitVec 64) : Res (Big n s) :=
  if i < limbs n then .ok (x.setLimb i v) else .error .oob

/-- the range `values.begin() + k .. values.end()`; an iterator past the end is undefined -/
def fromC (x : Big n s) (k : Nat) : Res (List (BitVec 64)) :=
  if k ≤ limbs n then .ok (x.vals.drop k) else .error .oob

/-- the range `values.begin() .. values.begin() + s - 1`, line 790; undefined for an empty array -/
def initC (x : Big n s) : Res (List (BitVec 64)) :=
  if 1 ≤ limbs n then .ok (x.vals.take (limbs n - 1)) else .error .oob

/-- `v >> k` on `uint64_t` -/
def shrC (v : BitVec 64) (k : Nat) : Res (BitVec 64) :=
  if k < 64 then .ok (v >>> k) else .error .shift

/-- `v << k` on `uint64_t` -/
def shlC (v : BitVec 64) (k : Nat) : Res (BitVec 64) :=
  if k < 64 then .ok (v <<< k) else .error .shift

/-- `__builtin_clzll(v)`, line 886: undefined for zero -/
def clzC (v : BitVec 64) : Res Nat :=
  if v = 0 then .error .shift else .ok v.clz.toNat

/-- constructor from an unsigned value, lines 902-913: the brace list has one entry, which needs an array
of at least one element -/
def ofU64C (v : BitVec 64) : Res (Big n s) := (zero : Big n s).wr 0 v

/-- `operator[]`, lines 21-29 -/
def getC (x : Big n s) (idx : Nat) : Res Bool :=
  if idx < n then
    (x.rd (idx / 64)).bind fun a => (shrC a (idx % 64)).map fun v => v &&& 1#64 != 0#64
  else .ok false

/-- `set(idx, value)`, lines 65-75 -/
def setC (x : Big n s) (idx : Nat) (v : Bool) : Res (Big n s) :=
  if idx < n then
    (x.rd (idx / 64)).bind fun a => (shlC 1#64 (idx % 64)).bind fun b =>
      x.wr (idx / 64) (if v then a ||| b else a &&& ~~~b)
  else .ok x

/-- `negative()`, line 77: `size - 1` is computed on `uint64_t` -/
def negativeC (x : Big n s) : Res Bool := x.getC (n - 1)

/-- one step of the bit-copying loops: `dst.set(i, src[j])` -/
def copyBit (src : Big n s) (dst : Big m t) (i j : Nat) : Res (Big m t) :=
  (src.getC j).bind fun b => dst.setC i b

/-- `slice<a, b>()`, lines 79-95 -/
def sliceFixedC (a b : Nat) (x : Big n s) : Res (Big (max a b - min a b + 1) false) :=
  loopM (min a b) (max a b + 1) zero fun i res => copyBit x res (i - min a b) i

/-- `slice<target_size>(a, b)`, lines 97-108 -/
def sliceRtC (k : Nat) (a b : Nat) (x : Big n s) : Res (Big k false) :=
  if 2 ^ 64 ≤ max a b + 1 then .error .diverge
  else loopM (min a b) (max a b + 1) zero fun i res => copyBit x res (i - min a b) i

/-- `result.values[i] = f(values[i])` -/
def mapLimb (f : BitVec 64 → BitVec 64) (x : Big n s) (i : Nat) (r : Big m t) : Res (Big m t) :=
  (x.rd i).bind fun a => r.wr i (f a)

/-- `extend<op_size>()`, lines 110-121 -/
def extendC (m : Nat) (x : Big n s) : Res (Big m s) :=
  (loopM 0 (limbs n) (zero : Big m s) fun i r => mapLimb id x i r).bind fun r =>
  if s then loopM n m r fun i r => r.setC i true else .ok r

/-- `concat`, lines 129-144 -/
def concatC (x : Big n s) (num : Big m t) : Res (Big (n + m) false) :=
  (loopM 0 (limbs m) (zero : Big (n + m) false) fun i r => mapLimb id num i r).bind fun r =>
  loopM m (n + m) r fun i r => copyBit x r i (i - m)

/-- `mask_off()`, lines 150-155 -/
def maskOffC (x : Big n s) : Res (Big n s) :=
  (shrC (BitVec.allOnes 64) (limbs n * 64 - n)).bind fun mask =>
  (x.rd (limbs n - 1)).bind fun a => x.wr (limbs n - 1) (a &&& mask)

/-- `operator~`, lines 167-177 -/
def notC (x : Big n s) : Res (Big n s) :=
  (loopM 0 (limbs n) (zero : Big n s) fun i r => mapLimb (~~~ ·) x i r).bind fun r =>
  loopM n (limbs n * 64) r fun i r => r.setC i false

/-- `result.values[i] = f(values[i], op.values[i])` -/
def zipLimb (f : BitVec 64 → BitVec 64 → BitVec 64) (x : Big n s) (y : Big n t) (i : Nat)
    (r : Big n (s && t)) : Res (Big n (s && t)) :=
  (x.rd i).bind fun a => (y.rd i).bind fun b => r.wr i (f a b)

/-- `operator&` on equal sizes, lines 189-198 -/
def andC (x : Big n s) (y : Big n t) : Res (Big n (s && t)) :=
  (loopM 0 (limbs n) zero fun i r => zipLimb (· &&& ·) x y i r).bind maskOffC

/-- `operator^` on equal sizes, lines 228-236 -/
def xorC (x : Big n s) (y : Big n t) : Res (Big n (s && t)) :=
  loopM 0 (limbs n) zero fun i r => zipLimb (· ^^^ ·) x y i r

/-- `operator|` on equal sizes, lines 266-274 -/
def orC (x : Big n s) (y : Big n t) : Res (Big n (s && t)) :=
  loopM 0 (limbs n) zero fun i r => zipLimb (· ||| ·) x y i r

/-- `r_xor`, lines 317-323 -/
def rXorC (x : Big n s) : Res Bool :=
  (x.getC 0).bind fun b0 => loopM 1 n b0 fun i b => (x.getC i).map fun c => b ^^ c

/-- `operator>>(uint64_t)`, lines 325-335 -/
def shrNC (x : Big n s) (amount : Nat) : Res (Big n s) :=
  if amount > n then .ok zero
  else loopM amount n zero fun i res => copyBit x res (i - amount) i

/-- the scan of limbs `i, i + 1, ...` of a shift amount with `k` of them left, lines 344-346, 370-372 and
412-421: it ends at the first limb that is not zero -/
def scanC (amount : Big m t) : Nat → Nat → Res Bool
  | 0, _ => .ok false
  | k + 1, i => (amount.rd i).bind fun a => if a != 0 then .ok true else scanC amount k (i + 1)

/-- the loop `for (auto i = 1u; i < amount.s; i++)` of these scans -/
def highLimbC (amount : Big m t) : Res Bool := scanC amount (limbs m - 1) 1

/-- `operator>>(big_num)`, lines 337-349 -/
def shrBigC (x : Big n s) (amount : Big m t) : Res (Big n (s && t)) :=
  amount.highLimbC.bind fun h =>
  if h then .ok zero
  else (amount.rd 0).bind fun a => (x.shrNC a.toNat).map (toSign _)

/-- `operator<<(uint64_t)`, lines 351-361 -/
def shlNC (x : Big n s) (amount : Nat) : Res (Big n s) :=
  if amount > n then .ok zero
  else loopM 0 (n - amount) zero fun i res => copyBit x res (i + amount) i

/-- `operator<<(big_num)`, lines 363-375 -/
def shlBigC (x : Big n s) (amount : Big m t) : Res (Big n (s && t)) :=
  amount.highLimbC.bind fun h =>
  if h then .ok zero
  else (amount.rd 0).bind fun a => (x.shlNC a.toNat).map (toSign _)

/-- `mask()`, lines 778-785 -/
def maskC (x : Big n s) : Res (Big n s) :=
  (loopM 0 (limbs n - 1) x fun i r => r.wr i (BitVec.allOnes 64)).bind fun r =>
  (shrC (BitVec.allOnes 64) (limbs n * 64 - n)).bind fun v => r.wr (limbs n - 1) v

/-- `res.mask()` on a fresh result when the sign bit is set, lines 382-386 and 414-418 -/
def signFillC (x : Big n s) (u : Bool) : Res (Big n u) :=
  x.negativeC.bind fun b => if b then maskC zero else .ok zero

/-- `ashr(uint64_t)`, lines 377-402 -/
def ashrC (x : Big n s) (amount : Nat) : Res (Big n s) :=
  if s then
    if amount > n - 1 then signFillC x s
    else
      x.negativeC.bind fun neg =>
      (loopM 0 amount (zero : Big n s) fun i res => res.setC (n - i - 1) neg).bind fun res =>
      loopM amount (n - 1) res fun i res => copyBit x res (i - amount) i
  else x.shrNC amount

/-- `ashr(big_num)`, lines 404-424 -/
def ashrBigC (x : Big n s) (amount : Big m t) : Res (Big n (s && t)) :=
  amount.highLimbC.bind fun h =>
  if h then (if s then signFillC x _ else .ok zero)
  else (amount.rd 0).bind fun a => (x.ashrC a.toNat).map (toSign _)

/-- the comparison of limbs `i, i + 1, ...` with `k` of them left, lines 448-450, 462-464 and 473-475 -/
def eqScanC (x : Big n s) (y : Big m t) : Nat → Nat → Res Bool
  | 0, _ => .ok true
  | k + 1, i =>
    (x.rd i).bind fun a => (y.rd i).bind fun b =>
      if a != b then .ok false else eqScanC x y k (i + 1)

/-- `operator==`, lines 440-481 -/
def eqC (x : Big n s) (y : Big m t) : Res Bool :=
  if s && t then (x.extendC m).bind fun x' => eqScanC x' y (limbs m) 0
  else if limbs n ≥ limbs m then
    (eqScanC x y (limbs m) 0).bind fun e =>
    if e then
      (if limbs n = limbs m then .ok true else (x.fromC (limbs m)).map fun l => reduceOr l == 0)
    else .ok false
  else
    (eqScanC x y (limbs n) 0).bind fun e =>
    if e then (y.fromC (limbs n)).map fun l => reduceOr l == 0 else .ok false

/-- `operator==(T)`, lines 483-488 -/
def eqNumC (x : Big n s) (v : BitVec 64) : Res Bool :=
  (x.rd 0).bind fun a =>
  if v != a then .ok false else (x.fromC 1).map fun l => l.all fun c => c == 0

/-- the loop of `operator>`, lines 507-521, over `idx = k-1, ..., 0` -/
def gtLoopC (x : Big n s) (y : Big m t) : Nat → Res Bool
  | 0 => .ok false
  | idx + 1 =>
    if idx ≥ limbs n then
      (y.rd idx).bind fun b => if b != 0 then .ok false else gtLoopC x y idx
    else if idx ≥ limbs m then
      (x.rd idx).bind fun a => if a != 0 then .ok true else gtLoopC x y idx
    else
      (x.rd idx).bind fun a => (y.rd idx).bind fun b =>
        if a != b then .ok (decide (b < a)) else gtLoopC x y idx

/-- the part of `operator>` shared by all signednesses, lines 506-521 -/
def gtMagC (x : Big n s) (y : Big m t) : Res Bool := gtLoopC x y (max (limbs n) (limbs m))

/-- one limb of `operator+`, lines 579-583 -/
def addLimb (x : Big n s) (y : Big n t) (i : Nat) (st : BitVec 128 × Big n (s && t)) :
    Res (BitVec 128 × Big n (s && t)) :=
  (x.rd i).bind fun a => (y.rd i).bind fun b =>
    let v := st.1 + a.setWidth 128 + b.setWidth 128
    (st.2.wr i (((v <<< 64) >>> 64).setWidth 64)).map fun r => (v >>> 64, r)

/-- `operator+` on equal sizes, lines 572-585 -/
def addC (x : Big n s) (y : Big n t) : Res (Big n (s && t)) :=
  (loopM 0 (limbs n) ((0 : BitVec 128), (zero : Big n (s && t))) fun i st =>
    addLimb x y i st).map (·.2)

/-- `negate()`, lines 750-756 -/
def negateC (x : Big n s) : Res (Big n s) :=
  x.notC.bind fun r => (ofU64C 1 : Res (Big n false)).bind fun one => (r.addC one).map (toSign s)

/-- `operator-` on equal sizes, lines 602-607 -/
def subC (x : Big n s) (y : Big n t) : Res (Big n (s && t)) := y.negateC.bind fun z => x.addC z

/-- `operator>` on two signed operands, lines 490-522, with the fuel of `gtS` -/
def gtSC : Nat → {n m : Nat} → Big n true → Big m true → Res Bool
  | 0, _, _, _, _ => .error .diverge
  | fuel + 1, _, _, x, y =>
    x.negativeC.bind fun nx => y.negativeC.bind fun ny =>
    if nx && !ny then .ok false
    else if !nx && ny then .ok true
    else if nx && nx then
      x.negateC.bind fun x' => y.negateC.bind fun y' => gtSC fuel y' x'
    else gtMagC x y

/-- `operator>`, lines 490-522 -/
def gtC (x : Big n s) (y : Big m t) : Res Bool :=
  if s && t then gtSC gtFuel (x.toSign true) (y.toSign true) else gtMagC x y

/-- `operator>=`, lines 545-548 -/
def geC (x : Big n s) (y : Big m t) : Res Bool :=
  (x.gtC y).bind fun g => if g then .ok true else x.eqC y

/-- `all_set()`, lines 789-799 -/
def allSetC (x : Big n s) : Res Bool :=
  x.initC.bind fun l =>
  (shrC (BitVec.allOnes 64) (limbs n * 64 - n)).bind fun max =>
  if limbs n = 1 then (x.rd 0).map fun a => a == max
  else if (reduceAnd l).signExtend 64 == BitVec.allOnes 64 then
    (x.rd (limbs n - 1)).map fun a => a == max
  else .ok false

/-- `is_one()`, lines 805-812 -/
def isOneC (x : Big n s) : Res Bool :=
  (x.rd 0).bind fun a =>
  if limbs n = 1 then .ok (a == 1)
  else if a == 1 then (x.fromC 1).map fun l => reduceOr l == 0 else .ok false

/-- `fit_in_64()`, lines 814-817 -/
def fitIn64C (x : Big n s) : Res Bool := (x.fromC 1).map fun l => reduceOr l == 0

/-- `if (k < size) { temp.values[k] = v; result = result + temp; temp.values[k] = 0; }`, lines 653-662;
the state is `(temp, result)` -/
def mulAccC (k : Nat) (v : BitVec 64) (st : Big n false × Big n s) : Res (Big n false × Big n s) :=
  if k < n then
    (st.1.wr k v).bind fun temp => (st.2.addC temp).bind fun result =>
    (temp.wr k 0).map fun temp => (temp, result.toSign s)
  else .ok st

/-- `operator*` on equal sizes, lines 624-667 -/
def mulC (x : Big n s) (y : Big n t) : Res (Big n (s && t)) :=
  x.fitIn64C.bind fun fx =>
  (if fx then y.fitIn64C else .ok false).bind fun f =>
  if f then
    (x.rd 0).bind fun a => (y.rd 0).bind fun b =>
    let c : BitVec 128 := a.setWidth 128 * b.setWidth 128
    ((zero : Big n (s && t)).wr 0 (((c <<< 64) >>> 64).setWidth 64)).bind fun r =>
    r.wr 1 ((c >>> 64).setWidth 64)
  else
    (loopM 0 (limbs n) ((zero : Big n false), (zero : Big n (s && t))) fun i st =>
      (x.rd i).bind fun a =>
      if a = 0 then .ok st
      else
        loopM 0 (limbs n) st fun j st =>
          (y.rd j).bind fun b =>
          if b = 0 then .ok st
          else
            let c : BitVec 128 := a.setWidth 128 * b.setWidth 128
            let hi := (c >>> 64).setWidth 64
            let lo := ((c <<< 64) >>> 64).setWidth 64
            (mulAccC (i + j) lo st).bind (mulAccC (i + j + 1) hi)).map (·.2)

/-- the scan of `highest_bit()`, lines 883-889, over limbs `k-1, ..., 0` -/
def highestBitLoopC (x : Big n s) : Nat → Res (Option Nat)
  | 0 => .ok none
  | k + 1 =>
    (x.rd k).bind fun v =>
    if v != 0 then (clzC v).map fun r => some ((k + 1) * 64 - r - 1) else highestBitLoopC x k

/-- `highest_bit()`, lines 882-892 -/
def highestBitC (x : Big n s) : Res Nat := (x.highestBitLoopC (limbs n)).map (·.getD (limbs n))

/-- the shift-subtract loop of `div_mod_unsigned`, lines 868-877 -/
def divLoopC (y : Big n false) :
    Nat → Big n false × Big n false → Res (Big n false × Big n false)
  | 0, st => .ok st
  | i + 1, (q, r) =>
    (y.shlNC i).bind fun sh => (r.geC sh).bind fun g =>
    if g then
      (r.subC sh).bind fun r' => (q.setC i true).bind fun q' => divLoopC y i (q', r'.toSign false)
    else divLoopC y i (q, r)

/-- `div_mod_unsigned`, lines 848-880 -/
def divModUnsignedC (x y : Big n false) : Res (Big n false × Big n false) :=
  y.isOneC.bind fun one =>
  if one then (ofU64C 0).map fun z => (x, z)
  else (x.eqC y).bind fun e =>
  if e then (ofU64C 1).bind fun o => (ofU64C 0).map fun z => (o, z)
  else (y.gtC x).bind fun g =>
  if g then (ofU64C 0).map fun z => (z, x)
  else x.fitIn64C.bind fun fx => (if fx then y.fitIn64C else .ok false).bind fun f =>
  if f then
    (x.rd 0).bind fun a => (y.rd 0).bind fun b =>
    if b = 0 then .error .divZero
    else (ofU64C (a / b)).bind fun q => (ofU64C (a % b)).map fun r => (q, r)
  else x.highestBitC.bind fun hx => y.highestBitC.bind fun hy =>
    divLoopC y ((BitVec.ofNat 64 hx - BitVec.ofNat 64 hy).toNat + 1) (zero, x)

/-- `div_mod`, lines 819-846 -/
def divModC (x : Big n false) (y : Big n t) : Res (Big n false × Big n false) :=
  if !y.anySet then .ok (zero, zero) else divModUnsignedC x (y.toSign false)

/-- `to_uint64()`, line 897 -/
def toUint64C (x : Big n s) : Res (BitVec 64) := x.rd 0

end Big
end Verif
