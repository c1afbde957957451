import Verif.Model.CInt

/-!
# Model of `include/logic/big_num.hh`

Line numbers refer to `/repo/include/logic/big_num.hh` unless stated otherwise.

Members that do not compile when instantiated are not modelled: `popcount`
(146-148), the narrowing branches of `operator&=`/`operator^=` (214-217,
252-255), `operator|=` (286-297), `r_and` (300-315), signed-signed `operator==`
with `op_size <= size` (453), the comparisons with arithmetic types (524-556),
`power` (721-748) and signed division (832-841).
-/

namespace Verif

/-- Number of limbs, lines 13-14. -/
def limbs (n : Nat) : Nat := if n % 64 = 0 then n / 64 else n / 64 + 1

/-- `big_num<n, s>`: `std::array<uint64_t, s> values`, line 16. The `signed_`
parameter only selects code. -/
structure Big (n : Nat) (s : Bool) where
  vals : List (BitVec 64)
  len : vals.length = limbs n
  deriving DecidableEq

namespace Big

variable {n m : Nat} {s t : Bool}

/-- `values[i]` for an index known to be in bounds (out of bounds reads of this
helper never happen in the functions below; the multiplication, where the source
does go out of bounds, checks explicitly). -/
def limb (x : Big n s) (i : Nat) : BitVec 64 := x.vals.getD i 0

/-- `values[i] = v` for an index in bounds. -/
def setLimb (x : Big n s) (i : Nat) (v : BitVec 64) : Big n s :=
  ⟨x.vals.set i v, by simpa using x.len⟩

/-- default constructor, line 916: all limbs zero -/
def zero : Big n s := ⟨List.replicate (limbs n) 0, by simp⟩

/-- Constructor from an unsigned arithmetic value, lines 902-913. A signed
argument does not compile (narrowing in `values({v})`), so the sign loop of
lines 905-912 is never taken. -/
def ofU64 (v : BitVec 64) : Big n s := setLimb zero 0 v

/-- implicit conversion between signed and unsigned, lines 919-922; also
`to_signed`, lines 758-762 -/
def toSign (t : Bool) (x : Big n s) : Big n t := ⟨x.vals, x.len⟩

/-- `operator[]`, lines 21-29; `get`, lines 53-62 and 925 -/
def get (x : Big n s) (idx : Nat) : Bool :=
  if idx < n then ((x.limb (idx / 64) >>> (idx % 64)) &&& 1#64) != 0#64 else false

/-- `set(idx, value)`, lines 65-75 (also the template forms, lines 31-51) -/
def set (x : Big n s) (idx : Nat) (v : Bool) : Big n s :=
  if idx < n then
    if v then x.setLimb (idx / 64) (x.limb (idx / 64) ||| (1#64 <<< (idx % 64)))
    else x.setLimb (idx / 64) (x.limb (idx / 64) &&& ~~~(1#64 <<< (idx % 64)))
  else x

/-- `negative()`, line 77 -/
def negative (x : Big n s) : Bool := x.get (n - 1)

/-- `slice<a, b>()`, lines 79-95; the `requires` clause is `max a b < n` -/
def sliceFixed (a b : Nat) (x : Big n s) : Big (max a b - min a b + 1) false :=
  loop (min a b) (max a b + 1) zero fun i res => res.set (i - min a b) (x.get i)

/-- `slice<target_size>(a, b)`, lines 97-108. The arguments are `uint64_t`
values; with `end = 2^64 - 1` the loop condition `i <= end` never fails. -/
def sliceRt (k : Nat) (a b : Nat) (x : Big n s) : Res (Big k false) :=
  if 2 ^ 64 ≤ max a b + 1 then .error .diverge
  else .ok (loop (min a b) (max a b + 1) zero fun i res => res.set (i - min a b) (x.get i))

/-- `extend<op_size>()` for `op_size > size`, lines 110-121 (for
`op_size == size` it is a copy; smaller targets do not compile). -/
def extend (m : Nat) (x : Big n s) : Big m s :=
  let r : Big m s := loop 0 (limbs n) zero fun i r => r.setLimb i (x.limb i)
  if s then loop n m r fun i r => r.set i true else r

/-- `concat`, lines 129-144 -/
def concat (x : Big n s) (num : Big m t) : Big (n + m) false :=
  let r : Big (n + m) false := loop 0 (limbs m) zero fun i r => r.setLimb i (num.limb i)
  loop m (n + m) r fun i r => r.set i (x.get (i - m))

/-- `mask_off()`, lines 150-155 -/
def maskOff (x : Big n s) : Big n s :=
  x.setLimb (limbs n - 1)
    (x.limb (limbs n - 1) &&& (BitVec.allOnes 64 >>> (limbs n * 64 - n)))

/-- `clear()`, line 157 -/
def clear (_ : Big n s) : Big n s := zero

/-- `operator~`, lines 167-177; the masking loop calls `set`, which ignores
indices not below `size` -/
def not (x : Big n s) : Big n s :=
  let r : Big n s := loop 0 (limbs n) zero fun i r => r.setLimb i (~~~ x.limb i)
  loop n (limbs n * 64) r fun i r => r.set i false

/-- `operator&` on equal sizes, lines 189-198 -/
def and (x : Big n s) (y : Big n t) : Big n (s && t) :=
  (loop 0 (limbs n) (zero : Big n (s && t))
    fun i r => r.setLimb i (x.limb i &&& y.limb i)).maskOff

/-- `operator^` on equal sizes, lines 228-236 -/
def xor (x : Big n s) (y : Big n t) : Big n (s && t) :=
  loop 0 (limbs n) zero fun i r => r.setLimb i (x.limb i ^^^ y.limb i)

/-- `operator|` on equal sizes, lines 266-274 -/
def or (x : Big n s) (y : Big n t) : Big n (s && t) :=
  loop 0 (limbs n) zero fun i r => r.setLimb i (x.limb i ||| y.limb i)

/-- `r_xor`, lines 317-323 -/
def rXor (x : Big n s) : Bool :=
  loop 1 n (x.get 0) fun i b => b ^^ x.get i

/-- `operator>>(uint64_t)`, lines 325-335 -/
def shr (x : Big n s) (amount : Nat) : Big n s :=
  if amount > n then zero
  else loop amount n zero fun i res => res.set (i - amount) (x.get i)

/-- Is one of the limbs `1 ..` of a shift amount non-zero? lines 344-346,
370-372, 412-421 -/
def highLimb (amount : Big m t) : Bool :=
  (List.range' 1 (limbs m - 1)).any fun i => amount.limb i != 0

/-- `operator>>(big_num)`, lines 337-349 -/
def shrBig (x : Big n s) (amount : Big m t) : Big n (s && t) :=
  if amount.highLimb then zero else (x.shr (amount.limb 0).toNat).toSign _

/-- `operator<<(uint64_t)`, lines 351-361 -/
def shl (x : Big n s) (amount : Nat) : Big n s :=
  if amount > n then zero
  else loop 0 (n - amount) zero fun i res => res.set (i + amount) (x.get i)

/-- `operator<<(big_num)`, lines 363-375 -/
def shlBig (x : Big n s) (amount : Big m t) : Big n (s && t) :=
  if amount.highLimb then zero else (x.shl (amount.limb 0).toNat).toSign _

/-- `mask()`, lines 778-785 -/
def mask (x : Big n s) : Big n s :=
  (loop 0 (limbs n - 1) x fun i r => r.setLimb i (BitVec.allOnes 64)).setLimb
    (limbs n - 1) (BitVec.allOnes 64 >>> (limbs n * 64 - n))

/-- `ashr(uint64_t)`, lines 377-402 -/
def ashr (x : Big n s) (amount : Nat) : Big n s :=
  if s then
    if amount > n - 1 then (if x.negative then zero.mask else zero)
    else
      let res : Big n s :=
        loop 0 amount zero fun i res => res.set (n - i - 1) x.negative
      loop amount (n - 1) res fun i res => res.set (i - amount) (x.get i)
  else x.shr amount

/-- `ashr(big_num)`, lines 404-424 -/
def ashrBig (x : Big n s) (amount : Big m t) : Big n (s && t) :=
  if amount.highLimb then
    (if s then (if x.negative then zero.mask else zero) else zero)
  else (x.ashr (amount.limb 0).toNat).toSign _

/-- `std::reduce(first, last, 0, a | b)` as used at lines 469, 477, 774, 809 and
815: the accumulator has the type of the initial value, `int`, so each step
converts the 64-bit disjunction to 32 bits. -/
def reduceOr (l : List (BitVec 64)) : BitVec 32 :=
  l.foldl (fun acc v => (acc.signExtend 64 ||| v).setWidth 32) 0

/-- `std::reduce(first, last, 0, a & b)`, line 790 -/
def reduceAnd (l : List (BitVec 64)) : BitVec 32 :=
  l.foldl (fun acc v => (acc.signExtend 64 &&& v).setWidth 32) 0

/-- limbs `0 .. k-1` agree, the loops of lines 448, 462 and 473 -/
def eqUpTo (k : Nat) (x : Big n s) (y : Big m t) : Bool :=
  (List.range k).all fun i => x.limb i == y.limb i

/-- `operator==`, lines 440-481. Both operands signed: only `op_size > size`
compiles (lines 444-451). -/
def eq (x : Big n s) (y : Big m t) : Bool :=
  if s && t then eqUpTo (limbs m) (x.extend m) y
  else if limbs n ≥ limbs m then
    if eqUpTo (limbs m) x y then
      (if limbs n = limbs m then true else reduceOr (x.vals.drop (limbs m)) == 0)
    else false
  else
    if eqUpTo (limbs n) x y then reduceOr (y.vals.drop (limbs n)) == 0 else false

/-- `operator==(T)`, lines 483-488 -/
def eqNum (x : Big n s) (v : BitVec 64) : Bool :=
  if v != x.limb 0 then false else (x.vals.drop 1).all fun c => c == 0

/-- The loop of `operator>`, lines 507-521, over `idx = k-1, ..., 0`. -/
def gtLoop (x : Big n s) (y : Big m t) : Nat → Bool
  | 0 => false
  | idx + 1 =>
    if idx ≥ limbs n then
      if y.limb idx != 0 then false else gtLoop x y idx
    else if idx ≥ limbs m then
      if x.limb idx != 0 then true else gtLoop x y idx
    else if x.limb idx != y.limb idx then decide (y.limb idx < x.limb idx)
    else gtLoop x y idx

/-- The part of `operator>` shared by all signednesses, lines 506-521. -/
def gtMag (x : Big n s) (y : Big m t) : Bool := gtLoop x y (max (limbs n) (limbs m))

/-- `operator+` on equal sizes, lines 572-585; `carry` and `v` are
`__uint128_t` -/
def add (x : Big n s) (y : Big n t) : Big n (s && t) :=
  (loop 0 (limbs n) ((0 : BitVec 128), (zero : Big n (s && t))) fun i st =>
    let v := st.1 + (x.limb i).setWidth 128 + (y.limb i).setWidth 128
    (v >>> 64, st.2.setLimb i (((v <<< 64) >>> 64).setWidth 64))).2

/-- `negate()`, lines 750-756 (and unary minus, line 764) -/
def negate (x : Big n s) : Big n s :=
  (x.not.add (ofU64 1 : Big n false)).toSign s

/-- `operator-` on equal sizes, lines 602-607 -/
def sub (x : Big n s) (y : Big n t) : Big n (s && t) := x.add y.negate

/-- `operator>` on two signed operands, lines 490-522. Two negative operands
recurse through `negate() < op.negate()`, i.e. `op.negate() > negate()`; the
recursion is given fuel and `none` left reports divergence. -/
def gtS : Nat → {n m : Nat} → Big n true → Big m true → Res Bool
  | 0, _, _, _, _ => .error .diverge
  | fuel + 1, _, _, x, y =>
    if x.negative && !y.negative then .ok false
    else if !x.negative && y.negative then .ok true
    else if x.negative && x.negative then gtS fuel y.negate x.negate
    else .ok (gtMag x y)

/-- Recursion depth that `operator>` is allowed in the model. -/
def gtFuel : Nat := 4

/-- `operator>`, lines 490-522 -/
def gt (x : Big n s) (y : Big m t) : Res Bool :=
  if s && t then gtS gtFuel (x.toSign true) (y.toSign true) else .ok (gtMag x y)

/-- `operator<`, lines 532-535 -/
def lt (x : Big n s) (y : Big m t) : Res Bool := y.gt x

/-- `operator>=`, lines 545-548 (only instantiated where `==` compiles) -/
def ge (x : Big n s) (y : Big m t) : Res Bool :=
  match x.gt y with
  | .ok true => .ok true
  | .ok false => .ok (x.eq y)
  | .error e => .error e

/-- `operator<=`, lines 558-561 -/
def le (x : Big n s) (y : Big m t) : Res Bool := y.ge x

/-- `any_set()`, lines 770-776 -/
def anySet (x : Big n s) : Bool := reduceOr x.vals != 0

/-- `all_set()`, lines 789-799. The `int` result of the reduction is converted
to `uint64_t` in the comparison with `UINT64_MAX`. -/
def allSet (x : Big n s) : Bool :=
  let v := reduceAnd (x.vals.take (limbs n - 1))
  let max := BitVec.allOnes 64 >>> (limbs n * 64 - n)
  if limbs n = 1 then x.limb 0 == max
  else v.signExtend 64 == BitVec.allOnes 64 && x.limb (limbs n - 1) == max

/-- `is_one()`, lines 805-812 -/
def isOne (x : Big n s) : Bool :=
  if limbs n = 1 then x.limb 0 == 1
  else x.limb 0 == 1 && reduceOr (x.vals.drop 1) == 0

/-- `fit_in_64()`, lines 814-817 -/
def fitIn64 (x : Big n s) : Bool := reduceOr (x.vals.drop 1) == 0

/-- `temp.values[k] = v; result = result + temp; temp.values[k] = 0;`, lines
653-662. The guard in the source compares `k` with the size in bits, so an index
not below the number of limbs is an out of bounds write. `temp` is zero before
and after. -/
def mulAcc (k : Nat) (v : BitVec 64) (result : Big n s) : Res (Big n s) :=
  if k < n then
    if k < limbs n then .ok ((result.add (setLimb zero k v : Big n false)).toSign s)
    else .error .oob
  else .ok result

/-- `operator*` on equal sizes, lines 624-667 -/
def mul (x : Big n s) (y : Big n t) : Res (Big n (s && t)) :=
  if x.fitIn64 && y.fitIn64 then
    let c : BitVec 128 := (x.limb 0).setWidth 128 * (y.limb 0).setWidth 128
    if limbs n < 2 then .error .oob
    else .ok ((setLimb zero 0 (((c <<< 64) >>> 64).setWidth 64)).setLimb 1
      ((c >>> 64).setWidth 64))
  else
    loopM 0 (limbs n) zero fun i result =>
      if x.limb i = 0 then .ok result
      else
        loopM 0 (limbs n) result fun j result =>
          if y.limb j = 0 then .ok result
          else
            let c : BitVec 128 := (x.limb i).setWidth 128 * (y.limb j).setWidth 128
            let hi := (c >>> 64).setWidth 64
            let lo := ((c <<< 64) >>> 64).setWidth 64
            (mulAcc (i + j) lo result).bind (mulAcc (i + j + 1) hi)

/-- The scan of `highest_bit()`, lines 883-889, over limbs `k-1, ..., 0`. -/
def highestBitLoop (x : Big n s) : Nat → Option Nat
  | 0 => none
  | k + 1 =>
    if x.limb k != 0 then some ((k + 1) * 64 - (x.limb k).clz.toNat - 1)
    else highestBitLoop x k

/-- `highest_bit()`, lines 882-892; zero gives the number of limbs -/
def highestBit (x : Big n s) : Nat := (x.highestBitLoop (limbs n)).getD (limbs n)

/-- The shift-subtract loop of `div_mod_unsigned`, lines 868-877, with `i` the
position `diff_bits - i` of the source counted downwards. -/
def divLoop (y : Big n false) : Nat → Big n false × Big n false → Big n false × Big n false
  | 0, st => st
  | i + 1, (q, r) =>
    let sh := y.shl i
    if gtMag r sh || r.eq sh then divLoop y i (q.set i true, (r.sub sh).toSign false)
    else divLoop y i (q, r)

/-- `div_mod_unsigned`, lines 848-880 -/
def divModUnsigned (x y : Big n false) : Res (Big n false × Big n false) :=
  if y.isOne then .ok (x, ofU64 0)
  else if x.eq y then .ok (ofU64 1, ofU64 0)
  else if gtMag y x then .ok (ofU64 0, x)
  else if x.fitIn64 && y.fitIn64 then
    if y.limb 0 = 0 then .error .divZero
    else .ok (ofU64 (x.limb 0 / y.limb 0), ofU64 (x.limb 0 % y.limb 0))
  else
    let diff := (BitVec.ofNat 64 x.highestBit - BitVec.ofNat 64 y.highestBit).toNat
    .ok (divLoop y (diff + 1) (zero, x))

/-- `div_mod`, lines 819-846, for an unsigned dividend (a signed dividend does
not compile); a signed divisor is converted. -/
def divMod (x : Big n false) (y : Big n t) : Res (Big n false × Big n false) :=
  if !y.anySet then .ok (zero, zero) else divModUnsigned x (y.toSign false)

/-- `operator/` on equal sizes, lines 684-688 -/
def div (x : Big n false) (y : Big n t) : Res (Big n false) := (divMod x y).map (·.1)

/-- `operator%` on equal sizes, lines 705-709 -/
def mod (x : Big n false) (y : Big n t) : Res (Big n false) := (divMod x y).map (·.2)

/-- `to_uint64()`, line 897 -/
def toUint64 (x : Big n s) : BitVec 64 := x.limb 0

end Big
end Verif
