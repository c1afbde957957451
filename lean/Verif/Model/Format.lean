import Verif.Model.Parse

/-!
# Model of the formatting half of `src/util.cc`

Line numbers refer to `/repo/src/util.cc` unless stated otherwise. A
`std::stringstream` that is only appended to is the list of characters written.
`ceil(size / k.0)` is computed with integers (exact for every size below `2^50`).
-/

namespace Verif

/-- character of a digit, as `operator<<` prints it (`std::hex` is lower case) -/
def digitChar (d : Nat) : Char := if d < 10 then Char.ofNat (48 + d) else Char.ofNat (87 + d)

/-- digits of `v` in base `b`, least significant first, none for zero; `fuel`
bounds their number (128 is enough for every 128-bit value in base 2 or more) -/
def lsDigits (b : Nat) : Nat → Nat → List Char
  | 0, _ => []
  | fuel + 1, v => if v = 0 then [] else digitChar (v % b) :: lsDigits b fuel (v / b)

/-- the loop `while (value > 0) { ss << value % 10; value /= 10; }` with the
`ss << 0` of a zero value, lines 419-427 and 506-514 -/
def lsDecimal (v : Nat) : List Char := if v = 0 then ['0'] else lsDigits 10 128 v

/-- `ss << std::oct << value` or `ss << std::hex << value`: most significant
digit first -/
def streamNum (b v : Nat) : List Char := if v = 0 then ['0'] else (lsDigits b 128 v).reverse

/-- number of decimal digits of `2^i - 1`, `compute_decimal_size`, lines 248-272 -/
def decimalSize (i : Nat) : Nat := if i = 0 then 1 else (lsDigits 10 128 (2 ^ i - 1)).length

/-- Result of `parse_fmt`. -/
structure Fmt where
  base : Char
  actualSize : Nat
  padding : Bool
  deriving DecidableEq, Repr

/-- `std::stoul` of a string of digits: throws on an empty string and on values
above `ULONG_MAX` -/
def stoul (v : List Char) : Res Nat :=
  if v = [] then .error .throws
  else
    let r := v.foldl (fun a c => a * 10 + (c.toNat - 48)) 0
    if r < 2 ^ 64 then .ok r else .error .throws

/-- the `switch` of lines 293-329 -/
def possibleSize (base : Char) (size : Nat) : Res Nat :=
  if base = 'b' ∨ base = 'B' then .ok size
  else if base = 'o' ∨ base = 'O' then .ok ((size + 2) / 3)
  else if base = 'd' ∨ base = 'D' then
    if size > 128 then .ok size
    else if size < 128 then .ok (decimalSize size) else .error .oob
  else if base = 'x' ∨ base = 'X' ∨ base = 'h' ∨ base = 'H' then .ok ((size + 3) / 4)
  else if base = 's' ∨ base = 'S' then .ok ((size + 7) / 8)
  else .ok size

/-- `parse_fmt`, lines 274-341 -/
def parseFmt (fmt : List Char) (size : Nat) : Res Fmt :=
  let pos := findNonDigit fmt
  let base := match pos with
    | some p => fmt.getD p 's'
    | none => 's'
  (if pos = some 0 then .ok none
    else (stoul (fmt.take (pos.getD fmt.length))).map some).bind fun requested =>
  (possibleSize base size).map fun possible =>
  match requested with
  | none => ⟨base, possible, true⟩
  | some 0 => ⟨base, possible, false⟩
  | some q => ⟨base, max possible q, true⟩

/-- is the base decimal? -/
def isDec (base : Char) : Bool := base = 'd' || base = 'D'

/-- `pad_result`, lines 343-361. `actual_size` has 64 bits and `actual_size++` wraps; the loop counter
`auto i = 0u` of line 354 has 32 bits, so the padding loop never ends when `2^32` or more characters
are missing. -/
def padResult (neg : Bool) (f : Fmt) (ss : List Char) : Res (List Char) :=
  let minus := neg && isDec f.base
  let result := if minus then ss ++ ['-'] else ss
  let size := if minus then (f.actualSize + 1) % 2 ^ 64 else f.actualSize
  let padChar := if isDec f.base || f.base = 's' || f.base = 'S' then ' ' else '0'
  if f.padding then
    if 2 ^ 32 ≤ size - result.length then .error .diverge
    else .ok (result ++ List.replicate (size - result.length) padChar).reverse
  else .ok result.reverse

/-- `format_value_2power`, lines 363-381 -/
def formatPow2 (base : Char) (v : BitVec 64) : List Char :=
  if base = 'o' ∨ base = 'O' then streamNum 8 v.toNat
  else if base = 'x' ∨ base = 'h' ∨ base = 'X' ∨ base = 'H' then streamNum 16 v.toNat
  else []

/-- is the base octal or hexadecimal? -/
def isPow2Base (base : Char) : Bool :=
  base = 'o' || base = 'O' || base = 'x' || base = 'h' || base = 'X' || base = 'H'

/-- the `'s'` loop of the 2-state formatter, lines 412-415: `i` runs over
multiples of 8 but is scaled by 8 again, and a number is printed -/
def str2Loop (v : BitVec 64) (size : Nat) : Nat → Nat → Res (List Char)
  | 0, _ => .ok []
  | k + 1, i =>
    if i < size then
      if i * 8 < 64 then
        (str2Loop v size k (i + 8)).map (streamNum 10 ((v >>> (i * 8)) &&& 0xFF#64).toNat ++ ·)
      else .error .shift
    else .ok []

/-- `to_string` of a native 2-state value, lines 383-433 -/
def toString2 (fmt : List Char) (size : Nat) (v : BitVec 64) (neg : Bool) : Res (List Char) :=
  (parseFmt fmt size).bind fun f =>
  (if f.base = 'b' ∨ f.base = 'B' then
      .ok ((List.range size).map fun i => if v.getLsbD i then '1' else '0')
    else if isPow2Base f.base then .ok (formatPow2 f.base v)
    else if f.base = 's' ∨ f.base = 'S' then str2Loop v size 64 0
    else if isDec f.base then .ok (lsDecimal v.toNat)
    else .ok []).bind (padResult neg f)

/-- `get_mask`, line 435 -/
def getMask (stride : Nat) : BitVec 64 := BitVec.allOnes 64 >>> (64 - stride)

/-- does digit `(v, xz)` of `stride` bits hold an x? lines 457-466 -/
def digitHasX (stride : Nat) (v xz : BitVec 64) : Bool :=
  (List.range stride).any fun j => xz.getLsbD j && !v.getLsbD j

/-- one iteration of `fmt_value`, lines 442-474: the text of one digit -/
def fmtDigit (base : Char) (v xz : BitVec 64) : List Char :=
  let stride := getStride base
  let mask := getMask stride
  if xz ≠ 0 then
    if xz = mask then (if v = 0 then ['x'] else if v = mask then ['z'] else ['X'])
    else if digitHasX stride v xz then ['X'] else ['Z']
  else formatPow2 base v

/-- `fmt_value`, lines 437-477, for digit positions `i, i + stride, ...` below
`size`; `k` bounds the number of iterations -/
def fmtValueLoop (base : Char) (size : Nat) (v xz : BitVec 64) : Nat → Nat → List Char
  | 0, _ => []
  | k + 1, i =>
    if i < size then
      fmtDigit base ((v >>> i) &&& getMask (getStride base)) ((xz >>> i) &&& getMask (getStride base))
        ++ fmtValueLoop base size v xz k (i + getStride base)
    else []

/-- `fmt_value`, lines 437-477 -/
def fmtValue (base : Char) (size : Nat) (v xz : BitVec 64) : List Char :=
  fmtValueLoop base size v xz 64 0

/-- `fmt_decimal`, lines 479-517 (`1 <= size <= 64`) -/
def fmtDecimal (size : Nat) (v xz : BitVec 64) : List Char :=
  if xz ≠ 0 then
    let mask := BitVec.allOnes 64 >>> (64 - size)
    if xz = mask then (if v = 0 then ['x'] else if v = mask then ['z'] else ['X'])
    else if (List.range size).any fun i => xz.getLsbD i && !v.getLsbD i then ['X'] else ['Z']
  else lsDecimal v.toNat

/-- `fmt_char`, lines 519-527 -/
def fmtChar (size : Nat) (v : BitVec 64) : List Char :=
  (List.range ((size + 7) / 8)).map fun i => Char.ofNat ((v >>> (8 * i)) &&& 0xFF#64).toNat

/-- the character of one bit, lines 543-549 -/
def bitChar (v xz : Bool) : Char := if !xz then (if v then '1' else '0') else if v then 'z' else 'x'

/-- the text of a native 4-state value before padding, lines 536-576 -/
def body4 (base : Char) (size : Nat) (v xz : BitVec 64) : List Char :=
  if base = 'b' ∨ base = 'B' then
    (List.range size).map fun i => bitChar (v.getLsbD i) (xz.getLsbD i)
  else if isPow2Base base then fmtValue base size v xz
  else if isDec base then fmtDecimal size v xz
  else if base = 's' ∨ base = 'S' then fmtChar size v
  else []

/-- `to_string_` of a native 4-state value, lines 529-582 -/
def toString4_ (fmt : List Char) (size : Nat) (v xz : BitVec 64) (neg usePadding : Bool) :
    Res (List Char) :=
  (parseFmt fmt size).bind fun f =>
    if usePadding then padResult neg f (body4 f.base size v xz) else .ok (body4 f.base size v xz)

/-- `to_string` of a native 4-state value, lines 584-587 -/
def toString4 (fmt : List Char) (size : Nat) (v xz : BitVec 64) (neg : Bool) : Res (List Char) :=
  toString4_ fmt size v xz neg true

/-- `ptr[i]`: a read through the limb pointer, out of bounds is undefined -/
def ptrGet (l : List (BitVec 64)) (i : Nat) : Res (BitVec 64) :=
  match l[i]? with
  | some v => .ok v
  | none => .error .oob

/-- octal digit `start` of a limb array, lines 604-614 and 670-684: a digit that
crosses a limb boundary ORs the low bits of the next limb without shifting -/
def octChunk (l : List (BitVec 64)) (start : Nat) : Res (BitVec 64) :=
  (ptrGet l (start / 64)).bind fun a =>
  if 64 - start % 64 < 3 then
    (ptrGet l (start / 64 + 1)).map fun b =>
      ((a >>> (start % 64)) &&& 7#64) ||| (b &&& (7#64 >>> (64 - start % 64)))
  else .ok ((a >>> (start % 64)) &&& 7#64)

/-- concatenation of the texts of a list of chunks -/
def appendAll {α : Type} (f : α → Res (List Char)) : List α → Res (List Char)
  | [] => .ok []
  | a :: as => (f a).bind fun s => (appendAll f as).map (s ++ ·)

/-- the two low limbs as a `__uint128_t`, lines 629-635 and 701-711 -/
def low128 (l : List (BitVec 64)) (size : Nat) : Res Nat :=
  if size > 64 then
    (ptrGet l 1).bind fun hi => (ptrGet l 0).map fun lo => hi.toNat * 2 ^ 64 + lo.toNat
  else (ptrGet l 0).map fun lo => lo.toNat

/-- `to_string` of a wide 2-state value, lines 589-653 -/
def toStringBig2 (fmt : List Char) (size : Nat) (value : List (BitVec 64)) (neg : Bool) :
    Res (List Char) :=
  (parseFmt fmt size).bind fun f =>
  (if !isDec f.base then
      if f.base = 'o' ∨ f.base = 'O' then
        appendAll (fun i => (octChunk value (i * 3)).bind fun v => toString2 fmt 3 v false)
          (List.range ((size + 2) / 3))
      else
        (appendAll (fun i => (ptrGet value i).bind fun v => toString2 fmt 64 v false)
          (List.range (limbs size - 1))).bind fun a =>
        if size % 64 ≠ 0 then
          ((ptrGet value (limbs size - 1)).bind fun v => toString2 fmt (size % 64) v false).map
            (a ++ ·)
        else .ok a
    else (low128 value size).map (lsDigits 10 128)).bind (padResult neg f)

/-- the decimal text of a wide 4-state value, lines 712-751 -/
def bigDecimal4 (size : Nat) (v xz : Nat) : List Char :=
  if xz ≠ 0 then
    if xz = 2 ^ 128 - 1 then
      (if v = 0 then ['x'] else if v = 2 ^ 128 - 1 then ['z'] else ['X'])
    else if (List.range (min size 128)).any fun i => xz.testBit i && !v.testBit i then ['X']
    else ['Z']
  else lsDigits 10 128 v

/-- `to_string` of a wide 4-state value, lines 655-755 -/
def toStringBig4 (fmt : List Char) (size : Nat) (value xz : List (BitVec 64)) (neg : Bool) :
    Res (List Char) :=
  (parseFmt fmt size).bind fun f =>
  (if !isDec f.base then
      if f.base = 'o' ∨ f.base = 'O' then
        appendAll (fun i => (octChunk value (i * 3)).bind fun v =>
            (octChunk xz (i * 3)).bind fun k => toString4_ fmt 3 v k false false)
          (List.range ((size + 2) / 3))
      else
        (appendAll (fun i => (ptrGet value i).bind fun v => (ptrGet xz i).bind fun k =>
            toString4_ fmt 64 v k false false) (List.range (limbs size - 1))).bind fun a =>
        if size % 64 ≠ 0 then
          ((ptrGet value (limbs size - 1)).bind fun v => (ptrGet xz (limbs size - 1)).bind fun k =>
            toString4_ fmt (size % 64) v k false false).map (a ++ ·)
        else .ok a
    else
      (low128 value size).bind fun v => (low128 xz size).map fun k => bigDecimal4 size v k).bind
    (padResult neg f)

/-- `get_output_base`, lines 29-36 -/
def getOutputBase (fmt : List Char) : Char :=
  match findNonDigit fmt with
  | some p => fmt.getD p 'b'
  | none => 'b'

/-- `decimal_fmt`, lines 757-760 -/
def decimalFmt (fmt : List Char) : Bool := isDec (getOutputBase fmt)

/-- `bit::str`, `include/logic/bit.hh` 29-44. For an unsigned wide value it does not
compile: `negative()` is called outside of `if constexpr`, and
`big_num::negative` requires a signed type (`big_num.hh` 77). -/
def Bits.str {n : Nat} {s : Bool} (x : Bits n s) (fmt : List Char) : Res (List Char) :=
  if h : n ≤ 64 then
    if s && x.negative && decimalFmt fmt then
      x.negate.bind fun m => toString2 fmt n (BitVec.ofInt 64 m.nv.v) true
    else toString2 fmt n (BitVec.ofInt 64 x.nv.v) false
  else if !s then .error .illFormed
  else
    if s && x.negative && decimalFmt fmt then
      x.negate.bind fun m => toStringBig2 fmt n (m.bg h).vals true
    else toStringBig2 fmt n (x.bg h).vals false

/-- `logic::str`, `include/logic/logic.hh` 27-49 -/
def Lg.str {n : Nat} {s : Bool} (x : Lg n s) (fmt : List Char) : Res (List Char) :=
  if h : n ≤ 64 then
    if s && x.value.negative && decimalFmt fmt then
      x.value.negate.bind fun m =>
        toString4 fmt n (BitVec.ofInt 64 m.nv.v) (BitVec.ofInt 64 x.xz.nv.v) true
    else toString4 fmt n (BitVec.ofInt 64 x.value.nv.v) (BitVec.ofInt 64 x.xz.nv.v) false
  else
    if s && x.value.negative && decimalFmt fmt then
      x.value.negate.bind fun m => toStringBig4 fmt n (m.bg h).vals (x.xz.bg h).vals true
    else toStringBig4 fmt n (x.value.bg h).vals (x.xz.bg h).vals false

end Verif
