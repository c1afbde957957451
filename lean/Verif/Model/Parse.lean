import Verif.Model.Logic

/-!
# Model of the parsing half of `src/util.cc`

Line numbers refer to `/repo/src/util.cc` unless stated otherwise. A string is a
list of characters; characters are assumed to be single bytes, and below 128
where the source computes `c - '0'` on a plain `char`.
-/

namespace Verif

/-- `std::string_view::find_first_not_of("0123456789")`; `none` is `npos` -/
def findNonDigit (v : List Char) : Option Nat := v.findIdx? fun c => !('0' ≤ c ∧ c ≤ '9')

/-- `get_input_base`, lines 9-27 -/
def getInputBase (value : List Char) : Char × Nat :=
  match value.findIdx? (· == '\'') with
  | some p =>
    let v := value.drop (p + 1)
    match findNonDigit v with
    | some b => (v.getD b 'b', b + 1 + p + 1)
    | none => ('b', 0)
  | none => ('s', 0)

/-- `s << k` on `uint64_t` -/
def shl64 (x : BitVec 64) (k : Nat) : Res (BitVec 64) :=
  if k < 64 then .ok (x <<< k) else .error .shift

/-- decimal step, lines 44-51: state is `(result, base10)` -/
def parseDec (st : BitVec 64 × BitVec 64) (c : Char) : BitVec 64 × BitVec 64 :=
  if '0' ≤ c ∧ c ≤ '9' then
    (st.1 + BitVec.ofNat 64 (c.toNat - 48) * st.2, st.2 * 10)
  else st

/-- a digit step shared by the positional bases: `result |= s << (idx * stride)`
when `s?` is given, then `if (c != '_') idx++`; state is `(result, idx)` -/
def parsePos (stride : Nat) (s? : Option (BitVec 64)) (c : Char) (st : BitVec 64 × Nat) :
    Res (BitVec 64 × Nat) :=
  (match s? with
    | some s => (shl64 s (st.2 * stride)).map (st.1 ||| ·)
    | none => .ok st.1 : Res (BitVec 64)).map fun r => (r, if c ≠ '_' then st.2 + 1 else st.2)

/-- binary digit, lines 60-62: only `1` and lower case `z` set a bit -/
def binDigit (c : Char) : Option (BitVec 64) :=
  if c = '1' ∨ c = 'z' then some 1 else none

/-- octal digit, lines 73-81: any other character is `c - '0'` -/
def octDigit (c : Char) : Option (BitVec 64) :=
  if c = 'x' ∨ c = 'X' ∨ c = '_' then some 0
  else if c = 'z' ∨ c = 'Z' then some 7
  else some (BitVec.ofInt 64 ((c.toNat : Int) - 48))

/-- hexadecimal digit, lines 91-103: lower case letters are `c - 'a'` -/
def hexDigit (c : Char) : Option (BitVec 64) :=
  if c = 'x' ∨ c = 'X' ∨ c = '_' then some 0
  else if c = 'z' ∨ c = 'Z' then some 15
  else if '0' ≤ c ∧ c ≤ '9' then some (BitVec.ofNat 64 (c.toNat - 48))
  else if 'a' ≤ c ∧ c ≤ 'f' then some (BitVec.ofNat 64 (c.toNat - 97))
  else if 'A' ≤ c ∧ c ≤ 'F' then some (BitVec.ofNat 64 (c.toNat - 65 + 10))
  else some 0

/-- `parse_raw_str_`, lines 38-119; the loops visit the string from its end -/
def parseRaw (value : List Char) (base : Char) : Res (BitVec 64) :=
  if base = 'd' ∨ base = 'D' then .ok (value.reverse.foldl parseDec (0, 1)).1
  else if base = 'b' ∨ base = 'B' then
    (value.reverse.foldlM (fun st c => parsePos 1 (binDigit c) c st) (0, 0)).map (·.1)
  else if base = 'o' ∨ base = 'O' then
    (value.reverse.foldlM (fun st c => parsePos 3 (octDigit c) c st) (0, 0)).map (·.1)
  else if base = 'h' ∨ base = 'H' then
    (value.reverse.foldlM (fun st c => parsePos 4 (hexDigit c) c st) (0, 0)).map (·.1)
  else if base = 's' ∨ base = 'S' then
    .ok (loop 0 (min 8 value.length) 0 fun i r =>
      r ||| (BitVec.ofNat 64 ((value.getD (value.length - i - 1) 'a').toNat % 256) <<< (i * 8)))
  else .ok 0

/-- `parse_raw_str(value)`, lines 121-124 -/
def parseRawStr (value : List Char) : Res (BitVec 64) :=
  let (base, pos) := getInputBase value
  parseRaw (value.drop pos) base

/-- x/z step of the binary base, lines 135-138: `1u << idx` is a 32-bit shift -/
def parseXzBin (c : Char) (st : BitVec 64 × Nat) : Res (BitVec 64 × Nat) :=
  (if c = 'x' ∨ c = 'z' then
      if st.2 < 32 then .ok (st.1 ||| ((1#32 <<< st.2).setWidth 64)) else .error .shift
    else .ok st.1 : Res (BitVec 64)).map fun r => (r, if c ≠ '_' then st.2 + 1 else st.2)

/-- x/z digit of the octal and hexadecimal bases, lines 150-153 and 165-168 -/
def xzDigit (mask : BitVec 64) (c : Char) : Option (BitVec 64) :=
  if c = 'x' ∨ c = 'X' ∨ c = 'z' ∨ c = 'Z' then some mask else none

/-- `parse_xz_raw_str_`, lines 126-176. Simplification: the loops count characters with the 32-bit
`auto i = 0u` (lines 133, 146, 161) and would not end for a text of `2^32` characters or more; the model
reads such a text to its end. -/
def parseXz (value : List Char) (base : Char) : Res (BitVec 64) :=
  if base = 'b' ∨ base = 'B' then
    (value.reverse.foldlM (fun st c => parseXzBin c st) (0, 0)).map (·.1)
  else if base = 'o' ∨ base = 'O' then
    (value.reverse.foldlM (fun st c => parsePos 3 (xzDigit 7 c) c st) (0, 0)).map (·.1)
  else if base = 'h' ∨ base = 'H' then
    (value.reverse.foldlM (fun st c => parsePos 4 (xzDigit 15 c) c st) (0, 0)).map (·.1)
  else .ok 0

/-- `parse_xz_raw_str(value)`, lines 178-181 -/
def parseXzStr (value : List Char) : Res (BitVec 64) :=
  let (base, pos) := getInputBase value
  parseXz (value.drop pos) base

/-- `get_stride`, lines 183-202 -/
def getStride (base : Char) : Nat :=
  if base = 'b' ∨ base = 'B' then 1
  else if base = 'o' ∨ base = 'O' then 3
  else if base = 'h' ∨ base = 'H' ∨ base = 'x' ∨ base = 'X' then 4
  else if base = 's' ∨ base = 'S' then 8
  else 1

/-- the batch loop of lines 216-223 and 238-245 with `k` limbs left to write;
limbs that are not written keep their initial zero (`big_num.hh` 916) -/
def batchLoop (p : List Char → Res (BitVec 64)) (value : List Char) (batch : Nat) :
    Nat → Nat → Nat → Res (List (BitVec 64))
  | 0, _, _ => .ok []
  | k + 1, remaining, stop =>
    if remaining > 0 then
      let begin := if remaining ≥ batch then remaining - batch else 0
      (p ((value.drop begin).take (stop - begin))).bind fun x =>
      (batchLoop p value batch k (if remaining > batch then remaining - batch else 0) begin).map
        (x :: ·)
    else .ok (List.replicate (k + 1) 0)

/-- `parse_raw_str(value, size, ptr)`, lines 204-224: the limbs written -/
def parseRawBig (value : List Char) (size : Nat) : Res (List (BitVec 64)) :=
  let (base, pos) := getInputBase value
  let v := value.drop pos
  batchLoop (parseRaw · base) v (64 / getStride base) (limbs size) v.length v.length

/-- `parse_xz_raw_str(value, size, ptr)`, lines 226-246 -/
def parseXzBig (value : List Char) (size : Nat) : Res (List (BitVec 64)) :=
  let (base, pos) := getInputBase value
  let v := value.drop pos
  batchLoop (parseXz · base) v (64 / getStride base) (limbs size) v.length v.length

/-- a limb list as a wide value (the list always has the right length) -/
def Big.ofList {n : Nat} {s : Bool} (l : List (BitVec 64)) : Big n s :=
  ⟨(List.range (limbs n)).map fun i => l.getD i 0, by simp⟩

/-- constructor from a string, `include/logic/bit.hh` 1000-1006: no masking to
the declared width -/
def Bits.ofString {n : Nat} {s : Bool} (v : List Char) : Res (Bits n s) :=
  if h : n ≤ 64 then (parseRawStr v).map fun x => Bits.mkN h ⟨tU64, x.toNat⟩
  else (parseRawBig v n).map fun l => .big h (Big.ofList l)

/-- constructor from a string, `include/logic/logic.hh` 1013-1022 -/
def Lg.ofString {n : Nat} {s : Bool} (v : List Char) : Res (Lg n s) :=
  if h : n ≤ 64 then
    (parseRawStr v).bind fun x => (parseXzStr v).map fun k =>
      ⟨Bits.mkN h ⟨tU64, x.toNat⟩, Bits.mkN h ⟨tU64, k.toNat⟩⟩
  else
    (parseRawBig v n).bind fun x => (parseXzBig v n).map fun k =>
      ⟨.big h (Big.ofList x), .big h (Big.ofList k)⟩

end Verif
