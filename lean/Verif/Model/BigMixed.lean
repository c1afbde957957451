import Verif.Model.BigNum
import Verif.Model.Parse

/-!
# Model of `include/logic/big_num.hh`: operators on operands of different sizes

Line numbers refer to `/repo/include/logic/big_num.hh`. The operators with
`op_size != size` extend both operands to the larger size and apply the operator
on equal sizes; `extend<size>()` of a value of that size is a copy (line 124),
which is what `Big.extend n` on a `Big n s` computes.

`operator&=` and `operator^=` with `op_size > size`, every `operator|=`, and a
compound assignment whose declared result type is not the type of `*this` (a
signed left with an unsigned right operand) do not compile.
-/

namespace Verif
namespace Big
variable {n m : Nat} {s t : Bool}

/-- `operator&` with `op_size != size` and `and_`, lines 184-187, 200-208 -/
def andM (x : Big n s) (y : Big m t) : Big (max n m) (s && t) := (x.extend (max n m)).and (y.extend (max n m))

/-- `operator^` with `op_size != size` and `xor_`, lines 223-226, 238-246 -/
def xorM (x : Big n s) (y : Big m t) : Big (max n m) (s && t) := (x.extend (max n m)).xor (y.extend (max n m))

/-- `operator|` and `or_`, lines 261-264, 276-284 -/
def orM (x : Big n s) (y : Big m t) : Big (max n m) (s && t) := (x.extend (max n m)).or (y.extend (max n m))

/-- `operator+` with `op_size != size` and `add`, lines 567-570, 587-595 -/
def addM (x : Big n s) (y : Big m t) : Big (max n m) (s && t) := (x.extend (max n m)).add (y.extend (max n m))

/-- `operator-` with `op_size != size` and `minus`, lines 597-600, 609-617 -/
def subM (x : Big n s) (y : Big m t) : Big (max n m) (s && t) := (x.extend (max n m)).sub (y.extend (max n m))

/-- `operator*` with `op_size != size` and `multiply`, lines 619-622, 669-677 -/
def mulM (x : Big n s) (y : Big m t) : Res (Big (max n m) (s && t)) :=
  (x.extend (max n m)).mul (y.extend (max n m))

/-- `operator/` with `op_size != size` and `divide`, lines 679-682, 690-698; a
signed dividend does not compile -/
def divM (x : Big n false) (y : Big m t) : Res (Big (max n m) false) :=
  (x.extend (max n m)).div (y.extend (max n m))

/-- `operator%` with `op_size != size` and `mod`, lines 700-703, 711-719 -/
def modM (x : Big n false) (y : Big m t) : Res (Big (max n m) false) :=
  (x.extend (max n m)).mod (y.extend (max n m))

/-- `operator&=`, lines 210-221, for `op_size <= size`: `m` is the size of the
operand -/
def andAssign (x : Big n s) (y : Big m t) : Res (Big n s) :=
  if m ≤ n ∧ (s && t) = s then .ok ((x.and (y.extend n)).toSign s).maskOff else .error .illFormed

/-- `operator^=`, lines 248-259 -/
def xorAssign (x : Big n s) (y : Big m t) : Res (Big n s) :=
  if m ≤ n ∧ (s && t) = s then .ok ((x.xor (y.extend n)).toSign s).maskOff else .error .illFormed

/-- `ashl(uint64_t)`, lines 427-429 -/
def ashl (x : Big n s) (amount : Nat) : Big n s := x.shl amount

/-- `ashl(big_num)`, lines 431-435 -/
def ashlBig (x : Big n s) (amount : Big m t) : Big n (s && t) := x.shlBig amount

/-- unary `+`, line 765 -/
def pos (x : Big n s) : Big n s := x

/-- `explicit operator bool`, line 162 -/
def toBool (x : Big n s) : Bool := x.anySet

/-- `unmask()`, line 787 -/
def unmask (_ : Big n s) : Big n s := zero

/-- constructor from text, line 900 -/
def ofString (v : List Char) : Res (Big n s) := (parseRawBig v n).map ofList

end Big
end Verif
