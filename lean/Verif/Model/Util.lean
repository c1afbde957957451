import Verif.Model.BigNum
import Verif.Model.Format

/-!
# Helper functions of `include/logic/util.hh`

`str_len` and `copy` are offered by the header but not called by the rest of the library; `reverse_tuple` is called by `unpack`.
-/

namespace Verif

/-- `str_len`, `include/logic/util.hh` 51-60: the length of a text of a value whose natural
length is `size` under the format `fmt` -/
def strLen (size : Nat) (fmt : List Char) : Res Nat :=
  let pos := findNonDigit fmt
  if pos = some 0 then .ok size
  else (stoul (fmt.take (pos.getD fmt.length))).map fun v => max size v

/-- `copy`, `include/logic/util.hh` 35-40, instantiated with two limb-based values. The loop
variable is an `unsigned int` compared with the 64-bit `end - start`; from `2^32 - 1` on it
wraps round and the loop does not end. -/
def Big.copy {n m : Nat} {s t : Bool} (dst : Big n s) (src : Big m t) (start fin : BitVec 64) : Res (Big n s) :=
  let c := fin - start
  if 2 ^ 32 - 1 ≤ c.toNat then .error .diverge
  else .ok ((List.range (c.toNat + 1)).foldl (fun d i => d.set i (src.get (BitVec.ofNat 64 i + start).toNat)) dst)

/-- `reverse_tuple`, `include/logic/util.hh` 66-74: the array `is` of the numbers `N - 1 - I` (unsigned, no wrap since `I < N`) and the tuple of the
references `get<is[I]>`; every `get` is in range, or the code does not compile -/
def reverseTuple {α : Type} (t : List α) : Option (List α) :=
  let is := (List.range t.length).map fun i => t.length - 1 - i
  (List.range t.length).mapM fun i => is[i]?.bind fun k => t[k]?

end Verif
