import Verif.Model.Format
import Verif.Model.Static
import Verif.Model.Array
import Verif.Show

/-!
# The project's own tests, run on the model

The assertions of `/repo/tests/*.cc` that do not only check `sizeof` or types,
transcribed onto the model and evaluated by the kernel. They are not properties and
appear in no claim: they check the reading of the source that the model
records against the expectations that the authors run on the compiled library. Every
`example` names the lines of the test it transcribes.
-/

namespace Verif.Conformance

open Verif

/-- a literal argument of a `std::string_view` parameter -/
abbrev S (s : String) : List Char := s.toList
/-- a run of equal characters, as the `for` loops of the tests build it -/
abbrev run (k : Nat) (c : Char) : List Char := List.replicate k c
/-- `logic<n-1, 0, s>(std::string_view)` -/
abbrev L (n : Nat) (s : Bool) (v : List Char) : Res (Lg n s) := Lg.ofString v
/-- `l.str()`: the default format is `"b"` -/
abbrev str {n : Nat} {s : Bool} (x : Lg n s) : Res (List Char) := x.str ['b']
/-- the conversion of a comparison result by `EXPECT_TRUE` -/
abbrev truth (r : Res (Lg 1 false)) : Res Bool := r.map Lg.toBool
/-- `v_logic` -/
abbrev lit (v : Nat) : Lg 32 true := litLogic (BitVec.ofNat 64 v)

/-! ## test_logic.cc -/

/-! ### init, lines 14-64 -/
example : (do let l : Lg 4 false ← Lg.dflt; str l) = .ok (S "xxxx") := by decide +kernel
example : (do let l : Lg 15 false ← Lg.dflt; str l) = .ok (S "xxxxxxxxxxxxxxx") := by decide +kernel
example : str (Lg.ofInt 42 : Lg 30 false) = .ok (S "000000000000000000000000101010") := by decide +kernel
example : str (Lg.ofInt (2 ^ 64 - 1) : Lg 64 false) = .ok (run 64 '1') := by decide +kernel
example : (do let l ← L 40 false (S "'bxx1010"); str l) = .ok (run 34 '0' ++ S "xx1010") := by decide +kernel
example : (do let l ← L 128 false (S "'bxx1010"); str l) = .ok (run 122 '0' ++ S "xx1010") := by decide +kernel

/-! ### slice, lines 66-121 -/
example : (do let s ← (Lg.ofInt 42 : Lg 40 false).slice (Rng.down 40) 3 2; str s) = .ok (S "10") := by decide +kernel
example : (do let l ← L 121 false (S "'b1011" ++ run 100 '0'); let s ← l.slice (Rng.down 121) 103 100; str s) =
    .ok (S "1011") := by decide +kernel
example : (do let l ← L 120 false (S "'b1011" ++ run 100 '1'); let s ← l.slice (Rng.down 120) 103 42; str s) =
    .ok (S "1011" ++ run 58 '1') := by decide +kernel
example : ((Lg.ofInt 0xFFFF : Lg 32 false).sliceBase (Rng.down 32) 4 true (Lg.ofInt 2 : Lg 11 false).toNum).map Lg.toNum =
    .ok 0xF := by decide +kernel
example : (do
    let i ← (Lg.ofInt 2 : Lg 11 false).addMix (lit 2)
    let d ← (Lg.ofInt 0xFFFF : Lg 32 false).sliceBase (Rng.down 32) 3 false i.toNum
    pure d.toNum) = .ok 7 := by decide +kernel
example : (do
    let e ← (litBit 65535).toSigned.sliceBase (Rng.down 32) 8 true (litBit 3).toNum
    pure (e.extend 32).toNum) = .ok 0xFF := by decide +kernel

/-! ### literal, concat, mask, unpack, lines 123-164 -/
example : (lit 42).value.nv.v = 42 := by decide +kernel
example : (do
    let ⟨_, b⟩ ← Lg.concatAll (Lg.ofInt 1 : Lg 4 false) [⟨(4, false), Lg.ofInt 2⟩, ⟨(4, false), Lg.ofInt 3⟩]
    str b) = .ok (S "000100100011") := by decide +kernel
example : (L 12 false (S "'bxx00zz")).map (fun a => (a.xz.anySet, decide (a.value.nv.v ≠ 0))) = .ok (true, true) := by
  decide +kernel
example : (do
    let d ← L 12 false (S "'b000100100011")
    let l ← d.unpack (Rng.down 12) [(4, false), (4, false), (4, false)]
    l.mapM fun t : Lg.Target => str t.2) = .ok [S "0001", S "0010", S "0011"] := by decide +kernel
example : (do
    let l ← (Lg.ofInt 42 : Lg 7 false).unpack (Rng.down 7) [(1, false), (6, false)]
    l.mapM fun t : Lg.Target => str t.2) = .ok [S "0", S "101010"] := by decide +kernel

/-! ### bool_, lines 166-197 -/
example : (L 4 false (S "'b010x")).map Lg.toBool = .ok false := by decide +kernel
example : (L 4 false (S "'b0100")).map Lg.toBool = .ok true := by decide +kernel
example : (L 4 false (S "'b0100")).map (fun a => a.lnot.toBool) = .ok false := by decide +kernel
example : (do let a ← L 4 false (S "'b0100"); let b ← L 4 false (S "'b010z"); pure (a.toBool && b.toBool)) =
    .ok false := by decide +kernel

/-! ### and_, or_, xor_, not_, lines 199-418 -/
/-- a binary operator on two 1-bit literals -/
def op1 (f : Lg 1 false → Lg 1 false → Res (Lg 1 false)) (a b : String) : Res (List Char) := do
  str (← f (← L 1 false (S a)) (← L 1 false (S b)))
example : op1 Lg.and "'b0" "'b1" = .ok (S "0") := by decide +kernel
example : op1 Lg.and "'b0" "'bx" = .ok (S "0") := by decide +kernel
example : op1 Lg.and "'bz" "'bx" = .ok (S "x") := by decide +kernel
example : op1 Lg.and "'b1" "'bx" = .ok (S "x") := by decide +kernel
example : op1 Lg.and "'b1" "'bz" = .ok (S "x") := by decide +kernel
example : op1 Lg.or "'b0" "'b1" = .ok (S "1") := by decide +kernel
example : op1 Lg.or "'b0" "'b0" = .ok (S "0") := by decide +kernel
example : op1 Lg.or "'b0" "'bx" = .ok (S "x") := by decide +kernel
example : op1 Lg.or "'b1" "'bx" = .ok (S "1") := by decide +kernel
example : op1 Lg.or "'bz" "'bx" = .ok (S "x") := by decide +kernel
example : op1 Lg.xor "'b0" "'b1" = .ok (S "1") := by decide +kernel
example : op1 Lg.xor "'b0" "'b0" = .ok (S "0") := by decide +kernel
example : op1 Lg.xor "'b0" "'bx" = .ok (S "x") := by decide +kernel
example : op1 Lg.xor "'b1" "'bx" = .ok (S "x") := by decide +kernel
example : op1 Lg.xor "'bz" "'bx" = .ok (S "x") := by decide +kernel
/-- a binary operator on literals of widths `n` and `m`, in both orders -/
def op2 (n m : Nat) (f : {n m : Nat} → Lg n false → Lg m false → Res (Lg (max n m) false)) (a b : List Char) :
    Res (List Char × List Char) := do
  let a ← L n false a
  let b ← L m false b
  pure (← str (← f a b), ← str (← f b a))
example : op2 120 140 Lg.andMix (S "'b" ++ run 120 '1') (S "'b1010101010") =
    .ok (run 130 '0' ++ S "1010101010", run 130 '0' ++ S "1010101010") := by decide +kernel
example : op2 120 40 Lg.andMix (S "'b" ++ run 120 '1') (S "'b1010101010") =
    .ok (run 110 '0' ++ S "1010101010", run 110 '0' ++ S "1010101010") := by decide +kernel
example : op2 120 140 Lg.orMix (S "'b" ++ run 120 '0') (S "'b1010101010") =
    .ok (run 130 '0' ++ S "1010101010", run 130 '0' ++ S "1010101010") := by decide +kernel
example : op2 120 40 Lg.orMix (S "'b" ++ run 120 '0') (S "'b1010101010") =
    .ok (run 110 '0' ++ S "1010101010", run 110 '0' ++ S "1010101010") := by decide +kernel
example : op2 120 140 Lg.xorMix (S "'b" ++ run 120 '0') (S "'b1010101010") =
    .ok (run 130 '0' ++ S "1010101010", run 130 '0' ++ S "1010101010") := by decide +kernel
example : op2 120 40 Lg.xorMix (S "'b" ++ run 120 '0') (S "'b1010101010") =
    .ok (run 110 '0' ++ S "1010101010", run 110 '0' ++ S "1010101010") := by decide +kernel
/-- `~` of a 1-bit literal -/
def not1 (a : String) : Res (List Char) := do str (← (← L 1 false (S a)).not)
example : (not1 "'b0", not1 "'b1", not1 "'bx", not1 "'bz") = (.ok (S "1"), .ok (S "0"), .ok (S "x"), .ok (S "x")) := by
  decide +kernel

/-! ### reductions, lines 420-545 -/
/-- a reduction of a 4-bit literal -/
def red (f : Lg 4 false → Res (Lg 1 false)) (a : String) : Res (List Char) := do str (← f (← L 4 false (S a)))
/-- 4-bit vectors -/
abbrev R := Rng.down 4
example : ["'b1001", "'b1111", "'bx111", "'bxz11"].map (red (Lg.rAnd R)) =
    [.ok (S "0"), .ok (S "1"), .ok (S "x"), .ok (S "x")] := by decide +kernel
example : ["'b1001", "'bx001", "'bz001", "'bxz11"].map (red (Lg.rNand R)) =
    [.ok (S "1"), .ok (S "1"), .ok (S "1"), .ok (S "x")] := by decide +kernel
example : ["'b1001", "'bz000", "'bx000"].map (red (Lg.rOr R)) = [.ok (S "1"), .ok (S "x"), .ok (S "x")] := by
  decide +kernel
example : ["'b1001", "'bz000", "'bx001"].map (red (Lg.rNor R)) = [.ok (S "0"), .ok (S "x"), .ok (S "0")] := by
  decide +kernel
example : ["'b1001", "'bz001", "'bx001"].map (red fun x => .ok x.rXor) = [.ok (S "0"), .ok (S "x"), .ok (S "x")] := by
  decide +kernel
example : ["'b1001", "'bz001", "'bx001"].map (red fun x => .ok x.rXnor) = [.ok (S "1"), .ok (S "x"), .ok (S "x")] := by
  decide +kernel

/-! ### shifts, lines 547-706 -/
/-- the wide case of the shift tests: 120 ones shifted by a 100-bit amount -/
def shiftBig (f : Lg 120 false → Lg 100 false → Res (Lg 120 false)) (b : String) : Res (List Char) := do
  str (← f (← L 120 false (S "'b" ++ run 120 '1')) (← L 100 false (S b)))
example : shiftBig Lg.shl "'b1111111111111111" = .ok (run 120 '0') := by decide +kernel
example : shiftBig Lg.shl "'b111" = .ok (run 113 '1' ++ run 7 '0') := by decide +kernel
example : (do str (← (Lg.ofInt (-120) : Lg 32 true).shl (Lg.ofInt 2 : Lg 2 false))) =
    str (Lg.ofInt (-120 * 4) : Lg 32 true) := by decide +kernel
example : ((Lg.ofInt 42 : Lg 20 false).shl (Lg.ofInt 8 : Lg 60 false)).map (·.value.nv.v) = .ok (42 * 256) := by
  decide +kernel
example : shiftBig Lg.shr "'b1111111111111111" = .ok (run 120 '0') := by decide +kernel
example : shiftBig Lg.shr "'b111" = .ok (run 7 '0' ++ run 113 '1') := by decide +kernel
example : (do str (← (Lg.ofInt (-120) : Lg 32 true).shr (Lg.ofInt 2 : Lg 3 false))) =
    str (Lg.ofInt ((2 ^ 32 - 120) / 4) : Lg 32 false) := by decide +kernel
example : ((Lg.ofInt 42 : Lg 20 false).shr (Lg.ofInt 8 : Lg 60 false)).map (·.value.nv.v) = .ok (42 / 256) := by
  decide +kernel
example : shiftBig Lg.ashl "'b1111111111111111" = .ok (run 120 '0') := by decide +kernel
example : shiftBig Lg.ashl "'b111" = .ok (run 113 '1' ++ run 7 '0') := by decide +kernel
example : (do str (← (Lg.ofInt (-120) : Lg 32 true).ashl (Lg.ofInt 2 : Lg 3 false))) =
    str (Lg.ofInt (-120 * 4) : Lg 32 true) := by decide +kernel
example : ((Lg.ofInt 42 : Lg 20 false).ashl (Lg.ofInt 8 : Lg 60 false)).map (·.value.nv.v) = .ok (42 * 256) := by
  decide +kernel
example : shiftBig Lg.ashr "'b1111111111111111" = .ok (run 120 '0') := by decide +kernel
example : (do str (← (Lg.ofInt (-120) : Lg 32 true).ashr (Lg.ofInt 2 : Lg 2 false))) =
    str (Lg.ofInt (-30) : Lg 32 true) := by decide +kernel
example : (do
    let a ← L 420 true (S "'b1" ++ run 419 '0')
    str (← a.ashr (Lg.ofInt 42 : Lg 120 false))) = .ok (run 42 '1' ++ run 378 '0') := by decide +kernel

/-! ### equal, neq, lines 708-752 -/
/-- a comparison, printed -/
def cmp (r : Res (Lg 1 false)) : Res (List Char) := do str (← r)
example : cmp ((Lg.ofInt 1 : Lg 1 false).eq (Lg.ofInt 1 : Lg 11 false)) = .ok (S "1") := by decide +kernel
example : cmp ((Lg.ofInt (2 ^ 64 - 2) : Lg 120 false).eq (Lg.ofInt (2 ^ 64 - 1) : Lg 420 false)) = .ok (S "0") := by
  decide +kernel
example : (do let a ← L 1024 false (S "'bx"); cmp (a.eq (Lg.ofInt 12 : Lg 20 false))) = .ok (S "x") := by decide +kernel
example : cmp ((Lg.ofInt 1 : Lg 1 false).ne (Lg.ofInt 1 : Lg 11 false)) = .ok (S "0") := by decide +kernel
example : cmp ((Lg.ofInt (2 ^ 64 - 2) : Lg 120 false).ne (Lg.ofInt (2 ^ 64 - 1) : Lg 420 false)) = .ok (S "1") := by
  decide +kernel
example : (do let a ← L 1024 false (S "'bx"); cmp (a.ne (Lg.ofInt 12 : Lg 20 false))) = .ok (S "x") := by decide +kernel

/-! ### add, minus, lines 754-889 -/
example : op2 120 100 Lg.addMix (S "'b" ++ run 120 '1') (S "'b" ++ run 100 '1') =
    .ok (run 20 '0' ++ run 99 '1' ++ ['0'], run 20 '0' ++ run 99 '1' ++ ['0']) := by decide +kernel
example : op2 120 40 Lg.addMix (S "'b" ++ run 120 '1') (S "'b" ++ run 40 '1') =
    .ok (run 80 '0' ++ run 39 '1' ++ ['0'], run 80 '0' ++ run 39 '1' ++ ['0']) := by decide +kernel
example : (do str (← (Lg.ofInt 100 : Lg 20 false).addMix (Lg.ofInt 10000 : Lg 30 false))) =
    .ok (run 16 '0' ++ S "10011101110100") := by decide +kernel
example : op2 120 100 Lg.subMix (S "'b" ++ run 120 '1') (S "'b" ++ run 100 '1') =
    .ok (run 20 '1' ++ run 100 '0', run 19 '0' ++ ['1'] ++ run 100 '0') := by decide +kernel
example : (do
    let a ← L 120 false (S "'b" ++ run 120 '1')
    let b ← L 40 false (S "'b" ++ run 40 '1')
    str (← a.subMix b)) = .ok (run 80 '1' ++ run 40 '0') := by decide +kernel
example : (do str (← (Lg.ofInt 600000 : Lg 40 false).subMix (Lg.ofInt 10000 : Lg 30 false))) =
    .ok (run 20 '0' ++ S "10010000000010110000") := by decide +kernel
example : (do
    let c ← ((Lg.ofInt (-42) : Lg 31 true).extend 100).shl (lit 20)
    str (← (Lg.ofInt 0 : Lg 100 false).subMix c)) = str (Lg.ofInt (42 * 2 ^ 20) : Lg 100 false) := by decide +kernel

/-! ### multiply, divide, mod, lines 891-1015 -/
example : (do
    let a ← (lit 2).neg (by decide)
    let c ← a.mulMix (lit 42)
    let d ← (lit 84).neg (by decide)
    truth (c.eq d)) = .ok true := by decide +kernel
example : (do
    let a ← L 300 false (S "'b10001010101111111000101100010101111111111111111111111111111111111111111111111111111100000000000000000")
    let b ← L 300 false (S "'b10000001111100011001101011111111111111111111111111111111111111111111111111010101010010110101010100101")
    str (← a.mul b)) = .ok (S "000000000000000000000000000000000000000000000000000000000000000000000000000000000000000000000000000100011001101101011101110110100111111110111011000101000111111111111111111110100011010010100010001100111010100100100011100000100101110000000000000000000000000010101010110100101010101101100000000000000000") := by
  decide +kernel
-- lines 921-935: 100 ones times 42. The compiled test passes, but `operator*` writes to
-- `temp.values[2]` of a two-limb number (its guard compares a limb index with the size in
-- bits, `big_num.hh` 658-662), which the model reports as out of bounds (`C30_wide_oob`).
-- The stray word written is zero, so the compiled program happens to go on unharmed.
example : (do
    let a ← L 100 true (S "'b" ++ run 100 '1')
    str (← a.mulMix (Lg.ofInt 42 : Lg 20 false))) = .error .oob := by decide +kernel
example : (do truth ((← (Lg.ofInt 10 : Lg 10 false).mulMix (Lg.ofInt 3 : Lg 3 false)).eq (lit 30))) = .ok true := by
  decide +kernel
-- (the 300-bit divisions are in `ConformanceDiv.lean`)
example : (do str (← (lit 100).divMix (lit 42))) = str (lit 2) := by decide +kernel
example : (do str (← (lit 100).modMix (lit 42))) = str (lit 16) := by decide +kernel

/-! ### gt, lines 1017-1066 -/
/-- `(~v).to_signed()` -/
def notS (v : Int) : Res (Lg 101 true) := (Lg.ofInt v : Lg 101 true).not.map Lg.toSigned
example : (do truth ((← notS 0).gt (Lg.ofInt 10 : Lg 101 false))) = .ok true := by decide +kernel
example : (do truth ((← notS 0).gt (← notS 10))) = .ok true := by decide +kernel
example : (do truth ((← notS 0).gt (Lg.ofInt 10 : Lg 101 true))) = .ok false := by decide +kernel
example : (do
    let a ← (lit 2).neg (by decide)
    let d ← (lit 1).neg (by decide)
    pure (← truth ((lit 3).gt a), ← truth (a.gt (Lg.ofInt 1 : Lg 32 false)), ← truth (d.gt a))) =
    .ok (true, true, true) := by decide +kernel
example : truth ((Lg.ofInt 42 : Lg 21 false).gt (Lg.ofInt 20 : Lg 11 false)) = .ok true := by decide +kernel

/-! ### update, lines 1068-1129 -/
/-- `a.update<hi, lo>(b)` on a default constructed `a` of range `r` and a 4-bit `b` of range `ro` -/
def upd (r ro : Rng) (n : Nat) (hi lo : Int) (b : String) : Res (List Char) := do
  let a : Lg n false ← Lg.dflt
  let b ← L 4 false (S b)
  str (← a.update r hi lo ro b)
example : upd (Rng.down 16) (Rng.down 4) 16 3 0 "'b1010" = .ok (S "xxxxxxxxxxxx1010") := by decide +kernel
example : upd (Rng.down 16) (Rng.down 4) 16 1 0 "'b1010" = .ok (S "xxxxxxxxxxxxxx10") := by decide +kernel
example : upd (Rng.down 16) (Rng.down 4) 16 9 0 "'b1010" = .ok (S "xxxxxx0000001010") := by decide +kernel
example : upd (Rng.down 100) (Rng.down 4) 100 3 0 "'b1010" = .ok (run 96 'x' ++ S "1010") := by decide +kernel
example : upd (Rng.up 100) (Rng.up 4) 100 0 3 "'b1110" = .ok (S "1110" ++ run 96 'x') := by decide +kernel
example : upd (Rng.up 100) (Rng.down 4) 100 0 3 "'b1110" = .ok (S "1110" ++ run 96 'x') := by decide +kernel

/-! ### to_uint64, string_init, lines 1131-1152 -/
example : (lit 42).toUint64 = 42 := by decide +kernel
example : (L 32 false (S "16'hFFFF")).map Lg.toUint64 = .ok 0xFFFF := by decide +kernel
example : (L 128 false (S "128'd123456")).map Lg.toUint64 = .ok 123456 := by decide +kernel
example : (L 10 false (S "32'h42")).map Lg.toUint64 = .ok 66 := by decide +kernel
example : (L 32 false (S "100'o12")).map Lg.toUint64 = .ok 0xA := by decide +kernel
example : (L 32 false (S "20'b001_0101")).map Lg.toUint64 = .ok 21 := by decide +kernel

/-! ### format, lines 1154-1223 -/
/-- a literal of width `n`, printed in a format -/
def fmt (n : Nat) (v f : String) : Res (List Char) := do (← L n false (S v)).str (S f)
/-- the negation of `'d42` as a signed 20-bit value, printed in a format -/
def fmtNeg (f : String) : Res (List Char) := do (← (← L 20 true (S "'d42")).neg (by decide)).str (S f)
example : fmt 20 "'b1010_1001" "0d" = .ok (S "169") := by decide +kernel
example : fmt 20 "'b1010_1001" "d" = .ok (S "    169") := by decide +kernel
example : fmtNeg "0d" = .ok (S "-42") := by decide +kernel
example : fmtNeg "10d" = .ok (S "        -42") := by decide +kernel
example : fmtNeg "d" = .ok (S "     -42") := by decide +kernel
example : fmt 20 "'d42" "x" = .ok (S "0002a") := by decide +kernel
example : fmt 120 "'hFFFFFFFFFFFF" "o" = .ok (S "0000000000000000000000007777777777777777") := by decide +kernel
example : fmt 120 "'hFFFFFFFFFFFF" "X" = .ok (S "000000000000000000ffffffffffff") := by decide +kernel
example : fmt 120 "ABCDEFGHIJKLMNOPQRST" "s" = .ok (S "FGHIJKLMNOPQRST") := by decide +kernel
example : ((Lg.ofInt 0 : Lg 32 false).assignNat (by decide) : Lg 4 false).str (S "0d") = .ok (S "0") := by decide +kernel

/-! ### match, indecrement, conversions, lines 1225-1286 -/
example : (do
    let a : Lg 32 false ← Lg.dflt
    let b : Lg 32 false ← Lg.dflt
    let c ← L 32 false (S "'b1xxxx")
    pure (a.matches' b, a.matches' c)) = .ok (true, false) := by decide +kernel
example : (do
    let a : Lg 43 false := Lg.ofInt 42
    let (a1, _) ← a.postInc
    let (a2, _) ← a1.postDec
    let a3 ← a2.inc
    let a4 ← a3.dec
    pure [← truth (a1.eq (lit 43)), ← truth (a2.eq (lit 42)), ← truth (a3.eq (lit 43)), ← truth (a4.eq (lit 42))]) =
    .ok [true, true, true, true] := by decide +kernel
example : ((lit 42).toSign false).toUint64 = 42 := by decide +kernel
example : ((Lg.ofInt 1 : Lg 1 true).slice (Rng.down 1) 0 0).map (·.toUnsigned.toUint64) = .ok 1 := by decide +kernel
example : ((lit 1).slice (Rng.down 32) 0 0).map (·.toUnsigned.toUint64) = .ok 1 := by decide +kernel
example : (do
    let b ← L 1 false (S "1'bx")
    let a ← (lit 32).update (Rng.down 32) 3 0 (Rng.down 1) b
    pure a.toNum) = .ok 0 := by decide +kernel

/-! ### slice_ref, lines 1288-1342 -/
example : ((Lg.ofInt 0xFFFF : Lg 16 false).update (Rng.down 16) 3 0 (Rng.down 4) (Lg.ofInt 0 : Lg 4 false)).map Lg.toNum =
    .ok 0xFFF0 := by decide +kernel
example : ((Lg.ofInt 0xFFFF : Lg 16 false).updateRt (Rng.down 16) 3 0 (Rng.down 4) (Lg.ofInt 0 : Lg 4 false)).map Lg.toNum =
    .ok 0xFFF0 := by decide +kernel
example : ((Lg.ofInt 0xFFFF : Lg 16 false).updateBase (Rng.down 16) 4 true (Lg.ofInt 4 : Lg 4 false).toNum (Rng.down 4)
    (Lg.ofInt 0 : Lg 4 false)).map Lg.toNum = .ok 0xFF0F := by decide +kernel
example : ((Bits.ofInt 0xFFFF : Bits 16 false).update (Rng.down 16) 3 0 (Rng.down 4) (Bits.ofInt 0 : Bits 4 false)).map
    Bits.toNum = .ok 0xFFF0 := by decide +kernel
example : ((Bits.ofInt 0xFFFF : Bits 16 false).updateRt (Rng.down 16) 3 0 (Rng.down 4) (Bits.ofInt 0 : Bits 4 false)).map
    Bits.toNum = .ok 0xFFF0 := by decide +kernel
example : ((Bits.ofInt 0xFFFF : Bits 16 false).updateBase (Rng.down 16) 4 true (Bits.ofInt 4 : Bits 4 false).toNum
    (Rng.down 4) (Bits.ofInt 0 : Bits 4 false)).map Bits.toNum = .ok 0xFF0F := by decide +kernel

/-! ## test_array.cc -/

/-- the range `[9:0]` of the arrays -/
abbrev A9 : Rng := ⟨9, 0⟩

/-! ### ctor, lines 6-21 -/
example : (do let a : PArr 16 false ⟨3, 0⟩ ← Lg.dflt; str a) = .ok (run 64 'x') := by decide +kernel
example : (Bits.zero : PArr2 16 false ⟨3, 0⟩).str ['b'] = .ok (run 64 '0') := by decide +kernel
/-! ### slice, lines 23-46 -/
example : (do
    let a : PArr 16 false A9 ← Lg.ofString (S "'b" ++ run 160 '1')
    str (← a.sliceArray 4 0)) = .ok (run 80 '1') := by decide +kernel
example : (do
    let a : PArr 16 false A9 ← Lg.ofString (S "'b" ++ run 160 '1')
    str (← a.sliceArray 2 0)) = .ok (run 48 '1') := by decide +kernel
/-! ### update, index, lines 48-89 -/
example : (do
    let a : PArr 16 false A9 ← Lg.dflt
    str (← a.updateSlice 1 0 (Rng.down 32) (lit 0))) = .ok (run 128 'x' ++ run 32 '0') := by decide +kernel
example : (do
    let a : PArr 16 false A9 ← Lg.dflt
    let b ← a.update (lit 2) (Rng.down 32) (lit 42)
    pure (← str (← a.get (lit 2)), ← str (← b.get (lit 2)))) = .ok (run 16 'x', S "0000000000101010") := by decide +kernel
example : (do
    let a : PArr2 16 false A9 := Bits.zero
    let b ← a.update (lit 2) (Rng.down 32) (litBit 42)
    pure (← (← a.get (lit 2)).str ['b'], ← (← b.get (lit 2)).str ['b'])) = .ok (run 16 '0', S "0000000000101010") := by
  decide +kernel
/-! ### unpacked_array, lines 91-98 -/
example : (do
    let d : Lg 16 false ← Lg.dflt
    let v : Lg 16 false := Lg.ofInt (2 ^ 16 - 1)
    let a : UArr (Lg 16 false) ⟨3, 0⟩ := ⟨List.replicate 4 d, by simp [Rng.size]⟩
    let b ← a.update 1 v
    truth ((b.get d 1).eq v)) = .ok true := by decide +kernel

/-! ## test_conversion.cc -/
example : ((Bits.ofInt 0 : Bits 32 false).ltL (Lg.ofInt 10 : Lg 32 false),
    (Bits.ofInt 0 : Bits 32 false).gtL (Lg.ofInt 10 : Lg 32 false),
    (Bits.ofInt 0 : Bits 32 false).leL (Lg.ofInt 10 : Lg 32 false),
    (Bits.ofInt 0 : Bits 32 false).geL (Lg.ofInt 10 : Lg 32 false)) =
    (.ok true, .ok false, .ok true, .ok false) := by decide +kernel

/-! ## test_regression.cc -/
example : (do
    let a : Lg 6 false := Lg.ofBits (Bits.ofInt 63 : Bits 6 false)
    let b ← a.getC (Rng.down 6) 3
    truth (b.eqBit (Bits.ofInt 1 : Bits 1 false))) = .ok true := by decide +kernel

/-! ## test_struct.cc, test_union.cc -/
example : (do
    let v : Lg 10 false := (lit 42).toUnsigned.assignNat (by decide)
    truth ((← v.slice (Rng.down 10) 4 0).eq (lit 10))) = .ok true := by decide +kernel
example : truth (((lit 42).toUnsigned.assignNat (by decide) : Lg 13 false).eq (lit 42)) = .ok true := by decide +kernel
example : (do
    let u : Lg 16 false ← Lg.dflt
    let l ← L 16 false (S "'b1111111111111111")
    let u ← u.update (Rng.down 16) 15 0 (Rng.down 16) l
    str (← u.slice (Rng.down 16) 7 0)) = .ok (S "11111111") := by decide +kernel

/-! ## test_util.cc -/

/-! ### int_parsing, lines 6-45 -/
example : ["4'b1010", "4'b10x0", "4'b10z0", "100'd42", "100'o12", "100'ox2", "100'oz2", "100'hFFFF", "100'hFXFF",
      "100'hFZFF"].map (fun v => parseRawStr (S v)) =
    [.ok 0b1010, .ok 0b1000, .ok 0b1010, .ok 42, .ok 10, .ok 2, .ok 0b111010, .ok 0xFFFF, .ok 0xF0FF, .ok 0xFFFF] := by
  decide +kernel
example : ["4'b10z0", "4'b10x0", "100'oz2", "100'hFZFF"].map (fun v => parseXzStr (S v)) =
    [.ok 0b0010, .ok 0b0010, .ok 0b111000, .ok 0x0F00] := by decide +kernel
/-! ### ints_parsing, parse_raw_string, lines 47-81 -/
example : parseRawBig (S "'b" ++ (List.replicate 50 ['1', '0']).flatten) 128 =
    .ok [0xAAAAAAAAAAAAAAAA, 0xAAAAAAAAA] := by decide +kernel
example : parseRawBig (S "'h" ++ (List.replicate 20 ['1', 'X']).flatten) 192 =
    .ok [0x1010101010101010, 0x1010101010101010, 0x10101010] := by decide +kernel
example : parseXzBig (S "'h" ++ (List.replicate 20 ['1', 'X']).flatten) 192 =
    .ok [0x0F0F0F0F0F0F0F0F, 0x0F0F0F0F0F0F0F0F, 0x0F0F0F0F] := by decide +kernel
example : parseRawBig (S "ABCDEFGHIJKLMNOP") 128 = .ok [0x494a4b4c4d4e4f50, 0x4142434445464748] := by decide +kernel

end Verif.Conformance
