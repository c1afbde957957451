import Verif.Props.Zigzag
import Verif.Props.SignField

/-!
# The zigzag code of every width (C226)

The code of C226 with the arithmetic shift of C231 in place of `ashr`.
-/

namespace Verif

variable {n m : Nat}

/-- `(x << one) ^ s`, where `s` is the sign copied to all bits by `>>`, `^` and `-` (C231) -/
def Bits.zigzagBy (x : Bits n false) (one : Bits m false) : Res (Bits n false) :=
  (x.shl one).bind fun a => (x.ashrBy (n - 1)).bind fun b => .ok (Bits.xor (s := false) (t := false) a b)

/-- **C226, every width, without `ashr`.** The code of a value of two bits or more, limb-based or not, is 2x for x at least 0 and -2x - 1 for negative x, and decoding
gives the bits of x back. -/
theorem C226_without_ashr (h1 : 1 < n) (hN : n ≤ 2 ^ 32) (hm : m ≤ 64) (x : Bits n false) (one : Bits m false) (ho : one.Clean)
    (eo : one.bv.toNat = 1) :
    ∃ u v, x.zigzagBy one = .ok u ∧ u.unzigzag one = .ok v ∧ v.bv = x.bv ∧
      (u.bv.toNat : Int) = if 0 ≤ x.bv.toInt then 2 * x.bv.toInt else -2 * x.bv.toInt - 1 := by
  obtain ⟨a, ha, ea⟩ := C25_shl_partial hN x one ho 1 (by simp [numOf, eo]) fun _ => ⟨hm, h1, by split_ifs <;> omega⟩
  obtain ⟨b, hb, -, eb⟩ := C231_shift h1 hN x (a := n - 1) (by omega)
  have eu : (Bits.xor (s := false) (t := false) a b).bv = x.bv <<< 1 ^^^ x.bv.sshiftRight (n - 1) := by
    rw [Bits.bv_xor, ea, eb]
  obtain ⟨v, hv, ev⟩ := Bits.unzigzag_ok h1 hN hm (Bits.xor (s := false) (t := false) a b) one ho eo
  refine ⟨_, v, by rw [Bits.zigzagBy, ha, res_bind_ok, hb, res_bind_ok], hv, ?_, by rw [eu]; exact zigzag_num (by omega) _⟩
  apply BitVec.eq_of_getLsbD_eq
  intro i hi
  rw [ev, unzigzag_bit (by omega) _ i hi, eu, zigzag_bit _ 0 (by omega)]
  by_cases hl : i + 1 < n
  · rw [zigzag_bit _ _ hl]; simp
  · rw [BitVec.getLsbD_of_ge _ _ (by omega), BitVec.msb_eq_getLsbD_last, show n - 1 = i by omega]; simp

/-- -3 of 70 bits has the code 5 -/
example : (((Bits.zero : Bits 70 false).sub (Bits.ofInt 3 : Bits 70 false)).bind fun x =>
    (Bits.zigzagBy (n := 70) x (Bits.ofInt 1 : Bits 4 false)).map (·.bv.toNat)) = .ok 5 := by decide +kernel

end Verif
