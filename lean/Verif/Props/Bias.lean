import Verif.Props.SignField
import Verif.Props.Idioms
import Verif.Props.SignedWide

/-!
# A program: the order of signed numbers by the order of unsigned ones (C232)

`(x ^ m) < (y ^ m)` with only the highest bit of `m` set: the numbers become their distances from the smallest one.
-/

namespace Verif

variable {n : Nat}

/-- `(x ^ m) < (y ^ m)` -/
def Bits.sltBy (x y m : Bits n false) : Res Bool :=
  (Bits.xor (s := false) (t := false) x m : Bits n false).lt (Bits.xor (s := false) (t := false) y m : Bits n false)

theorem Bits.clean_xor {x y : Bits n false} (hx : x.Clean) (hy : y.Clean) : Bits.Clean (n := n) (s := false) (Bits.xor (s := false) (t := false) x y) := by
  rw [Bits.clean_unsigned_iff] at *
  intro i hi
  show (x.xor y).raw i = false
  rw [Bits.raw_xor, hx i hi, hy i hi]; rfl

/-- the distance from the smallest number -/
theorem bias_nat (hn : 0 < n) (v : BitVec n) : ((v ^^^ BitVec.twoPow n (n - 1)).toNat : Int) = v.toInt + 2 ^ (n - 1) := by
  have hp : (2 : Nat) ^ n = 2 * 2 ^ (n - 1) := by rw [← pow_succ']; congr 1; omega
  have htw : (BitVec.twoPow n (n - 1)).toNat = 2 ^ (n - 1) := by
    rw [BitVec.toNat_twoPow]; exact Nat.mod_eq_of_lt (Nat.pow_lt_pow_right (by norm_num) (by omega))
  have hv := v.isLt
  have hpos := Nat.two_pow_pos (n - 1)
  have hc : ((2 ^ (n - 1) : Nat) : Int) = 2 ^ (n - 1) := by push_cast; rfl
  have hc' : ((2 ^ n : Nat) : Int) = 2 * 2 ^ (n - 1) := by rw [hp]; push_cast; rfl
  have hm : v.getLsbD (n - 1) = decide (2 ^ n ≤ 2 * v.toNat) := by
    rw [← BitVec.msb_eq_getLsbD_last, BitVec.msb_eq_decide]; simp only [decide_eq_decide]; omega
  rw [BitVec.toInt_eq_toNat_cond]
  by_cases h : 2 ^ n ≤ 2 * v.toNat
  · have e : v ^^^ BitVec.twoPow n (n - 1) = v - BitVec.twoPow n (n - 1) := by
      have := sign_trick v (n - 1)
      rw [hm, decide_eq_true h, if_pos rfl] at this
      have e2 := congrArg (· + BitVec.twoPow n (n - 1)) this
      simpa [BitVec.sub_add_cancel] using e2
    rw [e, BitVec.toNat_sub_of_le (by rw [BitVec.le_def, htw]; omega), htw, if_neg (by omega)]
    omega
  · rw [xor_twoPow v (n - 1) (by rw [hm, decide_eq_false h]), BitVec.toNat_add, htw, Nat.mod_eq_of_lt (by omega), if_pos (by omega)]
    omega

/-- **C232.** Of every width: for canonical vectors the program never faults and is true exactly if the first number, read as a signed one, is below the second. -/
theorem C232_less (hn : 0 < n) (x y m : Bits n false) (hx : x.Clean) (hy : y.Clean) (hm : m.Clean) (em : m.bv = BitVec.twoPow n (n - 1)) :
    x.sltBy y m = .ok (decide (x.bv.toInt < y.bv.toInt)) := by
  rw [Bits.sltBy, Bits.lt_sto, Bits.sto_clean (Bits.clean_xor hx hm), Bits.sto_clean (Bits.clean_xor hy hm)]
  have ex : Bits.bv (n := n) (s := false) (Bits.xor (s := false) (t := false) x m) = x.bv ^^^ m.bv := Bits.bv_xor x m
  have ey : Bits.bv (n := n) (s := false) (Bits.xor (s := false) (t := false) y m) = y.bv ^^^ m.bv := Bits.bv_xor y m
  have h1 := bias_nat hn x.bv
  have h2 := bias_nat hn y.bv
  rw [ex, ey, em]
  congr 1
  rw [decide_eq_decide]
  omega

/-- 70 bits, -1 and the smallest number: `sltBy` orders them and finds the smallest number not below itself, where `<` of signed vectors does not end (C137) -/
example : ∃ x y m : Bits 70 false, x.Clean ∧ y.Clean ∧ m.Clean ∧ m.bv = BitVec.twoPow 70 69 ∧ x.bv.toInt = -1 ∧ y.bv.toInt = -2 ^ 69 ∧
    y.sltBy x m = .ok true ∧ x.sltBy y m = .ok false ∧ y.sltBy y m = .ok false := by
  obtain ⟨x, hx, ex⟩ := Bits.exists_clean (n := 70) (s := false) (BitVec.ofInt 70 (-1))
  obtain ⟨m, hm, em⟩ := Bits.exists_clean (n := 70) (s := false) (BitVec.twoPow 70 69)
  have e1 : x.bv.toInt = -1 := by rw [ex]; decide +kernel
  have e2 : m.bv.toInt = -2 ^ 69 := by rw [em]; decide +kernel
  refine ⟨x, m, m, hx, hm, hm, em, e1, e2, ?_, ?_, ?_⟩ <;> rw [C232_less (by norm_num) _ _ m ‹_› ‹_› hm em, e2] <;> (try rw [e1]) <;> simp

/-- two smallest numbers of 70 bits, compared as signed vectors -/
theorem C232_signed_order : ∃ y : Bits 70 true, y.Clean ∧ y.bv = BitVec.twoPow 70 69 ∧ y.lt y = .error .diverge :=
  ⟨.big (by decide) ((Big.zero).set 69 true), by decide +kernel⟩

end Verif
