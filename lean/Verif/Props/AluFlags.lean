import Verif.Props.Programs
import Verif.Props.Bitwise

/-!
# A program: the overflow and the sign flag of an adder (C214)

On unsigned vectors, `s = a + b; v = ((a ^ s) & (b ^ s))[n-1];` tells whether the sum overflows as a signed number,
and `d = a - b; v = ((a ^ b) & (a ^ d))[n-1]; d[n-1] ^ v` is the signed order of `a` and `b`.
-/

namespace Verif

variable {n : Nat}

/-- `s = a + b; ((a ^ s) & (b ^ s)).get(n - 1)` -/
def Bits.addOverflow (a b : Bits n false) : Res Bool :=
  (a.add b).bind fun (s : Bits n false) =>
    Bits.get (n := n) (s := false) (Rng.down n) ((a.xor s : Bits n false).and (b.xor s : Bits n false)) ((n - 1 : Nat) : Int)

/-- `d = a - b; ((a ^ b) & (a ^ d)).get(n - 1)` -/
def Bits.subOverflow (a b : Bits n false) : Res Bool :=
  (a.sub b).bind fun (d : Bits n false) =>
    Bits.get (n := n) (s := false) (Rng.down n) ((a.xor b : Bits n false).and (a.xor d : Bits n false)) ((n - 1 : Nat) : Int)

/-- `d.get(n - 1) != v`: the signed order from the flags -/
def Bits.flagLess (a b : Bits n false) : Res Bool :=
  (a.subOverflow b).bind fun v => (a.sub b).bind fun (d : Bits n false) =>
    (d.get (Rng.down n) ((n - 1 : Nat) : Int)).map fun s => s != v

theorem getLsbD_top (b : BitVec n) : b.getLsbD (n - 1) = decide (b.toInt < 0) := by
  rw [← BitVec.msb_eq_getLsbD_last, BitVec.msb_eq_toInt]

/-- the top bit of a number that is given modulo `2^n` -/
theorem top_of_range (hn : 0 < n) {b : BitVec n} {k : Int} (h : b.toInt = k.bmod (2 ^ n)) (h1 : -2 ^ n ≤ k) (h2 : k < 2 ^ n) :
    b.getLsbD (n - 1) = decide (k < 0 ∧ -2 ^ (n - 1) ≤ k ∨ 2 ^ (n - 1) ≤ k) := by
  rw [getLsbD_top, decide_eq_decide, h]
  have e : (2 : Int) ^ n = 2 * 2 ^ (n - 1) := by
    rw [← pow_succ', Nat.sub_add_cancel hn]
  have e' : ((2 ^ n : Nat) : Int) = 2 ^ n := by push_cast; rfl
  have hp : (0 : Int) < 2 ^ (n - 1) := by positivity
  rw [e] at h1 h2
  by_cases c1 : k < -2 ^ (n - 1)
  · have : k.bmod (2 ^ n) = k + 2 ^ n := by
      rw [← Int.add_bmod_right k (2 ^ n)]
      rw [Int.bmod_eq_of_le] <;> rw [e', e] <;> omega
    rw [this, e]; omega
  by_cases c2 : 2 ^ (n - 1) ≤ k
  · have : k.bmod (2 ^ n) = k - 2 ^ n := by
      rw [← Int.sub_bmod_right k (2 ^ n)]
      rw [Int.bmod_eq_of_le] <;> rw [e', e] <;> omega
    rw [this, e]; omega
  · have : k.bmod (2 ^ n) = k := by
      rw [Int.bmod_eq_of_le] <;> rw [e', e] <;> omega
    rw [this]; omega

/-- **C214, overflow of a sum.** The flag is set exactly if the sum of the two signed numbers is not a number of `n` bits. -/
theorem C214_add (h1 : 1 < n) (hN : n ≤ 2 ^ 32) (a b : Bits n false) :
    a.addOverflow b = .ok (decide (¬ (-2 ^ (n - 1) ≤ a.bv.toInt + b.bv.toInt ∧ a.bv.toInt + b.bv.toInt < 2 ^ (n - 1)))) := by
  obtain ⟨s, hs, es⟩ := C28_add_partial h1 a b (by simp)
  have es : Bits.bv (s := false) s = a.bv + b.bv := es
  rw [Bits.addOverflow, hs, res_bind_ok, C01_read (by omega) hN _ _ (by omega)]
  congr 1
  have e : Bits.bv (s := false) ((a.xor s : Bits n false).and (b.xor s : Bits n false)) =
      (a.bv ^^^ Bits.bv (s := false) s) &&& (b.bv ^^^ Bits.bv (s := false) s) := by
    rw [Bits.bv_and (by omega), Bits.bv_xor, Bits.bv_xor]
  rw [e, BitVec.getLsbD_and, BitVec.getLsbD_xor, BitVec.getLsbD_xor, getLsbD_top a.bv, getLsbD_top b.bv, es]
  have hA := BitVec.toInt_lt (x := a.bv)
  have hA' := BitVec.le_toInt (x := a.bv)
  have hB := BitVec.toInt_lt (x := b.bv)
  have hB' := BitVec.le_toInt (x := b.bv)
  have e2 : (2 : Int) ^ n = 2 * 2 ^ (n - 1) := by
    rw [← pow_succ', Nat.sub_add_cancel (by omega)]
  rw [top_of_range (by omega) (BitVec.toInt_add _ _) (by omega) (by omega)]
  generalize a.bv.toInt = A at *
  generalize b.bv.toInt = B at *
  generalize (2 : Int) ^ (n - 1) = P at *
  rw [Bool.eq_iff_iff]
  simp only [Bool.and_eq_true, bne_iff_ne, ne_eq, decide_eq_decide, decide_eq_true_iff]
  omega

theorem Bits.subOverflow_spec (h1 : 1 < n) (hN : n ≤ 2 ^ 32) (a b : Bits n false) :
    a.subOverflow b = .ok (decide (¬ (-2 ^ (n - 1) ≤ a.bv.toInt - b.bv.toInt ∧ a.bv.toInt - b.bv.toInt < 2 ^ (n - 1)))) := by
  obtain ⟨s, hs, es⟩ := C29_sub_partial (by omega) a b (by simp)
  have es : Bits.bv (s := false) s = a.bv - b.bv := es
  rw [Bits.subOverflow, hs, res_bind_ok, C01_read (by omega) hN _ _ (by omega)]
  congr 1
  have e : Bits.bv (s := false) ((a.xor b : Bits n false).and (a.xor s : Bits n false)) =
      (a.bv ^^^ b.bv) &&& (a.bv ^^^ Bits.bv (s := false) s) := by
    rw [Bits.bv_and (by omega), Bits.bv_xor, Bits.bv_xor]
  rw [e, BitVec.getLsbD_and, BitVec.getLsbD_xor, BitVec.getLsbD_xor, getLsbD_top a.bv, getLsbD_top b.bv, es]
  have hA := BitVec.toInt_lt (x := a.bv)
  have hA' := BitVec.le_toInt (x := a.bv)
  have hB := BitVec.toInt_lt (x := b.bv)
  have hB' := BitVec.le_toInt (x := b.bv)
  have e2 : (2 : Int) ^ n = 2 * 2 ^ (n - 1) := by
    rw [← pow_succ', Nat.sub_add_cancel (by omega)]
  rw [top_of_range (by omega) (BitVec.toInt_sub) (by omega) (by omega)]
  generalize a.bv.toInt = A at *
  generalize b.bv.toInt = B at *
  generalize (2 : Int) ^ (n - 1) = P at *
  rw [Bool.eq_iff_iff]
  simp only [Bool.and_eq_true, bne_iff_ne, ne_eq, decide_eq_decide, decide_eq_true_iff]
  omega

/-- **C214, overflow of a difference.** -/
theorem C214_sub (h1 : 1 < n) (hN : n ≤ 2 ^ 32) (a b : Bits n false) :
    a.subOverflow b = .ok (decide (¬ (-2 ^ (n - 1) ≤ a.bv.toInt - b.bv.toInt ∧ a.bv.toInt - b.bv.toInt < 2 ^ (n - 1)))) :=
  a.subOverflow_spec h1 hN b

/-- **C214, signed order.** The sign of the difference, corrected by the overflow flag, is the order of the two vectors read
as signed numbers. -/
theorem C214_less (h1 : 1 < n) (hN : n ≤ 2 ^ 32) (a b : Bits n false) :
    a.flagLess b = .ok (decide (a.bv.toInt < b.bv.toInt)) := by
  obtain ⟨s, hs, es⟩ := C29_sub_partial (by omega) a b (by simp)
  have es : Bits.bv (s := false) s = a.bv - b.bv := es
  rw [Bits.flagLess, a.subOverflow_spec h1 hN b, res_bind_ok, hs, res_bind_ok, C01_read (by omega) hN _ _ (by omega), res_map_ok]
  congr 1
  have hA := BitVec.toInt_lt (x := a.bv)
  have hA' := BitVec.le_toInt (x := a.bv)
  have hB := BitVec.toInt_lt (x := b.bv)
  have hB' := BitVec.le_toInt (x := b.bv)
  have e2 : (2 : Int) ^ n = 2 * 2 ^ (n - 1) := by
    rw [← pow_succ', Nat.sub_add_cancel (by omega)]
  rw [es, top_of_range (by omega) (BitVec.toInt_sub) (by omega) (by omega)]
  generalize a.bv.toInt = A at *
  generalize b.bv.toInt = B at *
  generalize (2 : Int) ^ (n - 1) = P at *
  rw [Bool.eq_iff_iff]
  simp only [bne_iff_ne, ne_eq, decide_eq_decide, decide_eq_true_iff]
  omega

-- 100 + 50 overflows 8 bits, 100 - 50 does not; -100 < 100 though the difference overflows
example : (Bits.ofInt 100 : Bits 8 false).addOverflow (Bits.ofInt 50) = .ok true := by decide +kernel
example : (Bits.ofInt 100 : Bits 8 false).subOverflow (Bits.ofInt 50) = .ok false := by decide +kernel
example : (Bits.ofInt 156 : Bits 8 false).flagLess (Bits.ofInt 100) = .ok true := by decide +kernel
example : (Bits.ofInt 5 : Bits 70 false).flagLess (Bits.zero : Bits 70 false).not = .ok false := by decide +kernel

end Verif
