import Verif.Props.Shift
import Verif.Props.Arith
import Verif.Props.Bitwise
import Verif.Props.Programs
import Verif.Lemmas.OfBV
import Verif.Show

/-!
# A program: the sign of a field, and an arithmetic shift without `ashr` (C231)

`(x ^ m) - m` with `m = 1 << (k - 1)` copies bit `k - 1` of a field of `k` bits to all bits above it. With a shift before it this is the arithmetic shift, of wide
vectors too, whose `ashr` is wrong (C26).
-/

namespace Verif

variable {n : Nat}

/-- `(x ^ m) - m`, `m = 1 << j` -/
def Bits.signAt (x : Bits n false) (j : Nat) : Res (Bits n false) :=
  ((Bits.oneN n).shl (amount j)).bind fun (m : Bits n false) => (Bits.xor (s := false) (t := false) x m : Bits n false).sub m

/-- `x >> a`, then the sign -/
def Bits.ashrBy (x : Bits n false) (a : Nat) : Res (Bits n false) :=
  (x.shr (amount a)).bind fun (t : Bits n false) => t.signAt (n - 1 - a)

theorem xor_twoPow (v : BitVec n) (j : Nat) (h : v.getLsbD j = false) : v ^^^ BitVec.twoPow n j = v + BitVec.twoPow n j := by
  rw [BitVec.add_eq_or_of_and_eq_zero]
  · apply BitVec.eq_of_getLsbD_eq
    intro i hi
    rw [BitVec.getLsbD_xor, BitVec.getLsbD_or, BitVec.getLsbD_twoPow]
    by_cases e : j = i
    · subst e; rw [h]; simp
    · simp [e]
  · apply BitVec.eq_of_getLsbD_eq
    intro i hi
    rw [BitVec.getLsbD_and, BitVec.getLsbD_twoPow]
    by_cases e : j = i
    · subst e; rw [h]; simp
    · simp [e]

theorem sign_trick (v : BitVec n) (j : Nat) :
    (v ^^^ BitVec.twoPow n j) - BitVec.twoPow n j = if v.getLsbD j then v - BitVec.twoPow n j - BitVec.twoPow n j else v := by
  cases h : v.getLsbD j
  · rw [xor_twoPow v j h, BitVec.add_sub_cancel, if_neg (by decide)]
  · rw [if_pos rfl]
    have h' : (v ^^^ BitVec.twoPow n j).getLsbD j = false := by
      have := BitVec.lt_of_getLsbD h
      rw [BitVec.getLsbD_xor, BitVec.getLsbD_twoPow, h]; simp [this]
    have e := xor_twoPow _ j h'
    rw [BitVec.xor_assoc, BitVec.xor_self, BitVec.xor_zero] at e
    have e2 : v ^^^ BitVec.twoPow n j = v - BitVec.twoPow n j := by
      conv_rhs => rw [e]
      rw [BitVec.add_sub_cancel]
    rw [e2]

theorem sign_int (v : BitVec n) {k : Nat} (hk0 : 0 < k) (hkn : k ≤ n) (hv : v.toNat < 2 ^ k) :
    ((v ^^^ BitVec.twoPow n (k - 1)) - BitVec.twoPow n (k - 1)).toInt = if v.toNat < 2 ^ (k - 1) then (v.toNat : Int) else v.toNat - 2 ^ k := by
  obtain ⟨j, rfl⟩ : ∃ j, k = j + 1 := ⟨k - 1, by omega⟩
  rw [Nat.add_sub_cancel, sign_trick]
  have hle : (2 : Nat) ^ (j + 1) ≤ 2 ^ n := Nat.pow_le_pow_right (by norm_num) hkn
  have hbit : v.getLsbD j = decide (2 ^ j ≤ v.toNat) := by
    rw [BitVec.getLsbD, Nat.testBit_eq_decide_div_mod_eq]
    rw [pow_succ] at hv
    by_cases h : 2 ^ j ≤ v.toNat
    · rw [show v.toNat / 2 ^ j = 1 from Nat.div_eq_of_lt_le (by omega) (by omega)]; simp [h]
    · rw [Nat.div_eq_of_lt (by omega)]; simp [h]
  have hp : (2 : Nat) ^ (j + 1) = 2 * 2 ^ j := by rw [pow_succ]; ring
  have htw : (BitVec.twoPow n j).toNat = 2 ^ j := by
    rw [BitVec.toNat_twoPow]; exact Nat.mod_eq_of_lt (Nat.pow_lt_pow_right (by norm_num) (by omega))
  have hv' := v.isLt
  rw [hbit]
  by_cases h : 2 ^ j ≤ v.toNat
  · rw [decide_eq_true h, if_pos rfl, if_neg (by omega)]
    have e : v - BitVec.twoPow n j - BitVec.twoPow n j = BitVec.ofInt n ((v.toNat : Int) - 2 ^ (j + 1)) := by
      apply BitVec.eq_of_toInt_eq
      rw [BitVec.toInt_ofInt, BitVec.toInt_sub, BitVec.toInt_sub, BitVec.toInt_eq_toNat_bmod, BitVec.toInt_eq_toNat_bmod, htw]
      simp only [Int.sub_bmod_bmod, Int.bmod_sub_bmod]
      congr 1; push_cast; rw [pow_succ]; ring
    rw [e, BitVec.toInt_ofInt]
    have h2 : ((2 ^ n : Nat) : Int) ≥ 2 ^ (j + 1) := by exact_mod_cast hle
    have h3 : (2 : Int) ^ (j + 1) = 2 * 2 ^ j := by rw [pow_succ]; ring
    have h4 : (2 : Int) ^ j ≤ v.toNat := by exact_mod_cast h
    have h5 : (v.toNat : Int) < 2 ^ (j + 1) := by exact_mod_cast hv
    rw [Int.bmod_eq_of_le] <;> omega
  · rw [decide_eq_false h, if_neg (by decide), if_pos (by omega), BitVec.toInt_eq_toNat_of_lt (by omega)]

/-- what the program computes, of every width -/
theorem Bits.signAt_bv (hn : 1 < n) (hN : n ≤ 2 ^ 32) (x : Bits n false) {j : Nat} (hj : j < n) :
    ∃ z, x.signAt j = .ok z ∧ z.bv = (x.bv ^^^ BitVec.twoPow n j) - BitVec.twoPow n j := by
  obtain ⟨c1, e1⟩ := amount_spec (i := j) (by omega)
  obtain ⟨one_c, one_v⟩ := Bits.oneN_spec (n := n) (by omega)
  obtain ⟨m, hm, em⟩ := C25_shl_partial hN (Bits.oneN n) (amount j) c1 j e1 (fun h => ⟨by decide, hn, by split_ifs <;> omega⟩)
  obtain ⟨z, hz, ez⟩ := C29_sub_partial (s := false) (t := false) (by omega) (Bits.xor (s := false) (t := false) x m : Bits n false) m (by simp)
  refine ⟨z, ?_, ?_⟩
  · rw [Bits.signAt, hm, res_bind_ok]; exact hz
  · have em' : Bits.bv (s := false) m = BitVec.twoPow n j := by
      rw [em, one_v]; exact (BitVec.twoPow_eq n j).symm
    rw [ez, em']
    rw [show (Bits.xor (s := false) (t := false) x m : Bits n false).bv = _ from Bits.bv_xor x m, em']

/-- **C231, fields.** Of every width above one bit: a field of `k` bits at the bottom of a vector becomes the signed number that the field is. -/
theorem C231_field (hn : 1 < n) (hN : n ≤ 2 ^ 32) (x : Bits n false) {k : Nat} (hk0 : 0 < k) (hk : k ≤ n) (hx : x.bv.toNat < 2 ^ k) :
    ∃ z, x.signAt (k - 1) = .ok z ∧ z.bv.toInt = if x.bv.toNat < 2 ^ (k - 1) then (x.bv.toNat : Int) else x.bv.toNat - 2 ^ k := by
  obtain ⟨z, hz, ez⟩ := Bits.signAt_bv hn hN x (j := k - 1) (by omega)
  exact ⟨z, hz, by rw [ez]; exact sign_int _ hk0 hk hx⟩

/-- **C231, shifts.** Of every width above one bit, wide ones included, and every amount below the width: the shift followed by the sign is the arithmetic shift, the number
divided by `2^a` and rounded down. -/
theorem C231_shift (hn : 1 < n) (hN : n ≤ 2 ^ 32) (x : Bits n false) {a : Nat} (ha : a < n) :
    ∃ z, x.ashrBy a = .ok z ∧ z.bv.toInt = x.bv.toInt / 2 ^ a ∧ z.bv = x.bv.sshiftRight a := by
  obtain ⟨c1, e1⟩ := amount_spec (i := a) (by omega)
  obtain ⟨t, ht, et⟩ := C24_shr_partial (by omega) hN x (amount a) c1 a e1 (fun _ => ⟨by decide, ha⟩)
  have et' : Bits.bv (n := n) (s := false) t = x.bv >>> a := et
  have hp : (2 : Nat) ^ n = 2 ^ (n - a) * 2 ^ a := by rw [← pow_add]; congr 1; omega
  have hp1 : (2 : Nat) ^ (n - 1) = 2 ^ (n - a - 1) * 2 ^ a := by rw [← pow_add]; congr 1; omega
  have hlt : (Bits.bv (n := n) (s := false) t).toNat < 2 ^ (n - a) := by
    rw [et', BitVec.toNat_ushiftRight, Nat.shiftRight_eq_div_pow, Nat.div_lt_iff_lt_mul (by positivity), ← hp]
    exact x.bv.isLt
  obtain ⟨z, hz, ez⟩ := C231_field hn hN (t : Bits n false) (k := n - a) (by omega) (by omega) hlt
  have key : z.bv.toInt = x.bv.toInt / 2 ^ a := by
    rw [ez, et', BitVec.toNat_ushiftRight, Nat.shiftRight_eq_div_pow, BitVec.toInt_eq_toNat_cond]
    have hc : x.bv.toNat / 2 ^ a < 2 ^ (n - a - 1) ↔ 2 * x.bv.toNat < 2 ^ n := by
      rw [Nat.div_lt_iff_lt_mul (by positivity), ← hp1]
      have : (2 : Nat) ^ n = 2 * 2 ^ (n - 1) := by rw [← pow_succ']; congr 1; omega
      omega
    simp only [hc]
    split_ifs
    · push_cast; rfl
    · rw [hp]; push_cast
      rw [Int.sub_mul_ediv_right _ _ (by positivity)]
  refine ⟨z, ?_, key, ?_⟩
  · rw [Bits.ashrBy, ht, res_bind_ok, show n - 1 - a = n - a - 1 by omega]; exact hz
  · apply BitVec.eq_of_toInt_eq
    rw [key, BitVec.toInt_sshiftRight, Int.shiftRight_eq_div_pow]; push_cast; rfl

/-- 6 in three bits is -2; -5 shifted by one at 70 bits is -3, where `ashr` gives another number -/
example : ((Bits.ofInt 6 : Bits 8 false).signAt 2).map (·.bv.toInt) = .ok (-2) ∧
    ((Bits.zero : Bits 70 false).sub (Bits.ofInt 5 : Bits 70 false)).bind (fun x => (Bits.ashrBy (n := 70) x 1).map (·.bv.toInt)) = .ok (-3) ∧
    (((Bits.zero : Bits 70 true).sub (Bits.ofInt 5 : Bits 70 true)).bind fun x => (Bits.ashr (n := 70) (s := true) x (amount 1)).map fun z => decide (z.bv.toInt = -3)) = .ok false := by
  decide +kernel

end Verif
