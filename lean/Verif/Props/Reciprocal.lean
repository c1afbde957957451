import Verif.Props.Shift
import Verif.Props.Arith
import Verif.Show

/-!
# A program: division by a constant with a product (C227)

`(x * m) >> k` with `m` a little above `2^k / d`, in place of `x / d`.
-/

namespace Verif

variable {n k : Nat}

/-- `(x * m) >> y` -/
def Bits.mulShr (x m : Bits n false) (y : Bits k false) : Res (Bits n false) :=
  (x.mul m).bind fun p => Bits.shr (s := false) p y

/-- rounding down a quotient with a denominator that is too small -/
theorem recip_iff (x m d K : Nat) (hd : 0 < d) (hK : 0 < K) (hm : K ≤ m * d) :
    x * m / K = x / d ↔ x * (m * d - K) < (d - x % d) * K := by
  have hx := Nat.div_add_mod x d
  have hr := Nat.mod_lt x hd
  obtain ⟨e, he⟩ := Nat.exists_eq_add_of_le hm
  generalize x / d = q at *
  generalize x % d = r at *
  obtain ⟨c, hc⟩ := Nat.exists_eq_add_of_lt hr
  have h1 : q * K ≤ x * m := by
    refine Nat.le_of_mul_le_mul_right (c := d) ?_ hd
    calc q * K * d = d * q * K := by ring
      _ ≤ x * K := Nat.mul_le_mul_right _ (by omega)
      _ ≤ x * (m * d) := Nat.mul_le_mul_left _ hm
      _ = x * m * d := by ring
  have h2 : x * m < (q + 1) * K ↔ x * e < (d - r) * K := by
    rw [← Nat.mul_lt_mul_right hd, show x * m * d = x * K + x * e by rw [mul_assoc, he]; ring,
      show (q + 1) * K * d = d * q * K + r * K + (d - r) * K by
        rw [show d - r = c + 1 by omega, hc]; ring,
      show x * K = d * q * K + r * K by rw [← hx]; ring]
    omega
  rw [he, Nat.add_sub_cancel_left, ← h2, Nat.div_eq_iff hK]
  constructor
  · rintro ⟨-, h⟩; have : (q + 1) * K = q * K + K := by ring
    omega
  · intro h; have : (q + 1) * K = q * K + K := by ring
    omega

/-- **C227, exactly when the product replaces the quotient.** Let `m * d` be at least `2^k` and the product fit in the width. Then `(x * m) >> k` is what `x / d`
gives if and only if `x * (m * d - 2^k) < (d - x % d) * 2^k`. Missing: products that do not fit (`C227_refuted`), and the
wide values that `*` and `/` get wrong (C30, C31). -/
theorem C227_quotient_partial (hn : 0 < n) (hN : n ≤ 2 ^ 32) (hk : k ≤ 64) (x m d : Bits n false) (hx : x.Clean) (hm : m.Clean) (hd : d.Clean)
    (y : Bits k false) (hy : y.Clean) (hyn : y.bv.toNat < n) (hd0 : 0 < d.bv.toNat) (hmd : 2 ^ y.bv.toNat ≤ m.bv.toNat * d.bv.toNat)
    (hp : x.bv.toNat * m.bv.toNat < 2 ^ n)
    (hw : 64 < n → LowHalves x.bv ∧ LowHalves m.bv ∧ LowHalves d.bv ∧
      ∃ a b, x.bv.toNat < 2 ^ (64 * a) ∧ m.bv.toNat < 2 ^ (64 * b) ∧ 64 * (a + b) < n + 64) :
    ∃ z q, x.mulShr m y = .ok z ∧ x.div d = .ok q ∧
      (z.bv = q.bv ↔ x.bv.toNat * (m.bv.toNat * d.bv.toNat - 2 ^ y.bv.toNat) <
        (d.bv.toNat - x.bv.toNat % d.bv.toNat) * 2 ^ y.bv.toNat) := by
  obtain ⟨p, hpr, ep⟩ := C30_mul_partial hn x m (fun _ _ _ h => ⟨hx, hm, Nat.lt_of_lt_of_le hp (Nat.pow_le_pow_right (by decide) (by omega))⟩)
    (fun h => by cases h) (fun h => ⟨hx, hm, (hw h).1, (hw h).2.1, (hw h).2.2.2⟩)
  obtain ⟨z, hz, ez⟩ := C24_shr_partial hn hN (s := false) p y hy y.bv.toNat (by simp [numOf]) fun h => ⟨hk, hyn⟩
  obtain ⟨q, r, hq, -, -, -, eq, lr⟩ := C31_div_partial hn hN x d hx hd (fun h => by rw [h] at hd0; simp at hd0)
    fun h => ⟨(hw h).1, (hw h).2.2.1⟩
  refine ⟨z, q, by rw [Bits.mulShr, hpr, res_bind_ok]; exact hz, hq, ?_⟩
  have e1 : z.bv.toNat = x.bv.toNat * m.bv.toNat / 2 ^ y.bv.toNat := by
    rw [ez, BitVec.toNat_ushiftRight, Nat.shiftRight_eq_div_pow]
    congr 1
    show p.bv.toNat = _
    rw [ep, BitVec.toNat_mul, Nat.mod_eq_of_lt hp]
  have e2 : q.bv.toNat = x.bv.toNat / d.bv.toNat := by
    rw [eq, Nat.mul_comm, Nat.mul_add_div hd0, Nat.div_eq_of_lt lr, Nat.add_zero]
  rw [← recip_iff _ _ _ _ hd0 (by positivity) hmd, ← e1, ← e2]
  exact ⟨fun h => by rw [show z.bv.toNat = q.bv.toNat from congrArg BitVec.toNat h], fun h => BitVec.eq_of_toNat_eq h⟩

/-- **C227, the usual constant.** With `2^k` at least `2^j` times `d`, the least `m` with `m * d` at least `2^k` serves for all `x` below `2^j`.
Missing: as for `C227_quotient_partial`. -/
theorem C227_constant_partial (hn : 0 < n) (h : n ≤ 64) (hk : k ≤ 64) (j : Nat) (x m d : Bits n false) (hx : x.Clean) (hm : m.Clean) (hd : d.Clean)
    (y : Bits k false) (hy : y.Clean) (hyn : y.bv.toNat < n) (hd0 : 0 < d.bv.toNat) (hxj : x.bv.toNat < 2 ^ j)
    (hj : 2 ^ j * d.bv.toNat ≤ 2 ^ y.bv.toNat) (hmd : m.bv.toNat = (2 ^ y.bv.toNat + d.bv.toNat - 1) / d.bv.toNat)
    (hp : x.bv.toNat * m.bv.toNat < 2 ^ n) : ∃ z q, x.mulShr m y = .ok z ∧ x.div d = .ok q ∧ z.bv = q.bv := by
  have hlo : 2 ^ y.bv.toNat ≤ m.bv.toNat * d.bv.toNat := by
    rw [hmd]
    have := Nat.lt_div_mul_add (a := 2 ^ y.bv.toNat + d.bv.toNat - 1) hd0
    omega
  have hhi : m.bv.toNat * d.bv.toNat - 2 ^ y.bv.toNat ≤ d.bv.toNat := by
    have := Nat.div_mul_le_self (2 ^ y.bv.toNat + d.bv.toNat - 1) d.bv.toNat
    rw [hmd]; omega
  obtain ⟨z, q, hz, hq, e⟩ := C227_quotient_partial hn (by omega) hk x m d hx hm hd y hy hyn hd0 hlo hp fun _ => by omega
  refine ⟨z, q, hz, hq, e.2 ?_⟩
  have h1 : 0 < d.bv.toNat - x.bv.toNat % d.bv.toNat := Nat.sub_pos_of_lt (Nat.mod_lt _ hd0)
  calc x.bv.toNat * (m.bv.toNat * d.bv.toNat - 2 ^ y.bv.toNat) ≤ x.bv.toNat * d.bv.toNat := Nat.mul_le_mul_left _ hhi
    _ < 2 ^ j * d.bv.toNat := Nat.mul_lt_mul_of_pos_right hxj hd0
    _ ≤ 1 * 2 ^ y.bv.toNat := by omega
    _ ≤ _ := Nat.mul_le_mul_right _ h1

/-- **C227 fails if the product does not fit**: for 20 / 7 at 8 bits with m = 19 and k = 7 the product 380 loses its highest bit. -/
theorem C227_refuted : ∃ x m d y : Bits 8 false, x.Clean ∧ m.Clean ∧ d.Clean ∧ y.Clean ∧ 2 ^ y.bv.toNat ≤ m.bv.toNat * d.bv.toNat ∧
    x.bv.toNat * (m.bv.toNat * d.bv.toNat - 2 ^ y.bv.toNat) < (d.bv.toNat - x.bv.toNat % d.bv.toNat) * 2 ^ y.bv.toNat ∧
    (x.mulShr m y).map (·.bv.toNat) ≠ (x.div d).map (·.bv.toNat) :=
  ⟨Bits.ofInt 20, Bits.ofInt 19, Bits.ofInt 7, Bits.ofInt 7, by decide +kernel⟩

/-- 1000 / 10 at 32 bits with 52429 and 19 (the product would overflow for 100000), and 1023 / 3 at 70 bits with 683 and 11 -/
example : ((Bits.ofInt 1009 : Bits 32 false).mulShr (Bits.ofInt 52429) (Bits.ofInt 19 : Bits 5 false)).map (·.bv.toNat) = .ok 100 ∧
    ((Bits.ofInt 1023 : Bits 70 false).mulShr (Bits.ofInt 683) (Bits.ofInt 11 : Bits 5 false)).map (·.bv.toNat) = .ok 341 ∧
    1009 * (52429 * 10 - 2 ^ 19) < (10 - 1009 % 10) * 2 ^ 19 := by decide +kernel

end Verif
