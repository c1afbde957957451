import Verif.Props.BinaryGcd
import Verif.Props.Expr
import Verif.Props.Horner
import Verif.Props.ArithExact

/-!
# A program: the high half of a product from half products (C222)

`xl = x & mask; xh = x >> h; ... t = xh * yl + ((xl * yl) >> h); w = (t & mask) + xl * yh; hi = xh * yh + (t >> h) + (w >> h);`
for vectors of `2 * h` bits: the upper `2 * h` bits of the product, which `operator*` drops.
-/

namespace Verif

variable {n h : Nat}

/-- the sequence of assignments -/
def Bits.mulHigh (h : Nat) (x y : Bits n false) : Res (Bits n false) :=
  let mask : Bits n false := Bits.ofInt ((2 ^ h - 1 : Nat) : Int)
  let xl : Bits n false := x.and mask
  let yl : Bits n false := y.and mask
  (x.shr (amount h)).bind fun (xh : Bits n false) => (y.shr (amount h)).bind fun (yh : Bits n false) =>
    (xl.mul yl).bind fun (p0 : Bits n false) => (xh.mul yl).bind fun (p1 : Bits n false) =>
      (xl.mul yh).bind fun (p2 : Bits n false) => (xh.mul yh).bind fun (p3 : Bits n false) =>
        (p0.shr (amount h)).bind fun (c0 : Bits n false) => (p1.add c0).bind fun (t : Bits n false) =>
          (Bits.add (n := n) (s := false) (t := false) (t.and mask) p2).bind fun (w : Bits n false) =>
            (t.shr (amount h)).bind fun (c1 : Bits n false) => (w.shr (amount h)).bind fun (c2 : Bits n false) =>
              (p3.add c1).bind fun (u : Bits n false) => u.add c2

theorem Bits.shr_nat (hN : n ≤ 2 ^ 32) {k : Nat} (hk : k < n) (x : Bits n false) :
    ∃ z : Bits n false, x.shr (amount k) = .ok z ∧ z.Clean ∧ z.bv.toNat = x.bv.toNat / 2 ^ k := by
  obtain ⟨c1, e1⟩ := amount_spec (i := k) (by omega)
  obtain ⟨z, hz, ez⟩ := C24_shr_partial (by omega) hN x (amount k) c1 k e1 (fun _ => ⟨by decide, hk⟩)
  refine ⟨z, hz, ?_, by rw [ez, BitVec.toNat_ushiftRight, Nat.shiftRight_eq_div_pow]⟩
  by_cases h64 : n ≤ 64
  · obtain ⟨w, hw, hr⟩ := Bits.shr_native h64 (by omega) (by decide) x (amount k) (Bits.amount_native (by decide) c1 e1) hk
    rw [hz] at hw; cases hw
    rw [Bits.clean_unsigned_iff]
    intro i hi
    rw [hr, decide_eq_false (by omega), Bool.false_and]
  · obtain ⟨w, hw, hc, -⟩ := Bits.shr_wide h64 hN x c1 e1
    rw [hz] at hw; cases hw; exact hc

theorem Bits.add_nat (h1 : 1 < n) (x y : Bits n false) (hlt : x.bv.toNat + y.bv.toNat < 2 ^ n) :
    ∃ z : Bits n false, x.add y = .ok z ∧ z.bv.toNat = x.bv.toNat + y.bv.toNat := by
  obtain ⟨z, hz, e⟩ := C28_add_partial (s := false) (t := false) h1 x y (by simp)
  refine ⟨z, hz, ?_⟩
  rw [show Bits.bv (s := false) z = x.bv + y.bv from e, BitVec.toNat_add, Nat.mod_eq_of_lt hlt]

theorem Bits.mul_nat (h1 : 1 < n) (x y : Bits n false) (hx : x.Clean) (hy : y.Clean) (hlt : x.bv.toNat * y.bv.toNat < 2 ^ n)
    (hx64 : x.bv.toNat < 2 ^ 64) (hy64 : y.bv.toNat < 2 ^ 64) :
    ∃ z : Bits n false, x.mul y = .ok z ∧ z.bv.toNat = x.bv.toNat * y.bv.toNat := by
  by_cases h64 : n ≤ 64
  · obtain ⟨z, hz, e⟩ := C30_mul_partial (s := false) (t := false) (by omega) x y
      (fun _ _ _ h16 => ⟨hx, hy, hlt.trans_le (Nat.pow_le_pow_right (by decide) (by omega))⟩) (by simp) (by omega)
    refine ⟨z, hz, ?_⟩
    rw [show Bits.bv (s := false) z = x.bv * y.bv from e, BitVec.toNat_mul, Nat.mod_eq_of_lt hlt]
  · have low : ∀ v : BitVec n, v.toNat < 2 ^ 64 → LowOnly v := fun v hv => by
      have := lowOnly_small (n := n) v.toNat hv
      rwa [BitVec.ofNat_toNat, BitVec.setWidth_eq] at this
    obtain ⟨z, hz, e⟩ := (C30_wide_exact (by omega) x y hx hy).1 ⟨low _ hx64, low _ hy64⟩
    refine ⟨z, hz, ?_⟩
    exact e.trans (by rw [Nat.mod_eq_of_lt hx64, Nat.mod_eq_of_lt hy64, Nat.mod_eq_of_lt hlt])

theorem Bits.mask_nat (h1 : 1 < n) (hh : h ≤ n) (hh64 : h ≤ 64) (x : Bits n false) :
    (Bits.and (n := n) (s := false) (t := false) x (Bits.ofInt ((2 ^ h - 1 : Nat) : Int))).Clean ∧
      (Bits.and (n := n) (s := false) (t := false) x (Bits.ofInt ((2 ^ h - 1 : Nat) : Int))).bv.toNat = x.bv.toNat % 2 ^ h := by
  have hp : 2 ^ h ≤ 2 ^ n := Nat.pow_le_pow_right (by decide) hh
  have hp2 : 2 ^ h ≤ 2 ^ 64 := Nat.pow_le_pow_right (by decide) hh64
  have hp0 : 0 < 2 ^ h := Nat.two_pow_pos h
  have em : (Bits.ofInt ((2 ^ h - 1 : Nat) : Int) : Bits n false).bv = BitVec.ofNat n (2 ^ h - 1) := Bits.ofInt_nat h1 (by omega)
  refine ⟨Bits.clean_and_of (by omega) _ _ ?_, ?_⟩
  · by_cases h64 : n ≤ 64
    · have := (Bits.ofInt_native h64 (BitVec.ofNat n (2 ^ h - 1))).1
      rw [BitVec.toNat_ofNat, Nat.mod_eq_of_lt (by omega)] at this
      exact Or.inr (Or.inl this)
    · exact Or.inr (Or.inr (by omega))
  have := Bits.bv_and (s := false) (t := false) (by omega) x (Bits.ofInt ((2 ^ h - 1 : Nat) : Int))
  refine (congrArg BitVec.toNat this).trans ?_
  rw [em, BitVec.toNat_and, BitVec.toNat_ofNat, Nat.mod_eq_of_lt (by omega), Nat.and_two_pow_sub_one_eq_mod]

theorem halves_mul {B x y XH XL YH YL A A' T T' V V' : Nat} (dx : B * XH + XL = x) (dy : B * YH + YL = y) (q1 : B * T + T' = XH * YL + A)
    (q2 : B * V + V' = T' + XL * YH) (q0 : B * A + A' = XL * YL) : x * y = (XH * YH + T + V) * (B * B) + (V' * B + A') := by
  calc x * y = XH * YH * (B * B) + B * (XH * YL) + B * (XL * YH) + XL * YL := by rw [← dx, ← dy]; ring
    _ = XH * YH * (B * B) + B * (XH * YL + A) + B * (XL * YH) + A' := by rw [← q0]; ring
    _ = XH * YH * (B * B) + B * (B * T) + B * (T' + XL * YH) + A' := by rw [← q1]; ring
    _ = (XH * YH + T + V) * (B * B) + (V' * B + A') := by rw [← q2]; ring

/-- **C222.** For all vectors of `2 * h` bits, clean or not, whose halves fit in 64 bits (as the mask, a `uint64_t`, does), the sequence
ends without undefined behaviour with the upper half of the product. -/
theorem C222_high (h0 : 0 < h) (h64 : h ≤ 64) (x y : Bits (2 * h) false) :
    ∃ z, x.mulHigh h y = .ok z ∧ z.bv.toNat = x.bv.toNat * y.bv.toNat / 2 ^ (2 * h) := by
  have h1 : 1 < 2 * h := by omega
  have hB : 2 ^ (2 * h) = 2 ^ h * 2 ^ h := by rw [two_mul, pow_add]
  have hB0 : 0 < 2 ^ h := Nat.two_pow_pos h
  have hB64 : 2 ^ h ≤ 2 ^ 64 := Nat.pow_le_pow_right (by decide) h64
  have hX := x.bv.isLt
  have hY := y.bv.isLt
  obtain ⟨cxl, exl⟩ := Bits.mask_nat h1 (h := h) (by omega) h64 x
  obtain ⟨cyl, eyl⟩ := Bits.mask_nat h1 (h := h) (by omega) h64 y
  obtain ⟨xh, hxh, cxh, exh⟩ := Bits.shr_nat (by omega) (k := h) (by omega) x
  obtain ⟨yh, hyh, cyh, eyh⟩ := Bits.shr_nat (by omega) (k := h) (by omega) y
  have lxh : x.bv.toNat / 2 ^ h < 2 ^ h := Nat.div_lt_of_lt_mul (by omega)
  have lyh : y.bv.toNat / 2 ^ h < 2 ^ h := Nat.div_lt_of_lt_mul (by omega)
  have lxl := Nat.mod_lt x.bv.toNat hB0
  have lyl := Nat.mod_lt y.bv.toNat hB0
  have dx := Nat.div_add_mod x.bv.toNat (2 ^ h)
  have dy := Nat.div_add_mod y.bv.toNat (2 ^ h)
  have bound : ∀ {a b B : Nat}, a < B → b < B → a * b + 2 * B ≤ B * B + 1 := fun {a b B} ha hb => by
    obtain ⟨c, rfl⟩ := Nat.exists_eq_add_of_lt ha
    nlinarith [Nat.mul_le_mul (Nat.le_sub_one_of_lt ha) (Nat.le_sub_one_of_lt hb)]
  obtain ⟨p0, hp0, e0⟩ := Bits.mul_nat h1 _ _ cxl cyl (by rw [exl, eyl, hB]; have := bound lxl lyl; omega) (by omega) (by omega)
  obtain ⟨p1, hp1, e1⟩ := Bits.mul_nat h1 _ _ cxh cyl (by rw [exh, eyl, hB]; have := bound lxh lyl; omega) (by omega) (by omega)
  obtain ⟨p2, hp2, e2⟩ := Bits.mul_nat h1 _ _ cxl cyh (by rw [exl, eyh, hB]; have := bound lxl lyh; omega) (by omega) (by omega)
  obtain ⟨p3, hp3, e3⟩ := Bits.mul_nat h1 _ _ cxh cyh (by rw [exh, eyh, hB]; have := bound lxh lyh; omega) (by omega) (by omega)
  rw [exl, eyl] at e0; rw [exh, eyl] at e1; rw [exl, eyh] at e2; rw [exh, eyh] at e3
  obtain ⟨c0, hc0, -, ec0⟩ := Bits.shr_nat (by omega) (k := h) (by omega) p0
  have lc0 : p0.bv.toNat / 2 ^ h < 2 ^ h := Nat.div_lt_of_lt_mul (by have := p0.bv.isLt; omega)
  obtain ⟨t, ht, et⟩ := Bits.add_nat h1 p1 c0 (by rw [e1, ec0, hB]; have := bound lxh lyl; omega)
  obtain ⟨-, etm⟩ := Bits.mask_nat h1 (h := h) (by omega) h64 t
  have ltm := Nat.mod_lt t.bv.toNat hB0
  obtain ⟨w, hw, ew⟩ := Bits.add_nat h1 _ p2 (by rw [etm, e2, hB]; have := bound lxl lyh; omega)
  obtain ⟨c1, hc1, -, ec1⟩ := Bits.shr_nat (by omega) (k := h) (by omega) t
  obtain ⟨c2, hc2, -, ec2⟩ := Bits.shr_nat (by omega) (k := h) (by omega) w
  have lc1 : t.bv.toNat / 2 ^ h < 2 ^ h := Nat.div_lt_of_lt_mul (by have := t.bv.isLt; omega)
  have lc2 : w.bv.toNat / 2 ^ h < 2 ^ h := Nat.div_lt_of_lt_mul (by have := w.bv.isLt; omega)
  obtain ⟨u, hu, eu⟩ := Bits.add_nat h1 p3 c1 (by rw [e3, ec1, hB]; have := bound lxh lyh; omega)
  obtain ⟨z, hz, ez⟩ := Bits.add_nat h1 u c2 (by rw [eu, e3, ec1, ec2, hB]; have := bound lxh lyh; omega)
  refine ⟨z, ?_, ?_⟩
  · simp only [Bits.mulHigh]
    rw [hxh, res_bind_ok, hyh, res_bind_ok]
    erw [hp0]; rw [res_bind_ok]; erw [hp1]; rw [res_bind_ok]; erw [hp2]; rw [res_bind_ok]; erw [hp3]
    rw [res_bind_ok, hc0, res_bind_ok, ht, res_bind_ok, hw, res_bind_ok, hc1, res_bind_ok, hc2, res_bind_ok, hu, res_bind_ok, hz]
  · have d0 := Nat.div_add_mod p0.bv.toNat (2 ^ h)
    have d1 := Nat.div_add_mod t.bv.toNat (2 ^ h)
    have d2 := Nat.div_add_mod w.bv.toNat (2 ^ h)
    have l0 := Nat.mod_lt p0.bv.toNat hB0
    have l2 := Nat.mod_lt w.bv.toNat hB0
    rw [etm] at ew; rw [ec0] at et
    rw [ez, eu, ec1, ec2, hB]
    symm
    rw [Nat.div_eq_iff (by positivity)]
    have key : x.bv.toNat * y.bv.toNat = (p3.bv.toNat + t.bv.toNat / 2 ^ h + w.bv.toNat / 2 ^ h) * (2 ^ h * 2 ^ h) +
        (w.bv.toNat % 2 ^ h * 2 ^ h + p0.bv.toNat % 2 ^ h) := by
      rw [e3]
      exact halves_mul dx dy (by rw [d1, et, e1]) (by rw [d2, ew, e2]) (by rw [d0, e0])
    have hr : w.bv.toNat % 2 ^ h * 2 ^ h + p0.bv.toNat % 2 ^ h < 2 ^ h * 2 ^ h := by
      have := Nat.mul_le_mul_right (2 ^ h) (Nat.succ_le_of_lt l2)
      rw [Nat.succ_mul] at this
      omega
    rw [key]
    omega

/-- the greatest numbers of 16 bits, whose product `operator*` cannot form without overflow of `int` -/
example : (((Bits.ofInt 0xFFFF : Bits 16 false).mulHigh 8 (Bits.ofInt 0xFFFF)).map fun z => z.bv.toNat) = .ok 0xFFFE ∧
    ((Bits.ofInt 0xFFFF : Bits 16 false).mul (Bits.ofInt 0xFFFF : Bits 16 false)).toOption.isNone := by decide +kernel

/-- `(2^63 * 2^64) * (2^63 * 2^64)` in 128 bits -/
example : ((((Bits.ofInt (2 ^ 63) : Bits 128 false).shl (amount 64)).bind fun (x : Bits 128 false) => x.mulHigh 64 x).map fun z => z.bv.toNat) =
    .ok (2 ^ 126) := by decide +kernel

end Verif
