import Verif.Lemmas.Arith
import Verif.Show

/-!
# Arithmetic (C28 - C37)

`x.bv + y.bv`, `x.bv * y.bv`, ... are the operations of Lean's bit vectors, that
is arithmetic modulo `2^n`; `toNat` and `toInt` are the unsigned and the two's
complement number of a bit vector.
-/

namespace Verif

variable {n m : Nat} {s t : Bool}

/-! ## C28: addition -/

/-- **C28, partial.** All widths of at least two bits, every mix of signedness,
and no assumption on the operands except when both are signed and wider than 16
bits: then they have to be clean, and at 32 and 64 bits the sum must be
representable. Missing: signed overflow at 32 and 64 bits, which is undefined
behaviour (`C28_signed_overflow`), and one bit values (`C28_one_bit`). -/
theorem C28_add_partial (hn : 1 < n) (x : Bits n s) (y : Bits n t)
    (hc : s = true → t = true → 16 < n → n ≤ 64 → x.Clean ∧ y.Clean ∧
      (n = 32 ∨ n = 64 → -2 ^ (n - 1) ≤ x.bv.toInt + y.bv.toInt ∧
        x.bv.toInt + y.bv.toInt < 2 ^ (n - 1))) :
    ∃ z, x.add y = .ok z ∧ z.bv = x.bv + y.bv := by
  by_cases h : n ≤ 64
  · exact Bits.add_native h hn x y
      (Bits.fits_addlike h hn x y (· + ·) (Or.inl rfl) fun a b c => hc a b c h)
  · exact Bits.add_wide h x y

/-- **C28, an excluded case.** At 32 and 64 bits a signed sum that is not
representable is undefined behaviour. -/
theorem C28_signed_overflow (hn : n = 32 ∨ n = 64) (x y : Bits n true) (hx : x.Clean) (hy : y.Clean)
    (ho : x.bv.toInt + y.bv.toInt < -2 ^ (n - 1) ∨ 2 ^ (n - 1) ≤ x.bv.toInt + y.bv.toInt) :
    x.add y = .error .overflow := by
  have h : n ≤ 64 := by omega
  have h1 : 1 < n := by omega
  have key := Bits.arith_exact h x y (· + ·) (fun _ a b => a + b) (fun w a b => BitVec.ofInt_add a b)
  rw [if_pos (show hw n < 32 ∨ (true && true) = true from Or.inr rfl)] at key
  have hw' : max 32 (hw n) - 1 = n - 1 := by rcases hn with e | e <;> subst e <;> decide
  have := key.2 (by
    rw [Bits.fits, hw', (Bits.clean_signed_bounds h h1 hx).1, (Bits.clean_signed_bounds h h1 hy).1]
    omega)
  rw [Bits.add, dif_pos h]
  show (TV.arith _ _ _).map _ = _
  rw [this]; rfl

/-- **C28, an excluded case.** One bit addition is a disjunction: `1 + 1` is 1. -/
theorem C28_one_bit (x : Bits 1 s) (y : Bits 1 t) : ∃ z, x.add y = .ok z ∧ z.bv = x.bv ||| y.bv :=
  Bits.add_one x y

/-- **C28 is false as stated**: one bit `1 + 1`. -/
theorem C28_refuted : ¬ ∀ (n : Nat) (x y : Bits n false), 0 < n → x.Clean → y.Clean →
    ∃ z, x.add y = .ok z ∧ z.bv = x.bv + y.bv := by
  intro H
  obtain ⟨z, hz, e⟩ := H 1 (Bits.ofInt 1) (Bits.ofInt 1) (by decide) (by decide) (by decide)
  obtain ⟨z', hz', e'⟩ := C28_one_bit (Bits.ofInt 1 : Bits 1 false) (Bits.ofInt 1 : Bits 1 false)
  rw [hz] at hz'
  cases hz'
  rw [e] at e'
  exact absurd e' (by decide)

/-- **C28 for 4-state values** without x/z. Missing: one-bit sums (`C28_one_bit`) and signed
overflow at 32 and 64 bits, which is undefined (`C28_signed_overflow`). -/
theorem C28_add_logic_partial (hn : 1 < n) (x : Lg n s) (y : Lg n t) (hx : x.Known) (hy : y.Known)
    (hc : s = true → t = true → 16 < n → n ≤ 64 → x.value.Clean ∧ y.value.Clean ∧
      (n = 32 ∨ n = 64 → -2 ^ (n - 1) ≤ x.value.bv.toInt + y.value.bv.toInt ∧
        x.value.bv.toInt + y.value.bv.toInt < 2 ^ (n - 1))) :
    ∃ z, x.add y = .ok z ∧ z.Known ∧
      ∀ i, i < n → z.at i = V4.ofBool ((x.value.bv + y.value.bv).getLsbD i) := by
  obtain ⟨v, hv, e⟩ := C28_add_partial hn x.value y.value hc
  exact ⟨_, Lg.arithWith_known hx hy hv, Lg.known_zero v, fun i hi => by rw [Lg.known_mk_at v hi, e]⟩

example : Bits.num ((Bits.ofInt 200 : Bits 8 false).add (Bits.ofInt 100 : Bits 8 false)) = some 44 := by
  decide +kernel
example : Bits.num ((Bits.ofInt 200 : Bits 70 false).add (Bits.ofInt (-1) : Bits 70 false)) = some (2 ^ 64 + 199) := by
  decide +kernel
example : Bits.num ((Bits.ofInt (-5) : Bits 20 true).add (Bits.ofInt 3 : Bits 20 true)) = some (2 ^ 20 - 2) := by
  decide +kernel
-- the signed 32-bit case of the partial theorem is not vacuous
example : (Bits.ofInt (-5) : Bits 32 true).Clean ∧ (Bits.ofInt 3 : Bits 32 true).Clean ∧
    -2 ^ 31 ≤ (Bits.ofInt (-5) : Bits 32 true).bv.toInt + (Bits.ofInt 3 : Bits 32 true).bv.toInt := by
  decide +kernel

/-! ## C29: subtraction -/

/-- **C29, partial.** As C28, and including one bit values. Missing: signed
overflow at 32 and 64 bits (`C29_signed_overflow`). -/
theorem C29_sub_partial (hn : 0 < n) (x : Bits n s) (y : Bits n t)
    (hc : s = true → t = true → 16 < n → n ≤ 64 → x.Clean ∧ y.Clean ∧
      (n = 32 ∨ n = 64 → -2 ^ (n - 1) ≤ x.bv.toInt - y.bv.toInt ∧
        x.bv.toInt - y.bv.toInt < 2 ^ (n - 1))) :
    ∃ z, x.sub y = .ok z ∧ z.bv = x.bv - y.bv := by
  by_cases h1 : n = 1
  · subst h1; exact Bits.sub_one x y
  by_cases h : n ≤ 64
  · exact Bits.sub_native h (by omega) x y
      (Bits.fits_addlike h (by omega) x y (· - ·) (Or.inr rfl) fun a b c => hc a b c h)
  · exact Bits.sub_wide h x y

/-- **C29, the excluded case.** -/
theorem C29_signed_overflow (hn : n = 32 ∨ n = 64) (x y : Bits n true) (hx : x.Clean) (hy : y.Clean)
    (ho : x.bv.toInt - y.bv.toInt < -2 ^ (n - 1) ∨ 2 ^ (n - 1) ≤ x.bv.toInt - y.bv.toInt) :
    x.sub y = .error .overflow := by
  have h : n ≤ 64 := by omega
  have h1 : 1 < n := by omega
  have key := Bits.arith_exact h x y (· - ·) (fun _ a b => a - b) (fun w a b => ofInt_sub a b)
  rw [if_pos (show hw n < 32 ∨ (true && true) = true from Or.inr rfl)] at key
  have hw' : max 32 (hw n) - 1 = n - 1 := by rcases hn with e | e <;> subst e <;> decide
  have := key.2 (by
    rw [Bits.fits, hw', (Bits.clean_signed_bounds h h1 hx).1, (Bits.clean_signed_bounds h h1 hy).1]
    omega)
  rw [Bits.sub, dif_pos h]
  show (TV.arith _ _ _).map _ = _
  rw [this]; rfl

/-- **C29 is false as stated**: `INT_MIN - 1`. -/
theorem C29_refuted : ¬ ∀ (n : Nat) (x y : Bits n true), 0 < n → x.Clean → y.Clean →
    ∃ z, x.sub y = .ok z ∧ z.bv = x.bv - y.bv := by
  intro H
  obtain ⟨z, hz, e⟩ := H 32 (Bits.ofInt (-2 ^ 31)) (Bits.ofInt 1) (by decide) (by decide +kernel) (by decide +kernel)
  rw [C29_signed_overflow (Or.inl rfl) _ _ (by decide +kernel) (by decide +kernel) (by decide +kernel)] at hz
  exact absurd hz (by simp)

/-- **C29 for 4-state values** without x/z. Missing: signed overflow at 32 and 64 bits, which is
undefined (`C29_signed_overflow`). -/
theorem C29_sub_logic_partial (hn : 0 < n) (x : Lg n s) (y : Lg n t) (hx : x.Known) (hy : y.Known)
    (hc : s = true → t = true → 16 < n → n ≤ 64 → x.value.Clean ∧ y.value.Clean ∧
      (n = 32 ∨ n = 64 → -2 ^ (n - 1) ≤ x.value.bv.toInt - y.value.bv.toInt ∧
        x.value.bv.toInt - y.value.bv.toInt < 2 ^ (n - 1))) :
    ∃ z, x.sub y = .ok z ∧ z.Known ∧
      ∀ i, i < n → z.at i = V4.ofBool ((x.value.bv - y.value.bv).getLsbD i) := by
  obtain ⟨v, hv, e⟩ := C29_sub_partial hn x.value y.value hc
  exact ⟨_, Lg.arithWith_known hx hy hv, Lg.known_zero v, fun i hi => by rw [Lg.known_mk_at v hi, e]⟩

example : Bits.num ((Bits.ofInt 3 : Bits 8 false).sub (Bits.ofInt 5 : Bits 8 false)) = some 254 := by
  decide +kernel
example : Bits.num ((Bits.ofInt 3 : Bits 70 false).sub (Bits.ofInt 5 : Bits 70 false)) = some (2 ^ 70 - 2) := by
  decide +kernel

/-! ## C30: multiplication -/

/-- **C30, partial.** Native widths: the product must not overflow the type in
which C++ multiplies, which concerns unsigned operands of 9 to 16 bits (they are
multiplied as `int`) and signed ones wider than 16 bits. Wide: the operands are
clean, every non-zero 64-bit chunk of them has a one in its lower half, and they
occupy `a` and `b` chunks with `a + b` chunks available. Missing: the products
that overflow (`C30_u16_overflow`, undefined behaviour) and the wide products
that need more chunks (`C30_wide_oob`, a write outside the array). -/
theorem C30_mul_partial (hn : 0 < n) (x : Bits n s) (y : Bits n t)
    (hu : s = false → t = false → 8 < n → n ≤ 16 → x.Clean ∧ y.Clean ∧
      x.bv.toNat * y.bv.toNat < 2 ^ 31)
    (hc : s = true → t = true → 16 < n → n ≤ 64 → x.Clean ∧ y.Clean ∧
      -2 ^ (if n ≤ 32 then 31 else 63) ≤ x.bv.toInt * y.bv.toInt ∧
      x.bv.toInt * y.bv.toInt < 2 ^ (if n ≤ 32 then 31 else 63))
    (hw : 64 < n → x.Clean ∧ y.Clean ∧ LowHalves x.bv ∧ LowHalves y.bv ∧
      ∃ a b, x.bv.toNat < 2 ^ (64 * a) ∧ y.bv.toNat < 2 ^ (64 * b) ∧ 64 * (a + b) < n + 64) :
    ∃ z, x.mul y = .ok z ∧ z.bv = x.bv * y.bv := by
  by_cases h1 : n = 1
  · subst h1; exact Bits.mul_one x y
  by_cases h : n ≤ 64
  · refine Bits.mul_native h (by omega) x y (Bits.fits_mul h (by omega) x y hu ?_)
    intro a b c
    have e : Verif.hw n - 1 = if n ≤ 32 then 31 else 63 := by
      rw [hw_eq_of_gt c]; split_ifs <;> rfl
    rw [e]
    exact hc a b c h
  · obtain ⟨cx, cy, vx, vy, a, b, ha, hb, hab⟩ := hw (by omega)
    exact Bits.mul_wide h x y cx cy vx vy ha hb hab

/-- **C30, an excluded case.** Two unsigned values of 9 to 16 bits are multiplied
as signed `int`s: a product of `2^31` or more is undefined behaviour. -/
theorem C30_u16_overflow (h8 : 8 < n) (h16 : n ≤ 16) (x y : Bits n false) (hx : x.Clean) (hy : y.Clean)
    (ho : 2 ^ 31 ≤ x.bv.toNat * y.bv.toNat) : x.mul y = .error .overflow := by
  have h : n ≤ 64 := by omega
  have hw16 : hw n < 32 := (hw_lt_iff n).2 h16
  have key := Bits.arith_exact h x y (· * ·) (fun _ a b => a * b) (fun w a b => BitVec.ofInt_mul a b)
  rw [if_pos (Or.inl hw16)] at key
  have := key.2 (by
    rw [Bits.fits, show max 32 (hw n) - 1 = 31 by omega, (Bits.clean_unsigned_bounds h hx).1, (Bits.clean_unsigned_bounds h hy).1]
    have ho' : (2 : Int) ^ 31 ≤ (x.bv.toNat : Int) * (y.bv.toNat : Int) := by exact_mod_cast ho
    omega)
  rw [Bits.mul, dif_pos h]
  show (TV.arith _ _ _).map _ = _
  rw [this]; rfl

/-- **C30, an excluded case.** A wide product whose top chunk does not exist is
written outside the array: at 128 bits, every product of a value of `2^64` or more
with a non-zero value. -/
theorem C30_wide_oob (h : 64 < n) (x : Bits n s) (y : Bits n t) (hx : x.Clean) (hy : y.Clean)
    (vx : LowHalves x.bv) (vy : LowHalves y.bv) (i j : Nat)
    (hi0 : 2 ^ (64 * i) ≤ x.bv.toNat) (hi1 : x.bv.toNat < 2 ^ (64 * (i + 1)))
    (hj0 : 2 ^ (64 * j) ≤ y.bv.toNat) (hj1 : y.bv.toNat < 2 ^ (64 * (j + 1)))
    (hij : n ≤ 64 * (i + j + 1)) : x.mul y = .error .oob :=
  Bits.mul_wide_oob (by omega) x y hx hy vx vy hi0 hi1 hj0 hj1 hij

/-- **C30 is false as stated**: `65535 * 65535` in 16 bits. -/
theorem C30_refuted : ¬ ∀ (n : Nat) (x y : Bits n false), 0 < n → x.Clean → y.Clean →
    ∃ z, x.mul y = .ok z ∧ z.bv = x.bv * y.bv := by
  intro H
  obtain ⟨z, hz, e⟩ := H 16 (Bits.ofInt 65535) (Bits.ofInt 65535) (by decide) (by decide +kernel) (by decide +kernel)
  rw [C30_u16_overflow (by decide) (by decide) _ _ (by decide +kernel) (by decide +kernel) (by decide +kernel)] at hz
  exact absurd hz (by simp)

/-- **C30 is false without the condition on the lower halves**: a chunk that is
only set in its upper half is overlooked, `(2^96 + 3) * 2` gives 6. -/
theorem C30_wide_refuted : ∃ (x y : Bits 192 false), x.Clean ∧ y.Clean ∧
    x.bv.toNat = 2 ^ 96 + 3 ∧ y.bv.toNat = 2 ∧ ∃ z, x.mul y = .ok z ∧ z.bv.toNat = 6 :=
  ⟨((Bits.ofInt 3 : Bits 192 false).set (Rng.down 192) 96 true).toOption.get!, Bits.ofInt 2,
    by decide +kernel, by decide +kernel, by decide +kernel, by decide +kernel,
    Bits.ofInt 6, by decide +kernel, by decide +kernel⟩

/-- **C30 for 4-state values** without x/z. Missing: products that overflow `int` or `int64_t`
(`C30_u16_overflow`, `C30_signed_overflow`), and wide products that are wrong or out of bounds
(`C30_wide_exact`). -/
theorem C30_mul_logic_partial (hn : 0 < n) (x : Lg n s) (y : Lg n t) (hx : x.Known) (hy : y.Known)
    (hu : s = false → t = false → 8 < n → n ≤ 16 → x.value.Clean ∧ y.value.Clean ∧
      x.value.bv.toNat * y.value.bv.toNat < 2 ^ 31)
    (hc : s = true → t = true → 16 < n → n ≤ 64 → x.value.Clean ∧ y.value.Clean ∧
      -2 ^ (if n ≤ 32 then 31 else 63) ≤ x.value.bv.toInt * y.value.bv.toInt ∧
      x.value.bv.toInt * y.value.bv.toInt < 2 ^ (if n ≤ 32 then 31 else 63))
    (hw : 64 < n → x.value.Clean ∧ y.value.Clean ∧ LowHalves x.value.bv ∧ LowHalves y.value.bv ∧
      ∃ a b, x.value.bv.toNat < 2 ^ (64 * a) ∧ y.value.bv.toNat < 2 ^ (64 * b) ∧
        64 * (a + b) < n + 64) :
    ∃ z, x.mul y = .ok z ∧ z.Known ∧
      ∀ i, i < n → z.at i = V4.ofBool ((x.value.bv * y.value.bv).getLsbD i) := by
  obtain ⟨v, hv, e⟩ := C30_mul_partial hn x.value y.value hu hc hw
  exact ⟨_, Lg.arithWith_known hx hy hv, Lg.known_zero v, fun i hi => by rw [Lg.known_mk_at v hi, e]⟩

example : Bits.num ((Bits.ofInt 200 : Bits 8 false).mul (Bits.ofInt 100 : Bits 8 false)) = some 32 := by
  decide +kernel
example : Bits.num ((Bits.ofInt (-1) : Bits 130 false).mul (Bits.ofInt 3 : Bits 130 false)) =
    some (3 * (2 ^ 64 - 1)) := by decide +kernel
-- the wide case of the partial theorem, a two-chunk operand times a one-chunk operand
example : let x := ((Bits.ofInt 3 : Bits 192 false).set (Rng.down 192) 70 true).toOption.get!
    x.Clean ∧ LowHalves x.bv ∧ x.bv.toNat < 2 ^ (64 * 2) ∧ 64 * (2 + 1) < 192 + 64 := by
  decide +kernel
-- the out-of-bounds case
example : let x := ((Bits.ofInt 3 : Bits 128 false).set (Rng.down 128) 70 true).toOption.get!
    x.Clean ∧ LowHalves x.bv ∧ 2 ^ (64 * 1) ≤ x.bv.toNat ∧ 128 ≤ 64 * (1 + 0 + 1) ∧
    x.mul (Bits.ofInt 1 : Bits 128 false) = .error .oob := by decide +kernel

/-! ## C31: unsigned division -/

/-- **C31, partial.** Quotient and remainder of clean unsigned operands; for wide
ones every non-zero 64-bit chunk must have a one in its lower half. The results
are clean. Missing: wide operands with a chunk that is only set in its upper half
(`C31_wide_refuted`). -/
theorem C31_div_partial (hn : 0 < n) (hN : n ≤ 2 ^ 32) (x y : Bits n false) (hx : x.Clean) (hy : y.Clean)
    (hy0 : y.bv ≠ 0) (hv : 64 < n → LowHalves x.bv ∧ LowHalves y.bv) :
    ∃ q r, x.div y = .ok q ∧ x.mod y = .ok r ∧ q.Clean ∧ r.Clean ∧
      x.bv.toNat = q.bv.toNat * y.bv.toNat + r.bv.toNat ∧ r.bv.toNat < y.bv.toNat := by
  have key : (∃ q, x.div y = .ok q ∧ q.Clean ∧ q.bv.toNat = x.bv.toNat / y.bv.toNat) ∧
    (∃ q, x.mod y = .ok q ∧ q.Clean ∧ q.bv.toNat = x.bv.toNat % y.bv.toNat) := by
    by_cases h : n ≤ 64
    · exact Bits.div_native h hn hx hy hy0
    · exact Bits.div_wide h hN hx hy (hv (by omega)).1 (hv (by omega)).2 hy0
  obtain ⟨⟨q, hq, cq, eq'⟩, ⟨r, hr, cr, er⟩⟩ := key
  have hpos : 0 < y.bv.toNat := by
    by_contra h
    apply hy0
    apply BitVec.eq_of_toNat_eq
    simp; omega
  refine ⟨q, r, hq, hr, cq, cr, ?_, ?_⟩
  · rw [eq', er, Nat.mul_comm]; exact (Nat.div_add_mod _ _).symm
  · rw [er]; exact Nat.mod_lt _ hpos

/-- **C31 is false for some wide values**: `5 / 2^40` gives 0 remainder 0. -/
theorem C31_wide_refuted : ∃ (x y : Bits 70 false), x.Clean ∧ y.Clean ∧ x.bv.toNat = 5 ∧
    y.bv.toNat = 2 ^ 40 ∧ ∃ r, x.mod y = .ok r ∧ r.bv.toNat = 0 :=
  ⟨Bits.ofInt 5, Bits.ofInt (2 ^ 40), by decide +kernel, by decide +kernel, by decide +kernel,
    by decide +kernel, Bits.zero, by decide +kernel, by decide +kernel⟩

/-- **C31 for 4-state values** without x/z. Missing: wide operands that the library's tests misjudge
(`C31_wide_exact`, `C15_refuted_all`). -/
theorem C31_div_logic_partial (hn : 0 < n) (hN : n ≤ 2 ^ 32) (x y : Lg n false) (hx : x.Known) (hy : y.Known)
    (cx : x.value.Clean) (cy : y.value.Clean) (hy0 : y.value.bv ≠ 0)
    (hv : 64 < n → LowHalves x.value.bv ∧ LowHalves y.value.bv) :
    ∃ q r, x.div y = .ok q ∧ x.mod y = .ok r ∧ q.Known ∧ r.Known ∧
      x.value.bv.toNat = q.value.bv.toNat * y.value.bv.toNat + r.value.bv.toNat ∧
      r.value.bv.toNat < y.value.bv.toNat := by
  obtain ⟨q, r, hq, hr, -, -, e1, e2⟩ := C31_div_partial hn hN x.value y.value cx cy hy0 hv
  have ha := Lg.anySet_of_ne cy hy0 (fun h => (hv (by omega)).2)
  exact ⟨⟨q, Bits.zero⟩, ⟨r, Bits.zero⟩, Lg.divWith_known hx hy ha hq, Lg.divWith_known hx hy ha hr,
    Lg.known_zero q, Lg.known_zero r, e1, e2⟩

example : Bits.num ((Bits.ofInt 200 : Bits 8 false).div (Bits.ofInt 7 : Bits 8 false)) = some 28 ∧
    Bits.num ((Bits.ofInt 200 : Bits 8 false).mod (Bits.ofInt 7 : Bits 8 false)) = some 4 := by decide +kernel
example : let x := ((Bits.ofInt 3 : Bits 70 false).set (Rng.down 70) 65 true).toOption.get!
    x.Clean ∧ LowHalves x.bv ∧
    Bits.num (x.div (Bits.ofInt 10 : Bits 70 false)) = some ((2 ^ 65 + 3) / 10) ∧
    Bits.num (x.mod (Bits.ofInt 10 : Bits 70 false)) = some ((2 ^ 65 + 3) % 10) := by decide +kernel

/-! ## C32: division by zero -/

/-- **C32.** 4-state division by zero is all x, whatever the dividend. -/
theorem C32_div_zero_logic (hn : 0 < n) (x : Lg n s) (y : Lg n t) (hy : y.value.Clean)
    (hy0 : y.value.bv = 0) :
    (∃ z, x.div y = .ok z ∧ ∀ i, i < n → z.at i = .x) ∧
    (∃ z, x.mod y = .ok z ∧ ∀ i, i < n → z.at i = .x) := by
  have h0 := Lg.anySet_of_eq hy hy0
  exact ⟨Lg.divWith_x hn (Or.inr (Or.inr h0)), Lg.divWith_x hn (Or.inr (Or.inr h0))⟩

/-- **C32.** 2-state limb-based division by zero gives 0. -/
theorem C32_div_zero_wide (h : 64 < n) (x : Bits n s) (y : Bits n t) (hy : y.Clean) (hy0 : y.bv = 0) :
    (∃ q, x.div y = .ok q ∧ q.bv = 0) ∧ (∃ q, x.mod y = .ok q ∧ q.bv = 0) :=
  Bits.div_wide_zero (by omega) x hy hy0

/-- Outside C32: 2-state native division by zero is undefined behaviour. -/
theorem C32_div_zero_native (h : n ≤ 64) (x y : Bits n false) (hy : y.Clean) (hy0 : y.bv = 0) :
    x.div y = .error .divZero ∧ x.mod y = .error .divZero :=
  Bits.div_native_zero h x y hy hy0

example : Lg.bits ((⟨Bits.ofInt 5, Bits.ofInt 0⟩ : Lg 3 false).div (⟨Bits.ofInt 0, Bits.ofInt 0⟩ : Lg 3 false))
    = some [.x, .x, .x] := by decide +kernel
example : Bits.num ((Bits.ofInt 5 : Bits 70 false).div (Bits.ofInt 0 : Bits 70 false)) = some 0 := by decide +kernel

/-! ## C33: x/z propagation -/

/-- **C33, partial.** An x/z bit that the emptiness test sees, in either operand,
makes every bit of the result x. Missing: x/z only in the upper halves of chunks
of a wide operand (`C33_wide_refuted`). -/
theorem C33_arith_x_partial (hn : 0 < n) (x : Lg n s) (y : Lg n t) (h : x.SeenXZ ∨ y.SeenXZ) :
    (∃ z, x.add y = .ok z ∧ ∀ i, i < n → z.at i = .x) ∧
    (∃ z, x.sub y = .ok z ∧ ∀ i, i < n → z.at i = .x) ∧
    (∃ z, x.mul y = .ok z ∧ ∀ i, i < n → z.at i = .x) ∧
    (∃ z, x.div y = .ok z ∧ ∀ i, i < n → z.at i = .x) ∧
    (∃ z, x.mod y = .ok z ∧ ∀ i, i < n → z.at i = .x) := by
  have ha : x.xz.anySet = true ∨ y.xz.anySet = true := by
    rcases h with ⟨i, h1, h2, h3⟩ | ⟨i, h1, h2, h3⟩
    · left; exact Lg.anySet_of_unknown h1 h2 h3
    · right; exact Lg.anySet_of_unknown h1 h2 h3
  have hd : x.xz.anySet = true ∨ y.xz.anySet = true ∨ y.value.anySet = false := by tauto
  exact ⟨Lg.arithWith_x hn ha, Lg.arithWith_x hn ha, Lg.arithWith_x hn ha, Lg.divWith_x hn hd,
    Lg.divWith_x hn hd⟩

/-- **C33 for native widths**, without restriction on where the x/z bit is. -/
theorem C33_arith_x_native (hn : 0 < n) (h64 : n ≤ 64) (x : Lg n s) (y : Lg n t) {i : Nat} (hi : i < n)
    (h : (x.at i).isKnown = false ∨ (y.at i).isKnown = false) :
    (∃ z, x.add y = .ok z ∧ ∀ i, i < n → z.at i = .x) ∧
    (∃ z, x.sub y = .ok z ∧ ∀ i, i < n → z.at i = .x) ∧
    (∃ z, x.mul y = .ok z ∧ ∀ i, i < n → z.at i = .x) ∧
    (∃ z, x.div y = .ok z ∧ ∀ i, i < n → z.at i = .x) ∧
    (∃ z, x.mod y = .ok z ∧ ∀ i, i < n → z.at i = .x) :=
  C33_arith_x_partial hn x y (h.imp (fun h => ⟨i, hi, Or.inl h64, h⟩) (fun h => ⟨i, hi, Or.inl h64, h⟩))

/-- **C33 is false for wide values**: bit 40 of a 70-bit operand is x, the sum has
no x. -/
theorem C33_wide_refuted : ∃ (x y : Lg 70 false), (x.at 40).isKnown = false ∧
    ∃ z, x.add y = .ok z ∧ z.Known :=
  ⟨⟨Bits.zero, Bits.ofInt (2 ^ 40)⟩, ⟨Bits.zero, Bits.zero⟩, by decide +kernel,
    ⟨Bits.zero, Bits.zero⟩, by decide +kernel, by decide +kernel⟩

example : Lg.bits ((⟨Bits.ofInt 5, Bits.ofInt 2⟩ : Lg 3 false).add (⟨Bits.ofInt 1, Bits.ofInt 0⟩ : Lg 3 false))
    = some [.x, .x, .x] := by decide +kernel
example : (⟨Bits.ofInt 5, Bits.ofInt 2⟩ : Lg 3 false).SeenXZ := ⟨1, by decide, by decide, by decide⟩

/-! ## C34: signed division -/

/-- **C34, partial.** For clean signed native operands and a non-zero divisor,
except `INT_MIN / -1` at 32 and 64 bits: the bits of the quotient are those of the
quotient truncated toward zero (`Int.tdiv`), the remainder is the one with the
sign of the dividend (`Int.tmod`). Missing: `INT_MIN / -1`, undefined behaviour
(`C34_refuted`). -/
theorem C34_div_partial (h : n ≤ 64) (h1 : 1 < n) (x y : Bits n true) (hx : x.Clean) (hy : y.Clean)
    (hy0 : y.bv ≠ 0) (hm : ¬ (x.bv.toInt = -2 ^ (n - 1) ∧ y.bv.toInt = -1 ∧ (n = 32 ∨ n = 64))) :
    (∃ q, x.div y = .ok q ∧ q.bv = BitVec.ofInt n (x.bv.toInt.tdiv y.bv.toInt) ∧
      (¬ (x.bv.toInt = -2 ^ (n - 1) ∧ y.bv.toInt = -1) → q.bv.toInt = x.bv.toInt.tdiv y.bv.toInt)) ∧
    (∃ r, x.mod y = .ok r ∧ r.bv.toInt = x.bv.toInt.tmod y.bv.toInt) := by
  obtain ⟨⟨q, hq, e⟩, ⟨r, hr, -, er⟩⟩ := Bits.div_signed h h1 hx hy hy0 hm
  refine ⟨⟨q, hq, e, ?_⟩, r, hr, er⟩
  intro hc
  have bx := Bits.clean_signed_bounds h h1 hx
  rw [bx.1] at bx
  have := Bits.tdiv_range (b := y.bv.toInt) (by positivity : (0 : Int) < 2 ^ (n - 1)) bx.2.1 bx.2.2
    (by intro e; apply hy0; apply BitVec.eq_of_toInt_eq; rw [e]; simp) hc
  rw [e, BitVec.toInt_ofInt]
  exact CTy.conv_signed_of_mem (w := n) (by omega) this.1 this.2

/-- **C34 is false as stated**: `INT_MIN / -1`. -/
theorem C34_refuted : ∃ (x y : Bits 32 true), x.Clean ∧ y.Clean ∧ y.bv ≠ 0 ∧
    x.div y = .error .overflow ∧ x.mod y = .error .overflow :=
  ⟨Bits.ofInt (-2 ^ 31), Bits.ofInt (-1), by decide +kernel, by decide +kernel, by decide +kernel,
    by decide +kernel, by decide +kernel⟩

/-- **C34 for 4-state values** without x/z. Missing: the least number divided by -1, which is
undefined at 32 and 64 bits (`C34_min_overflow`). -/
theorem C34_div_logic_partial (h : n ≤ 64) (h1 : 1 < n) (x y : Lg n true) (hx : x.Known) (hy : y.Known)
    (cx : x.value.Clean) (cy : y.value.Clean) (hy0 : y.value.bv ≠ 0)
    (hm : ¬ (x.value.bv.toInt = -2 ^ (n - 1) ∧ y.value.bv.toInt = -1)) :
    (∃ q, x.div y = .ok q ∧ q.Known ∧ q.value.bv.toInt = x.value.bv.toInt.tdiv y.value.bv.toInt) ∧
    (∃ r, x.mod y = .ok r ∧ r.Known ∧ r.value.bv.toInt = x.value.bv.toInt.tmod y.value.bv.toInt) := by
  obtain ⟨⟨q, hq, -, e⟩, ⟨r, hr, er⟩⟩ := C34_div_partial h h1 x.value y.value cx cy hy0 (fun hc => hm ⟨hc.1, hc.2.1⟩)
  have ha := Lg.anySet_of_ne cy hy0 (fun h' => absurd h h')
  exact ⟨⟨⟨q, Bits.zero⟩, Lg.divWith_known hx hy ha hq, Lg.known_zero q, e hm⟩,
    ⟨⟨r, Bits.zero⟩, Lg.divWith_known hx hy ha hr, Lg.known_zero r, er⟩⟩

-- -7 / 2 = -3 remainder -1 in 8 bits
example : (Bits.ofInt (-7) : Bits 8 true).Clean ∧
    Bits.num ((Bits.ofInt (-7) : Bits 8 true).div (Bits.ofInt 2 : Bits 8 true)) = some 253 ∧
    Bits.num ((Bits.ofInt (-7) : Bits 8 true).mod (Bits.ofInt 2 : Bits 8 true)) = some 255 := by
  decide +kernel

/-! ## C35: negation -/

/-- the most negative number of a signed 32 or 64-bit object -/
def IsMin (x : Bits n s) : Prop := s = true ∧ (n = 32 ∨ n = 64) ∧ x.bv.toInt = -2 ^ (n - 1)

theorem not_min (h : n ≤ 64) {x : Bits n s} (hc : s = true → 16 < n → x.Clean) (hm : ¬ IsMin x)
    (hs : s = true) (h16 : 16 < n) : x.nv.v ≠ -2 ^ (hw n - 1) := by
  subst hs
  obtain ⟨e, b0, b1⟩ := Bits.clean_signed_bounds h (by omega) (hc rfl h16)
  intro hx
  by_cases hn : n = 32 ∨ n = 64
  · apply hm
    refine ⟨rfl, hn, ?_⟩
    rw [← e, hx]
    rcases hn with e | e <;> subst e <;> rfl
  · have hlt : n ≤ hw n - 1 := by
      rw [hw_eq_of_gt h16]; split_ifs <;> omega
    have p : (2 : Int) ^ n ≤ 2 ^ (hw n - 1) := Bits.pow_mono hlt
    have p' : (2 : Int) ^ n = 2 ^ (n - 1) * 2 := by rw [← pow_succ]; congr 1; omega
    have p'' : (0 : Int) < 2 ^ (n - 1) := by positivity
    omega

/-- **C35, partial.** Unary minus on native values and `negate()` on all values.
Signed values wider than 16 bits have to be clean and must not be the most
negative 32 or 64-bit number, whose negation is undefined behaviour
(`C35_min_overflow`). Missing: that number; `C35_neg_iff` is the exact statement. -/
theorem C35_neg_partial (hn : 0 < n) (x : Bits n s) (hc : s = true → 16 < n → n ≤ 64 → x.Clean)
    (hm : ¬ IsMin x) :
    (∀ h : n ≤ 64, ∃ z, x.neg h = .ok z ∧ z.bv = - x.bv) ∧ (∃ z, x.negate = .ok z ∧ z.bv = - x.bv) := by
  constructor
  · intro h
    exact Bits.neg_native h hn x (not_min h (fun a b => hc a b h) hm)
  · by_cases h : n ≤ 64
    · obtain ⟨z, hz, -, e⟩ := Bits.negate_native h hn x (not_min h (fun a b => hc a b h) hm)
      exact ⟨z, hz, e⟩
    · exact Bits.negate_wide h x

/-- **C35.** `a + (-a)` reads 0, for native values of at least two bits. Missing: the least number
of 32 and 64 bits (`C35_min_overflow`), one bit, where `1 + 1` is 1 (`C28_one_bit`), and wide
values, whose unary minus does not compile. -/
theorem C35_add_neg_partial (hn : 1 < n) (h : n ≤ 64) (x : Bits n s) (hc : s = true → 16 < n → x.Clean)
    (hm : ¬ IsMin x) : ∃ z w, x.neg h = .ok z ∧ x.add z = .ok w ∧ w.bv = 0 := by
  have hnm := not_min h hc hm
  obtain ⟨z, hz, e⟩ := Bits.neg_native h (by omega) x hnm
  have hfit : hw n < 32 ∨ (s && s) = true → Bits.fits n (x.nv.v + z.nv.v) := by
    intro hs
    by_cases h16 : n ≤ 16
    · exact Bits.fits_addlike h hn x z (· + ·) (Or.inl rfl) (fun _ _ h' => by omega) hs
    · have h32 : ¬ hw n < 32 := by rw [hw_lt_iff]; omega
      have hst : s = true := by simpa using hs.resolve_left h32
      subst hst
      have hx := hnm rfl (by omega)
      obtain ⟨v, hv, e'⟩ := Bits.neg_exact h x hnm
      rw [Bits.neg, hv] at hz
      cases hz
      have b := Bits.nv_signed h hn x
      have e2 : (Bits.mkN h v : Bits n true).nv.v = - x.nv.v := by
        rw [Bits.nv_mkN]
        show (holderTy n true).conv v.v = _
        rw [holderTy_ge (by omega)]
        have h5 := ofInt_eq_iff.1 e'
        rw [← CTy.conv_signed_of_mem (w := hw n) (a := -x.nv.v) (hw_pos n) (by omega) (by omega)]
        show v.v.bmod (2 ^ hw n) = (-x.nv.v).bmod (2 ^ hw n)
        rw [← Int.emod_bmod v.v, h5, Int.emod_bmod]
      rw [e2]
      have p : (0 : Int) < 2 ^ (max 32 (hw n) - 1) := by positivity
      constructor <;> omega
  obtain ⟨w, hw', e2⟩ := Bits.add_native h hn x z hfit
  exact ⟨z, w, hz, hw', by rw [e2, e, BitVec.add_right_neg]; rfl⟩

/-- **C35, the excluded case.** The negation of the most negative signed 32 or
64-bit number is undefined behaviour. -/
theorem C35_min_overflow (h : n ≤ 64) (hn : n = 32 ∨ n = 64) (x : Bits n true) (hc : x.Clean)
    (hx : x.bv.toInt = -2 ^ (n - 1)) : x.neg h = .error .overflow := by
  have e := (Bits.clean_signed_bounds h (by omega) hc).1
  rw [Bits.neg, Bits.neg_overflow h (by omega) x (by
    rw [e, hx]; rcases hn with e | e <;> subst e <;> rfl)]
  rfl

/-- **C35 is false as stated**: `-INT_MIN`. -/
theorem C35_refuted : ¬ ∀ (n : Nat) (x : Bits n true) (h : n ≤ 64), 0 < n → x.Clean →
    ∃ z, x.neg h = .ok z ∧ z.bv = - x.bv := by
  intro H
  obtain ⟨z, hz, _⟩ := H 32 (Bits.ofInt (-2 ^ 31)) (by decide) (by decide) (by decide +kernel)
  rw [C35_min_overflow (by decide) (Or.inl rfl) _ (by decide +kernel) (by decide +kernel)] at hz
  exact absurd hz (by simp)

/-- **C35 for 4-state values** without x/z. Missing: the least number of 32 and 64 bits
(`C35_min_overflow`), and wide values, whose unary minus does not compile. -/
theorem C35_neg_logic_partial (hn : 0 < n) (h : n ≤ 64) (x : Lg n s) (hx : x.Known)
    (hc : s = true → 16 < n → n ≤ 64 → x.value.Clean) (hm : ¬ IsMin x.value) :
    ∃ z, x.neg h = .ok z ∧ z.Known ∧ ∀ i, i < n → z.at i = V4.ofBool ((- x.value.bv).getLsbD i) := by
  obtain ⟨v, hv, e⟩ := (C35_neg_partial hn x.value hc hm).1 h
  refine ⟨⟨v, Bits.zero⟩, ?_, Lg.known_zero v, fun i hi => by rw [Lg.known_mk_at v hi, e]⟩
  rw [Lg.neg, hx.anySet, hv]; rfl

example : Bits.num ((Bits.ofInt 5 : Bits 8 true).neg (by decide)) = some 251 := by decide +kernel
example : Bits.num ((Bits.ofInt 5 : Bits 70 true).negate) = some (2 ^ 70 - 5) := by decide +kernel
example : ¬ IsMin (Bits.ofInt 5 : Bits 32 true) ∧ (Bits.ofInt 5 : Bits 32 true).Clean :=
  ⟨fun h => absurd h.2.2 (by decide +kernel), by decide +kernel⟩

/-! ## C36: increment and decrement -/

/-- **C36, increment, partial.** Prefix and postfix `++` on values of at least two
bits. Missing: one bit values, where `++` always gives 1 (`C36_one_bit`). -/
theorem C36_inc_partial (hn : 1 < n) (x : Bits n s) :
    ∃ z, x.inc = .ok z ∧ z.bv = x.bv + 1 ∧ x.postInc = .ok (z, x) := by
  obtain ⟨v, hv, e⟩ := C28_add_partial hn x (Bits.oneN n) (fun _ h => absurd h (by decide))
  have hz : x.inc = .ok (v.toSign s) := by rw [Bits.inc, hv]; rfl
  refine ⟨v.toSign s, hz, ?_, ?_⟩
  · rw [Bits.bv_toSign, e, (Bits.oneN_spec (by omega)).2]
  · rw [Bits.postInc, hz]; rfl

/-- **C36, decrement.** Prefix and postfix `--` on every value. -/
theorem C36_dec (hn : 0 < n) (x : Bits n s) :
    ∃ z, x.dec = .ok z ∧ z.bv = x.bv - 1 ∧ x.postDec = .ok (z, x) := by
  obtain ⟨v, hv, e⟩ := C29_sub_partial hn x (Bits.oneN n) (fun _ h => absurd h (by decide))
  have hz : x.dec = .ok (v.toSign s) := by rw [Bits.dec, hv]; rfl
  refine ⟨v.toSign s, hz, ?_, ?_⟩
  · rw [Bits.bv_toSign, e, (Bits.oneN_spec (by omega)).2]
  · rw [Bits.postDec, hz]; rfl

/-- **C36, the excluded case.** One bit `++` gives 1 from 0 and from 1. -/
theorem C36_one_bit (x : Bits 1 s) : ∃ z, x.inc = .ok z ∧ z.bv = 1 := by
  obtain ⟨v, hv, e⟩ := C28_one_bit x (Bits.oneN 1)
  refine ⟨v.toSign s, by rw [Bits.inc, hv]; rfl, ?_⟩
  rw [Bits.bv_toSign, e, (Bits.oneN_spec (by omega)).2]
  rcases Bits.bv_one_cases x with ⟨-, h⟩ | ⟨-, h⟩ <;> rw [h] <;> decide

/-- **C36 for 4-state values** without x/z. Missing: `++` on one bit, which is wrong
(`C36_one_bit`). -/
theorem C36_inc_dec_logic_partial (hn : 1 < n) (x : Lg n s) (hx : x.Known) :
    (∃ z, x.inc = .ok z ∧ z.Known ∧ z.value.bv = x.value.bv + 1 ∧ x.postInc = .ok (z, x)) ∧
    (∃ z, x.dec = .ok z ∧ z.Known ∧ z.value.bv = x.value.bv - 1 ∧ x.postDec = .ok (z, x)) := by
  have hv1 : (Lg.one1.extend n).value = Bits.oneN n := rfl
  have hk1 : (Lg.one1.extend n).Known := by
    apply Lg.known_of_raw
    intro i
    show (Lg.one1.xz.extend n).raw i = false
    rw [Bits.raw_extend_unsigned (by decide) (by omega)]
    exact Lg.Known.raw (by decide +kernel) i
  constructor
  · obtain ⟨v, hv, e⟩ := C28_add_partial hn x.value (Bits.oneN n) (fun _ h => absurd h (by decide))
    have hz : x.inc = .ok (Lg.toSign s ⟨v, Bits.zero⟩) := by
      rw [Lg.inc, Lg.add, Lg.arithWith_known (v := v) hx hk1 hv]; rfl
    refine ⟨_, hz, Lg.known_of_raw fun i => Bits.raw_zero i, ?_, by rw [Lg.postInc, hz]; rfl⟩
    show (v.toSign s).bv = _
    rw [Bits.bv_toSign, e, (Bits.oneN_spec (by omega)).2]
  · obtain ⟨v, hv, e⟩ := C29_sub_partial (by omega) x.value (Bits.oneN n) (fun _ h => absurd h (by decide))
    have hz : x.dec = .ok (Lg.toSign s ⟨v, Bits.zero⟩) := by
      rw [Lg.dec, Lg.sub, Lg.arithWith_known (v := v) hx hk1 hv]; rfl
    refine ⟨_, hz, Lg.known_of_raw fun i => Bits.raw_zero i, ?_, by rw [Lg.postDec, hz]; rfl⟩
    show (v.toSign s).bv = _
    rw [Bits.bv_toSign, e, (Bits.oneN_spec (by omega)).2]

example : Bits.num ((Bits.ofInt 255 : Bits 8 false).inc) = some 0 := by decide +kernel
example : Bits.num ((Bits.ofInt 0 : Bits 70 true).dec) = some (2 ^ 70 - 1) := by decide +kernel

/-! ## C37: mixed widths -/

/-- **C37, addition and subtraction.** Clean unsigned operands of any two widths,
not both one bit wide. -/
theorem C37_add_sub_mixed (hn : 0 < n) (hm : 0 < m) (h1 : 1 < max n m) (x : Bits n false) (y : Bits m false)
    (hx : x.Clean) (hy : y.Clean) :
    (∃ z, x.addMix y = .ok z ∧ z.bv = x.bv.setWidth (max n m) + y.bv.setWidth (max n m)) ∧
    (∃ z, x.subMix y = .ok z ∧ z.bv = x.bv.setWidth (max n m) - y.bv.setWidth (max n m)) := by
  rw [← Bits.bv_extend_unsigned hn (Nat.le_max_left n m) hx, ← Bits.bv_extend_unsigned hm (Nat.le_max_right n m) hy]
  exact ⟨C28_add_partial h1 _ _ (fun h => absurd h (by decide)),
    C29_sub_partial (by omega) _ _ (fun h => absurd h (by decide))⟩

/-- **C37, multiplication, partial.** Different widths; if one is above 64, the
operands must have their chunks set in the lower half and there must be enough
chunks for the product. Missing: the other wide products (`C37_wide_refuted`). -/
theorem C37_mul_mixed_partial (hn : 0 < n) (hm : 0 < m) (hnm : n ≠ m) (x : Bits n false) (y : Bits m false)
    (hx : x.Clean) (hy : y.Clean)
    (hw : 64 < max n m → LowHalves x.bv ∧ LowHalves y.bv ∧
      ∃ a b, x.bv.toNat < 2 ^ (64 * a) ∧ y.bv.toNat < 2 ^ (64 * b) ∧ 64 * (a + b) < max n m + 64) :
    ∃ z, x.mulMix y = .ok z ∧ z.bv = x.bv.setWidth (max n m) * y.bv.setWidth (max n m) := by
  have ex := Bits.bv_extend_unsigned hn (Nat.le_max_left n m) hx
  have ey := Bits.bv_extend_unsigned hm (Nat.le_max_right n m) hy
  have cx := Bits.Clean.extend_unsigned hn (Nat.le_max_left n m) hx
  have cy := Bits.Clean.extend_unsigned hm (Nat.le_max_right n m) hy
  have tx : (x.extend (max n m)).bv.toNat = x.bv.toNat := by
    rw [ex, BitVec.toNat_setWidth]
    exact Nat.mod_eq_of_lt (lt_of_lt_of_le x.bv.isLt (Nat.pow_le_pow_right (by decide) (Nat.le_max_left n m)))
  have ty : (y.extend (max n m)).bv.toNat = y.bv.toNat := by
    rw [ey, BitVec.toNat_setWidth]
    exact Nat.mod_eq_of_lt (lt_of_lt_of_le y.bv.isLt (Nat.pow_le_pow_right (by decide) (Nat.le_max_right n m)))
  rw [← ex, ← ey]
  refine C30_mul_partial (by omega) _ _ ?_ (fun h => absurd h (by decide)) ?_
  · intro _ _ h8 h16
    rw [tx, ty]
    refine ⟨cx, cy, ?_⟩
    have a := x.bv.isLt
    have b := y.bv.isLt
    have hp : 2 ^ n * 2 ^ m ≤ 2 ^ 31 := by
      rw [← Nat.pow_add]; exact Nat.pow_le_pow_right (by decide) (by omega)
    exact lt_of_lt_of_le (Nat.mul_lt_mul'' a b) hp
  · intro h64
    obtain ⟨vx, vy, a, b, ha, hb, hab⟩ := hw h64
    rw [tx, ty]
    refine ⟨cx, cy, ?_, ?_, a, b, ha, hb, hab⟩
    · rw [ex]; exact lowHalves_setWidth (Nat.le_max_left n m) vx
    · rw [ey]; exact lowHalves_setWidth (Nat.le_max_right n m) vy

/-- **C37 for 4-state values** without x/z: the operation on the extended planes. -/
theorem C37_mixed_logic (hn : 0 < n) (hm : 0 < m) (h1 : 1 < max n m) (x : Lg n false) (y : Lg m false)
    (hx : x.Known) (hy : y.Known) (cx : x.value.Clean) (cy : y.value.Clean) :
    (∃ z, x.addMix y = .ok z ∧ z.Known ∧
      z.value.bv = x.value.bv.setWidth (max n m) + y.value.bv.setWidth (max n m)) ∧
    (∃ z, x.subMix y = .ok z ∧ z.Known ∧
      z.value.bv = x.value.bv.setWidth (max n m) - y.value.bv.setWidth (max n m)) := by
  have kx := hx.extend hn (Nat.le_max_left n m)
  have ky := hy.extend hm (Nat.le_max_right n m)
  obtain ⟨⟨v, hv, ev⟩, ⟨w, hw, ew⟩⟩ := C37_add_sub_mixed hn hm h1 x.value y.value cx cy
  exact ⟨⟨⟨v, Bits.zero⟩, Lg.arithWith_known kx ky hv, Lg.known_zero v, ev⟩,
    ⟨⟨w, Bits.zero⟩, Lg.arithWith_known kx ky hw, Lg.known_zero w, ew⟩⟩

/-- **C37 is false for some wide products**: 128 by 70 bits, `2^64 * 1` writes
outside the array. -/
theorem C37_wide_refuted : ∃ (x : Bits 128 false) (y : Bits 70 false), x.Clean ∧ y.Clean ∧
    x.bv.toNat = 2 ^ 64 ∧ y.bv.toNat = 1 ∧ x.mulMix y = .error .oob :=
  ⟨((Bits.zero : Bits 128 false).set (Rng.down 128) 64 true).toOption.get!, Bits.ofInt 1,
    by decide +kernel, by decide +kernel, by decide +kernel, by decide +kernel, by decide +kernel⟩

example : Bits.num ((Bits.ofInt 250 : Bits 8 false).addMix (Bits.ofInt 10 : Bits 4 false)) = some 4 := by
  decide +kernel
example : Bits.num ((Bits.ofInt 5 : Bits 8 false).subMix (Bits.ofInt 10 : Bits 70 false)) = some (2 ^ 70 - 5) := by
  decide +kernel
example : Bits.num ((Bits.ofInt 250 : Bits 8 false).mulMix (Bits.ofInt 10 : Bits 70 false)) = some 2500 := by
  decide +kernel

end Verif
