import Verif.Props.ArithExact

/-!
# Arithmetic on operands of different widths (C37, C120, C121)

Both operands are first extended to the larger width.
-/

namespace Verif

variable {n m : Nat} {s t : Bool}

theorem lowOnly_setWidth {k : Nat} (h : n ≤ k) (b : BitVec n) : LowOnly (b.setWidth k) ↔ LowOnly b := by
  constructor
  · intro hl p h1 h2
    by_cases hp : p < k
    · simpa [hp] using hl p h1 h2
    · exact BitVec.getLsbD_of_ge _ _ (by omega)
  · intro hl p h1 h2
    rw [BitVec.getLsbD_setWidth, hl p h1 h2, Bool.and_false]

theorem anyLow_setWidth {k : Nat} (h : n ≤ k) (b : BitVec n) : AnyLow (b.setWidth k) ↔ AnyLow b := by
  constructor
  · rintro ⟨p, h1, h2⟩
    rw [BitVec.getLsbD_setWidth, Bool.and_eq_true] at h2
    exact ⟨p, h1, h2.2⟩
  · rintro ⟨p, h1, h2⟩
    have : p < n := by
      by_contra hc
      rw [BitVec.getLsbD_of_ge _ _ (by omega)] at h2; cases h2
    refine ⟨p, h1, ?_⟩
    rw [BitVec.getLsbD_setWidth, decide_eq_true (by omega : p < k), h2]; rfl

theorem toNat_setWidth_le {k : Nat} (h : n ≤ k) (b : BitVec n) : (b.setWidth k).toNat = b.toNat := by
  rw [BitVec.toNat_setWidth]
  exact Nat.mod_eq_of_lt (lt_of_lt_of_le b.isLt (Nat.pow_le_pow_right (by decide) h))

theorem getLsbD_setWidth_le {k : Nat} (h : n ≤ k) (b : BitVec n) (i : Nat) :
    (b.setWidth k).getLsbD i = b.getLsbD i := by
  rw [BitVec.getLsbD_setWidth]
  by_cases hi : i < k
  · simp [hi]
  · rw [BitVec.getLsbD_of_ge b i (by omega), Bool.and_false]

/-! ## C37: products -/

/-- **C37, wide products, every pair of canonical operands**: as `C30_wide_exact`, on the
numbers of the operands. -/
theorem C37_mul_wide_exact (hn : 0 < n) (hm : 0 < m) (h : 64 < max n m) (x : Bits n false) (y : Bits m false)
    (hx : x.Clean) (hy : y.Clean) :
    (LowOnly x.bv ∧ LowOnly y.bv → ∃ z, x.mulMix y = .ok z ∧
      z.bv.toNat = (x.bv.toNat % 2 ^ 64) * (y.bv.toNat % 2 ^ 64) % 2 ^ max n m) ∧
    (¬ (LowOnly x.bv ∧ LowOnly y.bv) →
      ((∃ i j, x.bv.getLsbD i = true ∧ y.bv.getLsbD j = true ∧ max n m ≤ 64 * (i / 64 + j / 64 + 1)) →
        x.mulMix y = .error .oob) ∧
      (¬ (∃ i j, x.bv.getLsbD i = true ∧ y.bv.getLsbD j = true ∧ max n m ≤ 64 * (i / 64 + j / 64 + 1)) →
        ∃ z, x.mulMix y = .ok z ∧ z.bv.toNat = x.bv.toNat * y.bv.toNat % 2 ^ max n m)) := by
  have ex := Bits.bv_extend_unsigned hn (Nat.le_max_left n m) hx
  have ey := Bits.bv_extend_unsigned hm (Nat.le_max_right n m) hy
  have cx := Bits.Clean.extend_unsigned hn (Nat.le_max_left n m) hx
  have cy := Bits.Clean.extend_unsigned hm (Nat.le_max_right n m) hy
  have key := C30_wide_exact h (x.extend (max n m)) (y.extend (max n m)) cx cy
  rw [ex, ey] at key
  simp only [lowOnly_setWidth (Nat.le_max_left n m), lowOnly_setWidth (Nat.le_max_right n m),
    toNat_setWidth_le (Nat.le_max_left n m), toNat_setWidth_le (Nat.le_max_right n m),
    getLsbD_setWidth_le (Nat.le_max_left n m), getLsbD_setWidth_le (Nat.le_max_right n m)] at key
  refine ⟨key.1, fun hl => ⟨(key.2 hl).1, fun hne => ?_⟩⟩
  obtain ⟨z, hz, e⟩ := (key.2 hl).2 hne
  refine ⟨z, hz, ?_⟩
  rw [e, BitVec.toNat_mul, toNat_setWidth_le (Nat.le_max_left n m), toNat_setWidth_le (Nat.le_max_right n m)]

/-- **C37 is false at every pair of different widths of which one is above 97**: the product
of `2^96 + 3` and 2 is 6. -/
theorem C37_wide_refuted_all (h : 97 < n) (hm : 1 < m) (hmn : m < n) :
    ∃ (x : Bits n false) (y : Bits m false), x.Clean ∧ y.Clean ∧ x.bv.toNat = 2 ^ 96 + 3 ∧ y.bv.toNat = 2 ∧
      ∃ z, x.mulMix y = .ok z ∧ z.bv.toNat = 6 ∧
        z.bv ≠ x.bv.setWidth (max n m) * y.bv.setWidth (max n m) := by
  obtain ⟨x, cx, ex⟩ := Bits.exists_clean (s := false) (BitVec.ofNat n (2 ^ 96 + 3))
  obtain ⟨y, cy, ey⟩ := Bits.exists_clean (s := false) (BitVec.ofNat m 2)
  have p97 : 2 ^ 98 ≤ 2 ^ n := Nat.pow_le_pow_right (by decide) (by omega)
  have p2 : 2 ^ 2 ≤ 2 ^ m := Nat.pow_le_pow_right (by decide) (by omega)
  have nx : x.bv.toNat = 2 ^ 96 + 3 := by rw [ex, BitVec.toNat_ofNat, Nat.mod_eq_of_lt (by omega)]
  have ny : y.bv.toNat = 2 := by rw [ey, BitVec.toNat_ofNat, Nat.mod_eq_of_lt (by omega)]
  have hmax : max n m = n := by omega
  have lx : LowOnly x.bv := by
    intro p h1 h2
    rw [BitVec.getLsbD, nx]
    by_cases hp : p < 97
    · interval_cases p <;> first | omega | decide
    · exact Nat.testBit_lt_two_pow (lt_of_lt_of_le (by decide : 2 ^ 96 + 3 < 2 ^ 97)
        (Nat.pow_le_pow_right (by decide) (by omega)))
  have ly : LowOnly y.bv := by
    intro p h1 h2
    rw [BitVec.getLsbD, ny]
    exact Nat.testBit_lt_two_pow (lt_of_lt_of_le (by decide : 2 < 2 ^ 2) (Nat.pow_le_pow_right (by decide) (by omega)))
  obtain ⟨z, hz, e⟩ := (C37_mul_wide_exact (by omega) (by omega) (by omega) x y cx cy).1 ⟨lx, ly⟩
  have nz : z.bv.toNat = 6 := by
    rw [e, nx, ny, hmax]
    norm_num
    exact Nat.mod_eq_of_lt (by omega)
  refine ⟨x, y, cx, cy, nx, ny, z, hz, nz, fun hc => ?_⟩
  have := congrArg BitVec.toNat hc
  rw [nz, BitVec.toNat_mul, toNat_setWidth_le (Nat.le_max_left n m), toNat_setWidth_le (Nat.le_max_right n m),
    nx, ny, hmax, Nat.mod_eq_of_lt (by omega)] at this
  omega

/-- **C37, 4-state products** of values without x/z: the 2-state product of the value
planes. -/
theorem C37_mul_logic (hn : 0 < n) (hm : 0 < m) (x : Lg n false) (y : Lg m false) (hx : x.Known) (hy : y.Known)
    (v : Bits (max n m) false) (hv : x.value.mulMix y.value = .ok v) :
    ∃ z, x.mulMix y = .ok z ∧ z.Known ∧ z.value = v := by
  have kx := hx.extend hn (Nat.le_max_left n m)
  have ky := hy.extend hm (Nat.le_max_right n m)
  exact ⟨⟨v, Bits.zero⟩, Lg.arithWith_known kx ky hv, Lg.known_zero v, rfl⟩

/-! ## C120: division of unsigned operands of different widths -/

/-- **C120, partial.** Quotient and remainder of canonical unsigned operands of any two
widths; for wide ones every non-zero 64-bit chunk must have a one in its lower half.
Missing: the other wide operands (`C120_wide_exact`, `C120_wide_refuted`). -/
theorem C120_div_mixed_partial (hn : 0 < n) (hm : 0 < m) (hN : max n m ≤ 2 ^ 32) (x : Bits n false) (y : Bits m false)
    (hx : x.Clean) (hy : y.Clean) (hy0 : y.bv ≠ 0)
    (hv : 64 < max n m → LowHalves x.bv ∧ LowHalves y.bv) :
    ∃ q r, x.divMix y = .ok q ∧ x.modMix y = .ok r ∧ q.Clean ∧ r.Clean ∧
      x.bv.toNat = q.bv.toNat * y.bv.toNat + r.bv.toNat ∧ r.bv.toNat < y.bv.toNat := by
  have ex := Bits.bv_extend_unsigned hn (Nat.le_max_left n m) hx
  have ey := Bits.bv_extend_unsigned hm (Nat.le_max_right n m) hy
  have cx := Bits.Clean.extend_unsigned hn (Nat.le_max_left n m) hx
  have cy := Bits.Clean.extend_unsigned hm (Nat.le_max_right n m) hy
  have hne : (y.extend (max n m)).bv ≠ 0 := by
    rw [ey]; intro e
    have := congrArg BitVec.toNat e
    rw [toNat_setWidth_le (Nat.le_max_right n m)] at this
    exact hy0 (BitVec.eq_of_toNat_eq (by simpa using this))
  obtain ⟨q, r, hq, hr, cq, cr, e1, e2⟩ := C31_div_partial (by omega) hN _ _ cx cy hne (fun h => by
    rw [ex, ey]
    exact ⟨lowHalves_setWidth (Nat.le_max_left n m) (hv h).1, lowHalves_setWidth (Nat.le_max_right n m) (hv h).2⟩)
  rw [ey, toNat_setWidth_le (Nat.le_max_right n m)] at e1 e2
  rw [ex, toNat_setWidth_le (Nat.le_max_left n m)] at e1
  exact ⟨q, r, hq, hr, cq, cr, e1, e2⟩

/-- **C120, wide, every canonical operand**: as `C31_wide_exact`, on the numbers of the
operands. -/
theorem C120_wide_exact (hn : 0 < n) (hm : 0 < m) (h : 64 < max n m) (hN : max n m ≤ 2 ^ 32) (x : Bits n false)
    (y : Bits m false) (hx : x.Clean) (hy : y.Clean) :
    ∃ q r, x.divMix y = .ok q ∧ x.modMix y = .ok r ∧ q.Clean ∧ r.Clean ∧
      (¬ AnyLow y.bv → q.bv = 0 ∧ r.bv = 0) ∧
      (AnyLow y.bv →
        (y.bv.toNat % 2 ^ 64 = 1 ∧ LowOnly y.bv → q.bv.toNat = x.bv.toNat ∧ r.bv = 0) ∧
        (¬ (y.bv.toNat % 2 ^ 64 = 1 ∧ LowOnly y.bv) →
          (y.bv.toNat < x.bv.toNat ∧ LowOnly x.bv ∧ LowOnly y.bv →
            q.bv.toNat = (x.bv.toNat % 2 ^ 64) / (y.bv.toNat % 2 ^ 64) ∧
            r.bv.toNat = (x.bv.toNat % 2 ^ 64) % (y.bv.toNat % 2 ^ 64)) ∧
          (¬ (y.bv.toNat < x.bv.toNat ∧ LowOnly x.bv ∧ LowOnly y.bv) →
            q.bv.toNat = x.bv.toNat / y.bv.toNat ∧ r.bv.toNat = x.bv.toNat % y.bv.toNat))) := by
  have ex := Bits.bv_extend_unsigned hn (Nat.le_max_left n m) hx
  have ey := Bits.bv_extend_unsigned hm (Nat.le_max_right n m) hy
  have cx := Bits.Clean.extend_unsigned hn (Nat.le_max_left n m) hx
  have cy := Bits.Clean.extend_unsigned hm (Nat.le_max_right n m) hy
  obtain ⟨q, r, hq, hr, cq, cr, h0, h1⟩ := C31_wide_exact h hN (x.extend (max n m)) (y.extend (max n m)) cx cy
  rw [ey] at h0
  rw [ex, ey] at h1
  simp only [lowOnly_setWidth (Nat.le_max_left n m), lowOnly_setWidth (Nat.le_max_right n m),
    anyLow_setWidth (Nat.le_max_right n m),
    toNat_setWidth_le (Nat.le_max_left n m), toNat_setWidth_le (Nat.le_max_right n m)] at h0 h1
  refine ⟨q, r, hq, hr, cq, cr, h0, fun ha => ?_⟩
  obtain ⟨a, b⟩ := h1 ha
  refine ⟨fun h => ?_, fun h => ⟨(b h).1, fun hc => ?_⟩⟩
  · obtain ⟨a1, a2⟩ := a h
    exact ⟨by rw [a1, toNat_setWidth_le (Nat.le_max_left n m)], a2⟩
  · obtain ⟨b1, b2⟩ := (b h).2 hc
    rw [b1, b2, BitVec.toNat_udiv, BitVec.toNat_umod, toNat_setWidth_le (Nat.le_max_left n m),
      toNat_setWidth_le (Nat.le_max_right n m)]
    exact ⟨rfl, rfl⟩

/-- **C120 is false for every wide dividend width**: `x / 2^40` by a 41-bit to 64-bit divisor,
whose native division would be right, gives 0 remainder 0. -/
theorem C120_wide_refuted (h : 64 < n) (hN : n ≤ 2 ^ 32) (hm : 40 < m) (hm64 : m ≤ 64) (x : Bits n false)
    (hx : x.Clean) (hx0 : x.bv ≠ 0) :
    ∃ y : Bits m false, y.Clean ∧ y.bv.toNat = 2 ^ 40 ∧
      ∃ q r, x.divMix y = .ok q ∧ x.modMix y = .ok r ∧ q.bv = 0 ∧ r.bv = 0 ∧
        x.bv.toNat ≠ q.bv.toNat * y.bv.toNat + r.bv.toNat := by
  obtain ⟨y, cy, ey⟩ := Bits.exists_clean (s := false) (BitVec.ofNat m (2 ^ 40))
  have ny : y.bv.toNat = 2 ^ 40 := by
    rw [ey, BitVec.toNat_ofNat, Nat.mod_eq_of_lt (Nat.pow_lt_pow_right (by decide) hm)]
  obtain ⟨q, r, hq, hr, -, -, h0, -⟩ := C120_wide_exact (by omega) (by omega) (by omega) (by omega) x y hx cy
  obtain ⟨q0, r0⟩ := h0 (by rw [ey]; exact not_anyLow_pow (by decide))
  refine ⟨y, cy, ny, q, r, hq, hr, q0, r0, ?_⟩
  rw [q0, r0]
  intro e
  apply hx0
  apply BitVec.eq_of_toNat_eq
  simpa using e

/-- **C120, zero divisors**: undefined behaviour for two native operands, 0 and 0 if one is
wide. -/
theorem C120_div_zero (hn : 0 < n) (hm : 0 < m) (x : Bits n false) (y : Bits m false)
    (hy : y.Clean) (hy0 : y.bv = 0) :
    (max n m ≤ 64 → x.divMix y = .error .divZero ∧ x.modMix y = .error .divZero) ∧
    (64 < max n m → (∃ q, x.divMix y = .ok q ∧ q.bv = 0) ∧ ∃ r, x.modMix y = .ok r ∧ r.bv = 0) := by
  have ey := Bits.bv_extend_unsigned hm (Nat.le_max_right n m) hy
  have cy := Bits.Clean.extend_unsigned hm (Nat.le_max_right n m) hy
  have h0 : (y.extend (max n m)).bv = 0 := by
    rw [ey, hy0]
    apply BitVec.eq_of_toNat_eq
    rw [toNat_setWidth_le (Nat.le_max_right n m)]; simp
  exact ⟨fun h => C32_div_zero_native h _ _ cy h0, fun h => C32_div_zero_wide h _ _ cy h0⟩

/-- **C120, 4-state** values without x/z: the 2-state results when the divisor passes
`any_set()`, all x when it is zero. -/
theorem C120_div_logic (hn : 0 < n) (hm : 0 < m) (x : Lg n false) (y : Lg m false)
    (hx : x.Known) (hy : y.Known) (cy : y.value.Clean) :
    (y.value.bv = 0 → (∃ z, x.divMix y = .ok z ∧ ∀ i, i < max n m → z.at i = .x) ∧
      ∃ z, x.modMix y = .ok z ∧ ∀ i, i < max n m → z.at i = .x) ∧
    (y.value.bv ≠ 0 → (64 < max n m → LowHalves y.value.bv) →
      (∀ q, x.value.divMix y.value = .ok q → ∃ z, x.divMix y = .ok z ∧ z.Known ∧ z.value = q) ∧
      ∀ r, x.value.modMix y.value = .ok r → ∃ z, x.modMix y = .ok z ∧ z.Known ∧ z.value = r) := by
  have kx := hx.extend hn (Nat.le_max_left n m)
  have ky := hy.extend hm (Nat.le_max_right n m)
  have ey := Bits.bv_extend_unsigned hm (Nat.le_max_right n m) cy
  have cy' := Bits.Clean.extend_unsigned hm (Nat.le_max_right n m) cy
  constructor
  · intro h0
    apply C32_div_zero_logic (by omega) (x.extend (max n m)) (y.extend (max n m)) cy'
    show (y.value.extend (max n m)).bv = 0
    rw [ey, h0]
    apply BitVec.eq_of_toNat_eq
    rw [toNat_setWidth_le (Nat.le_max_right n m)]; simp
  · intro hne hl
    have hne' : (y.value.extend (max n m)).bv ≠ 0 := by
      rw [ey]; intro e
      have := congrArg BitVec.toNat e
      rw [toNat_setWidth_le (Nat.le_max_right n m)] at this
      exact hne (BitVec.eq_of_toNat_eq (by simpa using this))
    have ha := Lg.anySet_of_ne cy' hne' (fun h => by
      rw [ey]; exact lowHalves_setWidth (Nat.le_max_right n m) (hl (by omega)))
    exact ⟨fun q hq => ⟨⟨q, Bits.zero⟩, Lg.divWith_known kx ky ha hq, Lg.known_zero q, rfl⟩,
      fun r hr => ⟨⟨r, Bits.zero⟩, Lg.divWith_known kx ky ha hr, Lg.known_zero r, rfl⟩⟩

example : Bits.num ((Bits.ofInt 200 : Bits 8 false).divMix (Bits.ofInt 7 : Bits 4 false)) = some 28 ∧
    Bits.num ((Bits.ofInt 200 : Bits 8 false).modMix (Bits.ofInt 7 : Bits 70 false)) = some 4 := by decide +kernel
/-- a canonical object with the given bits, for the examples -/
private def obj (n : Nat) (b : Nat) : Bits n false :=
  (List.range n).foldl (fun x i => if b.testBit i then (x.set (Rng.down n) i true).toOption.get! else x)
    Bits.zero

example : ((obj 128 (2 ^ 100 + 9)).divMix (obj 70 6)).map (·.bv.toNat) = .ok 1 ∧
    ((obj 128 (2 ^ 90 + 9)).divMix (obj 40 6)).map (·.bv.toNat) = .ok ((2 ^ 90 + 9) / 6) := by
  decide +kernel

/-! ## C121: 4-state arithmetic on different widths propagates x -/

/-- the x/z bits of an operand that the emptiness test sees after the extension to `k` bits -/
def Lg.SeenAt (k : Nat) (x : Lg n s) : Prop :=
  ∃ i, i < n ∧ (k ≤ 64 ∨ i % 64 < 32) ∧ (x.at i).isKnown = false

theorem Lg.seen_extend {k : Nat} (hn : 0 < n) (h : n ≤ k) {x : Lg n s} (hx : x.xz.Clean) :
    (x.extend k).SeenXZ ↔ x.SeenAt k := by
  have hb : ∀ i, (x.extend k).xz.bv.getLsbD i = x.xz.bv.getLsbD i := fun i => by
    show (x.xz.extend k).bv.getLsbD i = _
    rw [Bits.bv_extend_unsigned hn h hx, getLsbD_setWidth_le h]
  have hk : ∀ i, ((x.extend k).at i).isKnown = (x.at i).isKnown := fun i => by
    rw [Lg.at, Lg.at, isKnown_mk, isKnown_mk, hb]
  constructor
  · rintro ⟨i, hi, hs, hu⟩
    rw [hk] at hu
    refine ⟨i, ?_, hs, hu⟩
    by_contra hc
    rw [Lg.at, isKnown_mk, BitVec.getLsbD_of_ge x.xz.bv i (by omega)] at hu
    cases hu
  · rintro ⟨i, hi, hs, hu⟩
    exact ⟨i, by omega, hs, by rw [hk]; exact hu⟩

/-- **C121, exactly.** Sum, difference and product of vectors of different widths are all x
if and only if an operand has an x or z: anywhere if the larger width is native, in the
lower half of a 64-bit chunk otherwise. -/
theorem C121_mixed_x_iff (hn : 0 < n) (hm : 0 < m) (x : Lg n s) (y : Lg m t) (hx : x.xz.Clean) (hy : y.xz.Clean) :
    ((∃ z, x.addMix y = .ok z ∧ ∀ i, i < max n m → z.at i = .x) ↔
      x.SeenAt (max n m) ∨ y.SeenAt (max n m)) ∧
    ((∃ z, x.subMix y = .ok z ∧ ∀ i, i < max n m → z.at i = .x) ↔
      x.SeenAt (max n m) ∨ y.SeenAt (max n m)) ∧
    ((∃ z, x.mulMix y = .ok z ∧ ∀ i, i < max n m → z.at i = .x) ↔
      x.SeenAt (max n m) ∨ y.SeenAt (max n m)) := by
  rw [← Lg.seen_extend hn (Nat.le_max_left n m) hx, ← Lg.seen_extend hm (Nat.le_max_right n m) hy]
  exact C33_arith_x_iff (by omega) (x.extend (max n m)) (y.extend (max n m))
    (Bits.Clean.extend_unsigned hn (Nat.le_max_left n m) hx) (Bits.Clean.extend_unsigned hm (Nat.le_max_right n m) hy)

/-- **C121, quotient and remainder**: all x for every such x/z. Missing: the x and z that the
emptiness test of a wide result does not see (`C121_mixed_x_iff`, `C121_wide_refuted`). -/
theorem C121_div_x_partial (hn : 0 < n) (hm : 0 < m) (x : Lg n s) (y : Lg m t) (hx : x.xz.Clean) (hy : y.xz.Clean)
    (h : x.SeenAt (max n m) ∨ y.SeenAt (max n m)) :
    (∃ z, x.divMix y = .ok z ∧ ∀ i, i < max n m → z.at i = .x) ∧
    (∃ z, x.modMix y = .ok z ∧ ∀ i, i < max n m → z.at i = .x) := by
  rw [← Lg.seen_extend hn (Nat.le_max_left n m) hx, ← Lg.seen_extend hm (Nat.le_max_right n m) hy] at h
  exact (C33_arith_x_partial (by omega) (x.extend (max n m)) (y.extend (max n m)) h).2.2.2

/-- **C121 is false for every native operand of more than 40 bits that meets a wide one**:
an x at bit 40, which the operand itself reports, disappears in the sum. -/
theorem C121_wide_refuted (h : 40 < n) (hn : n ≤ 64) (hm : 64 < m) (a : Bits n false) (b : Bits m false)
    (ha : a.Clean) (hb : b.Clean) :
    ∃ (x : Lg n false) (y : Lg m false), x.value = a ∧ y.value = b ∧ (x.at 40).isKnown = false ∧
      x.xz.anySet = true ∧ ∃ z, x.addMix y = .ok z ∧ z.Known ∧
        z.value.bv = a.bv.setWidth (max n m) + b.bv.setWidth (max n m) := by
  obtain ⟨k, ck, ek⟩ := Bits.exists_clean (s := false) (BitVec.ofNat n (2 ^ 40))
  have hkb : ∀ i, k.bv.getLsbD i = (decide (i < n) && decide (40 = i)) := by
    intro i; rw [ek, BitVec.getLsbD_ofNat, Nat.testBit_two_pow]
  have h40 : ((⟨a, k⟩ : Lg n false).at 40).isKnown = false := by
    rw [Lg.at, isKnown_mk, hkb, decide_eq_true h]; rfl
  have hmax : 64 < max n m := by omega
  obtain ⟨⟨v, hv, ev⟩, -⟩ := C37_add_sub_mixed (by omega) (by omega) (by omega) a b ha hb
  have kb := (Lg.known_zero b).extend (by omega) (Nat.le_max_right n m)
  have cy : ((⟨b, Bits.zero⟩ : Lg m false).extend (max n m)).xz.Clean := kb.1
  obtain ⟨z, hz, hzk, hzv⟩ := (C33_unseen_exact ((⟨a, k⟩ : Lg n false).extend (max n m))
    ((⟨b, Bits.zero⟩ : Lg m false).extend (max n m))
    (Bits.Clean.extend_unsigned (by omega) (Nat.le_max_left n m) ck) cy (by
      rw [Lg.seen_extend (by omega) (Nat.le_max_left n m) ck]
      rintro ⟨i, hi, hs, hu⟩
      rw [Lg.at, isKnown_mk, hkb] at hu
      have : 40 = i := by simpa [hi] using hu
      omega) (by
      rintro ⟨i, hi, -, hc⟩; rw [kb.2 i hi] at hc; cases hc) v).1 hv
  exact ⟨⟨a, k⟩, ⟨b, Bits.zero⟩, rfl, rfl, h40, Lg.anySet_of_unknown h (Or.inl hn) h40, z, hz, hzk,
    by rw [hzv, ev]⟩

example : ((Lg.dflt : Res (Lg 3 false)).bind fun x => x.addMix (Lg.ofInt 5 : Lg 8 false)).map
    (fun z => (List.range 8).map z.at) = .ok (List.replicate 8 .x) := by decide +kernel

end Verif
