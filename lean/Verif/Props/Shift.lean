import Verif.Lemmas.Planes
import Verif.Show

/-!
# Shifts (C24 - C27)

The amount `y` is any object of any width that denotes the number `k`
(`numOf t y.bv = k`). `x.bv` is the bit vector of the shifted value; `>>>`, `<<<`
and `sshiftRight` are the bit vector shifts of Lean's core library: `>>>` and
`<<<` fill with zeros and give zero for amounts of at least the width.
-/

namespace Verif

variable {n m : Nat} {s t : Bool}

/-! ## C24: logical right shift -/

/-- **C24, partial.** Holds for wide values with every amount, and for native
values with amounts below the width. Missing: native values with an amount of at
least the width, where the code has undefined behaviour
(`C24_native_shift_ge`). -/
theorem C24_shr_partial (hn : 0 < n) (hN : n ≤ 2 ^ 32) (x : Bits n s) (y : Bits m t) (hy : y.Clean)
    (k : Nat) (hk : numOf t y.bv = k) (hrange : n ≤ 64 → m ≤ 64 ∧ k < n) :
    ∃ z, x.shr y = .ok z ∧ z.bv = x.bv >>> k := by
  by_cases h : n ≤ 64
  · obtain ⟨hm, hkn⟩ := hrange h
    obtain ⟨z, hz, hr⟩ := Bits.shr_native h hn hm x y (Bits.amount_native hm hy hk) hkn
    refine ⟨z, hz, ?_⟩
    apply BitVec.eq_of_getLsbD_eq
    intro i hi
    rw [Bits.getLsbD_bv, hr, BitVec.getLsbD_ushiftRight, Bits.getLsbD_bv, Nat.add_comm k i]
    simp [hi]
  · obtain ⟨z, hz, _, hb⟩ := Bits.shr_wide h hN x hy hk
    exact ⟨z, hz, hb⟩

/-- **C24, the excluded case.** Every native shift by at least the width is
undefined behaviour (the result mask is built by shifting a 64-bit constant by 64
or more). -/
theorem C24_native_shift_ge (h : n ≤ 64) (hm : m ≤ 64) (x : Bits n s) (y : Bits m t) (hy : y.Clean)
    (k : Nat) (hk : numOf t y.bv = k) (hkn : n ≤ k) (hk2 : k < 2 ^ 31) :
    x.shr y = .error .shift :=
  Bits.shr_native_ge h hm x y (Bits.amount_native hm hy hk) hkn hk2

/-- **C24 is false as stated**: an 8-bit value shifted right by 8. -/
theorem C24_refuted : ¬ ∀ (n m k : Nat) (x : Bits n false) (y : Bits m false), 0 < n → y.Clean →
    numOf false y.bv = k → ∃ z, x.shr y = .ok z ∧ z.bv = x.bv >>> k := by
  intro H
  obtain ⟨z, hz, _⟩ := H 8 8 8 (Bits.ofInt 200) (Bits.ofInt 8) (by decide) (by decide +kernel) (by decide)
  have : (Bits.ofInt 200 : Bits 8 false).shr (Bits.ofInt 8 : Bits 8 false) = .error .shift := by
    decide +kernel
  rw [this] at hz
  exact absurd hz (by simp)

/-- **C24 for 4-state values** without x/z: bit `i` of the result is bit `i + k`
of the operand, or 0. Missing: native amounts of at least the width, which are undefined
(`C24_native_shift_ge`), and wide amounts of native values, which do not compile. -/
theorem C24_shr_logic_partial (hn : 0 < n) (hN : n ≤ 2 ^ 32) (x : Lg n s) (y : Lg m t) (hx : x.Known)
    (hy : y.Known) (hyc : y.value.Clean) (k : Nat) (hk : numOf t y.value.bv = k)
    (hrange : n ≤ 64 → m ≤ 64 ∧ k < n) :
    ∃ z, x.shr y = .ok z ∧ ∀ i, i < n → z.at i = if i + k < n then x.at (i + k) else .b0 := by
  obtain ⟨v, hv, bv⟩ := C24_shr_partial hn hN x.value y.value hyc k hk hrange
  obtain ⟨p, hp, bp⟩ := C24_shr_partial hn hN x.xz y.value hyc k hk hrange
  refine ⟨⟨v, p⟩, Lg.shiftWith_known hn Bits.shr hx hy hv hp, ?_⟩
  intro i hi
  rw [Lg.at]
  show V4.mk (v.bv.getLsbD i) (BitVec.getLsbD (Bits.bv p) i) = _
  rw [bv, bp, BitVec.getLsbD_ushiftRight, BitVec.getLsbD_ushiftRight, Nat.add_comm k i]
  by_cases h : i + k < n
  · rw [if_pos h, Lg.at]
  · rw [if_neg h, BitVec.getLsbD_of_ge _ _ (by omega), BitVec.getLsbD_of_ge _ _ (by omega)]; rfl

-- native, wide by a native amount, wide by a wide amount above 64 bits
example : Bits.num ((Bits.ofInt 0xB4 : Bits 8 false).shr (Bits.ofInt 3 : Bits 4 false)) = some 0x16 := by
  decide +kernel
example : Bits.num ((Bits.ofInt 0xB4 : Bits 70 false).shr (Bits.ofInt 3 : Bits 4 true)) = some 0x16 := by
  decide +kernel
example : Bits.num ((Bits.ofInt 0xB4 : Bits 70 false).shr ((Bits.zero : Bits 80 false).set (Rng.down 80) 75 true).toOption.get!) =
  some 0 := by decide +kernel

/-! ## C25: logical left shift -/

/-- **C25, partial.** Holds for wide values with every amount and for native
values of at least two bits with an amount below 32 (widths up to 32) or 64.
Missing: larger amounts (undefined behaviour, `C25_native_shift_ge`) and one bit
values (`C25_one_bit_refuted`). -/
theorem C25_shl_partial (hN : n ≤ 2 ^ 32) (x : Bits n s) (y : Bits m t) (hy : y.Clean)
    (k : Nat) (hk : numOf t y.bv = k)
    (hrange : n ≤ 64 → m ≤ 64 ∧ 1 < n ∧ k < if n ≤ 32 then 32 else 64) :
    ∃ z, x.shl y = .ok z ∧ z.bv = x.bv <<< k := by
  by_cases h : n ≤ 64
  · obtain ⟨hm, h1, hkn⟩ := hrange h
    refine Bits.shl_native h h1 hm x y (Bits.amount_native hm hy hk) ?_
    have : (if n ≤ 32 then 32 else 64) = max 32 (hw n) := by simp only [hw]; split_ifs <;> omega
    omega
  · obtain ⟨z, hz, _, hb⟩ := Bits.shl_wide h hN x hy hk
    exact ⟨z, hz, hb⟩

/-- **C25, an excluded case.** A native left shift by at least the width of the
promoted holder is undefined behaviour (shown up to 127, beyond which the amount
is first truncated to the holder type). The same holds for `ashr`. -/
theorem C25_native_shift_ge (h : n ≤ 64) (h1 : 1 < n) (hm : m ≤ 64) (x : Bits n s) (y : Bits m t)
    (hy : y.Clean) (k : Nat) (hk : numOf t y.bv = k) (hkn : (if n ≤ 32 then 32 else 64) ≤ k)
    (hk2 : k < 128) : x.shl y = .error .shift ∧ x.ashr y = .error .shift := by
  refine Bits.shl_native_ge h h1 hm x y (Bits.amount_native hm hy hk) ?_ hk2
  have : (if n ≤ 32 then 32 else 64) = max 32 (hw n) := by simp only [hw]; split_ifs <;> omega
  omega

/-- **C25 is false for one bit values**: `1 << 1` is 1. -/
theorem C25_one_bit_refuted : ∃ (x : Bits 1 false) (y : Bits 2 false), y.Clean ∧
    numOf false y.bv = (1 : Nat) ∧ ∃ z, x.shl y = .ok z ∧ z.bv ≠ x.bv <<< 1 :=
  ⟨Bits.ofInt 1, Bits.ofInt 1, by decide +kernel, by decide, Bits.ofInt 1, by decide +kernel,
    by decide +kernel⟩

/-- **C25 is false as stated**: the shifted value is truncated to 32 bits, an
8-bit amount of 255 in a 16-bit value is undefined behaviour. -/
theorem C25_refuted : ¬ ∀ (n m k : Nat) (x : Bits n false) (y : Bits m false), 1 < n → y.Clean →
    numOf false y.bv = k → ∃ z, x.shl y = .ok z ∧ z.bv = x.bv <<< k := by
  intro H
  obtain ⟨z, hz, _⟩ := H 16 8 255 (Bits.ofInt 200) (Bits.ofInt 255) (by decide) (by decide +kernel) (by decide)
  have : (Bits.ofInt 200 : Bits 16 false).shl (Bits.ofInt 255 : Bits 8 false) = .error .shift := by
    decide +kernel
  rw [this] at hz
  exact absurd hz (by simp)

/-- **C25 for 4-state values** without x/z. Missing: native amounts outside the promoted type
(`C25_native_exact`) and one-bit values (`C25_one_bit_exact`), for which it is false. -/
theorem C25_shl_logic_partial (hn : 0 < n) (hN : n ≤ 2 ^ 32) (x : Lg n s) (y : Lg m t) (hx : x.Known)
    (hy : y.Known) (hyc : y.value.Clean) (k : Nat) (hk : numOf t y.value.bv = k)
    (hrange : n ≤ 64 → m ≤ 64 ∧ 1 < n ∧ k < if n ≤ 32 then 32 else 64) :
    ∃ z, x.shl y = .ok z ∧ ∀ i, i < n → z.at i = if k ≤ i then x.at (i - k) else .b0 := by
  obtain ⟨v, hv, bv⟩ := C25_shl_partial hN x.value y.value hyc k hk hrange
  obtain ⟨p, hp, bp⟩ := C25_shl_partial hN x.xz y.value hyc k hk hrange
  refine ⟨⟨v, p⟩, Lg.shiftWith_known hn Bits.shl hx hy hv hp, ?_⟩
  intro i hi
  rw [Lg.at]
  show V4.mk (v.bv.getLsbD i) (BitVec.getLsbD (Bits.bv p) i) = _
  rw [bv, bp, BitVec.getLsbD_shiftLeft, BitVec.getLsbD_shiftLeft]
  by_cases h : k ≤ i
  · rw [if_pos h, Lg.at]; simp [hi, show ¬ i < k by omega]
  · rw [if_neg h]; simp [show i < k by omega]; rfl

example : Bits.num ((Bits.ofInt 0xB4 : Bits 8 true).shl (Bits.ofInt 3 : Bits 4 false)) = some 0xA0 := by
  decide +kernel
example : Bits.num ((Bits.ofInt 1 : Bits 70 false).shl (Bits.ofInt 69 : Bits 8 false)) = some (2 ^ 69) := by
  decide +kernel
example : Bits.num ((Bits.ofInt 1 : Bits 70 false).shl (Bits.ofInt 70 : Bits 8 false)) = some 0 := by
  decide +kernel

/-! ## C26: arithmetic right shift -/

/-- the mathematical arithmetic shift of an object of signedness `s` -/
def ashrSpec (s : Bool) {n : Nat} (b : BitVec n) (k : Nat) : BitVec n :=
  if s then b.sshiftRight k else b >>> k

/-- **C26, partial.** Holds for native canonical values of at least two bits with
amounts below 32 (64), and for unsigned wide values with every amount. Missing:
signed wide values (`C26_wide_signed_exact`, `C26_wide_refuted`) and larger
native amounts (`C25_native_shift_ge`). -/
theorem C26_ashr_partial (hN : n ≤ 2 ^ 32) (x : Bits n s) (y : Bits m t) (hx : x.Clean) (hy : y.Clean)
    (k : Nat) (hk : numOf t y.bv = k) (hwide : 64 < n → s = false)
    (hrange : n ≤ 64 → m ≤ 64 ∧ 1 < n ∧ k < if n ≤ 32 then 32 else 64) :
    ∃ z, x.ashr y = .ok z ∧ z.bv = ashrSpec s x.bv k := by
  by_cases h : n ≤ 64
  · obtain ⟨hm, h1, hkn⟩ := hrange h
    have : (if n ≤ 32 then 32 else 64) = max 32 (hw n) := by simp only [hw]; split_ifs <;> omega
    obtain ⟨z, hz, _, hb⟩ :=
      Bits.ashr_native h h1 hm x y (Bits.amount_native hm hy hk) (by omega)
    refine ⟨z, hz, ?_⟩
    rw [hb, ashrSpec]
    cases s with
    | true =>
      rw [(Bits.clean_signed_bounds h h1 hx).1, if_pos rfl, BitVec.sshiftRight, Int.shiftRight_eq_div_pow]
      push_cast; rfl
    | false =>
      rw [(Bits.clean_unsigned_bounds h hx).1, if_neg (by decide)]
      rw [show ((x.bv.toNat : Int) / 2 ^ k) = ((x.bv.toNat / 2 ^ k : Nat) : Int) by push_cast; rfl,
        ofInt_natCast]
      apply BitVec.eq_of_toNat_eq
      rw [BitVec.toNat_ofNat, BitVec.toNat_ushiftRight, Nat.shiftRight_eq_div_pow]
      exact Nat.mod_eq_of_lt (Nat.lt_of_le_of_lt (Nat.div_le_self _ _) x.bv.isLt)
  · have hs := hwide (by omega)
    subst hs
    obtain ⟨z, hz, _, hb⟩ := Bits.ashr_wide_unsigned h hN x hy hk
    exact ⟨z, hz, by rw [hb]; rfl⟩

/-- **C26, exact behaviour of signed wide values.** Every bit is right except the
bit at `n - 1 - k`, which is never written and reads 0. -/
theorem C26_wide_signed_exact (h : 64 < n) (hN : n ≤ 2 ^ 32) (x : Bits n true) (y : Bits m t)
    (hy : y.Clean) (k : Nat) (hk : numOf t y.bv = k) :
    ∃ z, x.ashr y = .ok z ∧ ∀ i, i < n → z.bv.getLsbD i =
      if k < n ∧ i = n - 1 - k then false else (ashrSpec true x.bv k).getLsbD i := by
  obtain ⟨z, hz, hb⟩ := Bits.ashr_wide_signed (by omega) hN x hy hk
  refine ⟨z, hz, fun i hi => ?_⟩
  rw [hb i hi]
  have : (k < n ∧ i + k + 1 = n) ↔ (k < n ∧ i = n - 1 - k) := by omega
  simp only [this, ashrSpec, if_true]

/-- **C26 is false for every signed wide value that is negative**: any amount
below the width loses the sign bit copy. -/
theorem C26_wide_refuted (h : 64 < n) (hN : n ≤ 2 ^ 32) (x : Bits n true) (hneg : x.bv.msb = true)
    (y : Bits m t) (hy : y.Clean) (k : Nat) (hk : numOf t y.bv = k) (hkn : k < n) :
    ∃ z, x.ashr y = .ok z ∧ z.bv ≠ ashrSpec true x.bv k := by
  obtain ⟨z, hz, hb⟩ := C26_wide_signed_exact h hN x y hy k hk
  refine ⟨z, hz, fun e => ?_⟩
  have h1 := hb (n - 1 - k) (by omega)
  rw [if_pos ⟨hkn, rfl⟩, e, ashrSpec, if_pos rfl, BitVec.getLsbD_sshiftRight] at h1
  rw [BitVec.msb_eq_getLsbD_last] at hneg
  rw [show k + (n - 1 - k) = n - 1 by omega, hneg] at h1
  simp at h1
  omega

-- -0x4c >> 2 in 8 and 12 bits; the wide sign bug on -1 >> 1
example : Bits.num ((Bits.ofInt (-0x4c) : Bits 8 true).ashr (Bits.ofInt 2 : Bits 4 false)) = some 0xED := by
  decide +kernel
example : (Bits.ofInt (-0x4c) : Bits 12 true).Clean ∧
    Bits.num ((Bits.ofInt (-0x4c) : Bits 12 true).ashr (Bits.ofInt 2 : Bits 4 false)) = some 0xFED := by
  decide +kernel
example : Bits.num ((Bits.ofInt (-1) : Bits 2 true).extend 70 |>.ashr (Bits.ofInt 1 : Bits 4 false)) =
    some (2 ^ 70 - 1 - 2 ^ 68) := by decide +kernel

/-! ## C27: x/z propagation -/

/-- **C27, partial.** If the value or the amount has an x/z bit at a position
that the emptiness test looks at (any position up to 64 bits), all four shifts
give all x. Missing: x/z only in the upper halves of limbs of a wide operand
(`C27_wide_refuted`). -/
theorem C27_shift_x_partial (hn : 0 < n) (x : Lg n s) (y : Lg m t) (h : x.SeenXZ ∨ y.SeenXZ) :
    (∃ z, x.shr y = .ok z ∧ ∀ i, i < n → z.at i = .x) ∧
    (∃ z, x.shl y = .ok z ∧ ∀ i, i < n → z.at i = .x) ∧
    (∃ z, x.ashr y = .ok z ∧ ∀ i, i < n → z.at i = .x) ∧
    (∃ z, x.ashl y = .ok z ∧ ∀ i, i < n → z.at i = .x) := by
  have h' : y.xz.anySet = true ∨ x.xz.anySet = true := by
    rcases h with ⟨i, hi, hs, hk⟩ | ⟨i, hi, hs, hk⟩
    · exact Or.inr (Lg.anySet_of_unknown hi hs hk)
    · exact Or.inl (Lg.anySet_of_unknown hi hs hk)
  exact ⟨Lg.shiftWith_x hn _ x y h', Lg.shiftWith_x hn _ x y h', Lg.shiftWith_x hn _ x y h',
    Lg.shiftWith_x hn _ x y h'⟩

/-- **C27 holds for native operands without restriction.** -/
theorem C27_shift_x_native (hn : 0 < n) (h : n ≤ 64) (hm : m ≤ 64) (x : Lg n s) (y : Lg m t)
    (hxz : (∃ i, i < n ∧ (x.at i).isKnown = false) ∨ (∃ i, i < m ∧ (y.at i).isKnown = false)) :
    (∃ z, x.shr y = .ok z ∧ ∀ i, i < n → z.at i = .x) ∧
    (∃ z, x.shl y = .ok z ∧ ∀ i, i < n → z.at i = .x) ∧
    (∃ z, x.ashr y = .ok z ∧ ∀ i, i < n → z.at i = .x) ∧
    (∃ z, x.ashl y = .ok z ∧ ∀ i, i < n → z.at i = .x) := by
  apply C27_shift_x_partial hn x y
  rcases hxz with ⟨i, hi, hk⟩ | ⟨i, hi, hk⟩
  · exact Or.inl ⟨i, hi, Or.inl h, hk⟩
  · exact Or.inr ⟨i, hi, Or.inl hm, hk⟩

/-- **C27 is false for wide values**: x at bit 40 only, shifted by 1; bit 0 of
the result is a known 0. -/
theorem C27_wide_refuted : ∃ (x : Lg 70 false) (y : Lg 4 false), (x.at 40).isKnown = false ∧
    ∃ z, x.shr y = .ok z ∧ z.at 0 = .b0 :=
  ⟨⟨Bits.ofInt 0, Bits.ofInt (2 ^ 40)⟩, ⟨Bits.ofInt 1, Bits.ofInt 0⟩, by decide +kernel,
    ⟨Bits.ofInt 0, Bits.ofInt (2 ^ 39)⟩, by decide +kernel, by decide +kernel⟩

example : Lg.bits ((⟨Bits.ofInt 5, Bits.ofInt 8⟩ : Lg 4 false).shl (⟨Bits.ofInt 1, Bits.ofInt 0⟩ : Lg 2 false))
    = some [.x, .x, .x, .x] := by decide +kernel
example : (⟨Bits.ofInt 5, Bits.ofInt 8⟩ : Lg 4 false).SeenXZ := ⟨3, by decide, by decide, by decide⟩

end Verif
