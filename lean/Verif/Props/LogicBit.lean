import Verif.Props.Compare
import Verif.Props.Arith
import Verif.Model.Static
import Verif.Show

/-!
# A 4-state value with a 2-state operand (C105)

`logic op bit` converts the `bit` to the type of the `logic` and calls the 4-state
operator.
-/

namespace Verif
variable {n : Nat} {s t : Bool}

theorem Bits.toSign_self (x : Bits n s) : x.toSign s = x := by
  by_cases h : n ≤ 64
  · rw [Bits.toSign, dif_pos h, Bits.mkN_nv]
  · cases x with
    | nat h' _ => exact absurd h' h
    | big _ b => rw [Bits.toSign, dif_neg h]; rfl

theorem convertible_self (s : Bool) : convertible s s = true := by cases s <;> rfl

theorem Lg.withBit_self {α : Type} (f : Lg n s → Lg n s → Res α) (x : Lg n s) (y : Bits n s) :
    Lg.withBit f x y = f x ⟨y, Bits.zero⟩ := by
  rw [Lg.withBit, convertible_self, if_pos rfl, Lg.ofBits, Bits.toSign_self]

/-- the six relations of canonical values of one type, native or unsigned -/
theorem Bits.rel_same (hn : 0 < n) (hs : s = true → n ≤ 64) (x y : Bits n s) (hx : x.Clean) (hy : y.Clean) :
    x.eq y = decide (x.bv = y.bv) ∧
    x.gt y = .ok (decide (numOf s y.bv < numOf s x.bv)) ∧ x.lt y = .ok (decide (numOf s x.bv < numOf s y.bv)) ∧
    x.ge y = .ok (decide (numOf s y.bv ≤ numOf s x.bv)) ∧ x.le y = .ok (decide (numOf s x.bv ≤ numOf s y.bv)) := by
  refine ⟨?_, ?_⟩
  · rw [Bits.eq_clean hn (by rintro ⟨h, -, h'⟩; have := hs h; omega) hx hy]
    simp
  · by_cases h : n ≤ 64
    · rw [← (Bits.clean_native h x).1 hx, ← (Bits.clean_native h y).1 hy]
      exact Bits.order_native h h x y
    · have : s = false := by cases s <;> simp_all
      subst this
      obtain ⟨h1, h2⟩ := C40_gt_lt Iff.rfl x y hx hy
      obtain ⟨h3, h4⟩ := C40_ge_le_partial Iff.rfl x y hx hy (fun _ => Or.inl rfl)
      rw [h1, h2, h3, h4]
      simp [numOf]

/-- **C105, comparisons, partial.** A canonical 4-state value without x/z against a canonical
2-state value of the same type, native or unsigned: the six operators compare the numbers, and
`match` compares the bits. Missing: operands of different signedness (`C105_refuted`; an
unsigned `bit` with a signed `logic` does not compile); for wide signed values see C42. -/
theorem C105_compare_partial (hn : 0 < n) (hs : s = true → n ≤ 64) (x : Lg n s) (y : Bits n s) (hx : x.Clean)
    (hy : y.Clean) (hk : x.Known) :
    (∃ z, x.eqBit y = .ok z ∧ z.at 0 = V4.ofBool (decide (x.value.bv = y.bv))) ∧
    (∃ z, x.neBit y = .ok z ∧ z.at 0 = V4.ofBool (decide (x.value.bv ≠ y.bv))) ∧
    (∃ z, x.gtBit y = .ok z ∧ z.at 0 = V4.ofBool (decide (numOf s y.bv < numOf s x.value.bv))) ∧
    (∃ z, x.ltBit y = .ok z ∧ z.at 0 = V4.ofBool (decide (numOf s x.value.bv < numOf s y.bv))) ∧
    (∃ z, x.geBit y = .ok z ∧ z.at 0 = V4.ofBool (decide (numOf s y.bv ≤ numOf s x.value.bv))) ∧
    (∃ z, x.leBit y = .ok z ∧ z.at 0 = V4.ofBool (decide (numOf s x.value.bv ≤ numOf s y.bv))) := by
  obtain ⟨h1, h2, h3, h4, h5⟩ := Bits.rel_same hn hs x.value y hx.1 hy
  have key := fun b => C43_rel_known x ⟨y, Bits.zero⟩ hk (Lg.known_zero y) b
  simp only [Lg.eqBit, Lg.neBit, Lg.gtBit, Lg.ltBit, Lg.geBit, Lg.leBit, Lg.withBit_self]
  exact ⟨(key _).1.1 h1, (key _).1.2 (by rw [Bits.ne, h1]; simp), (key _).2.1 h2, (key _).2.2.1 h3, (key _).2.2.2.1 h4,
    (key _).2.2.2.2 h5⟩

/-- **C105, comparisons with x/z, partial.** An x or z of the 4-state operand, in a native value
or in the lower half of a 64 bit chunk, makes the answer of the six operators x. Missing: x/z in
upper halves only (`C43_wide_refuted`). -/
theorem C105_compare_x_partial (x : Lg n s) (y : Bits n s) (hx : x.SeenXZ) :
    ∀ r ∈ [x.eqBit y, x.neBit y, x.gtBit y, x.ltBit y, x.geBit y, x.leBit y], ∃ z, r = .ok z ∧ z.at 0 = .x := by
  have := C43_rel_x_partial x ⟨y, Bits.zero⟩ (Or.inl hx)
  simpa only [Lg.eqBit, Lg.neBit, Lg.gtBit, Lg.ltBit, Lg.geBit, Lg.leBit, Lg.withBit_self] using this

/-- **C105, case equality.** `x.match(y)` holds exactly when every bit of `x` is known and equal
to the bit of `y`. Missing: operands of different signs, for which it is false (`C105_refuted`);
wide signed operands do not compile. -/
theorem C105_match_partial (hn : 0 < n) (hs : s = true → n ≤ 64) (x : Lg n s) (y : Bits n s) (hx : x.Clean)
    (hy : y.Clean) :
    ∃ b, x.matchBit y = .ok b ∧ (b = true ↔ ∀ i, i < n → x.at i = V4.ofBool (y.bv.getLsbD i)) := by
  refine ⟨_, by rw [Lg.matchBit, Lg.withBit_self], ?_⟩
  have hz : (⟨y, Bits.zero⟩ : Lg n s).Clean := ⟨hy, (Lg.known_zero y).1⟩
  rw [(C44_match_partial hn (by rintro ⟨h, -, h'⟩; have := hs h; omega) x ⟨y, Bits.zero⟩ hx hz).1, decide_eq_true_iff]
  simp only [true_or, and_true]
  exact forall₂_congr fun i hi => by rw [Lg.known_mk_at y hi]

/-- **C105, arithmetic, partial.** On known unsigned values of two bits and more `+` and `-` are
those of the numbers modulo 2^n, and `/` and `%` by a non-zero divisor are quotient and remainder
(for wide values under the condition of C31). Missing: one bit sums (C28), wide division of
values with chunks that are only set in their upper halves (C31); signed operands follow C28-C34
and products C30. -/
theorem C105_arith_partial (hn : 1 < n) (x : Lg n false) (y : Bits n false) (hk : x.Known) (hx : x.value.Clean)
    (hy : y.Clean) :
    (∃ z, x.addBit y = .ok z ∧ z.Known ∧ ∀ i, i < n → z.at i = V4.ofBool ((x.value.bv + y.bv).getLsbD i)) ∧
    (∃ z, x.subBit y = .ok z ∧ z.Known ∧ ∀ i, i < n → z.at i = V4.ofBool ((x.value.bv - y.bv).getLsbD i)) ∧
    (n ≤ 2 ^ 32 → y.bv ≠ 0 → (64 < n → LowHalves x.value.bv ∧ LowHalves y.bv) →
      ∃ q r, x.divBit y = .ok q ∧ x.modBit y = .ok r ∧ q.Known ∧ r.Known ∧
        x.value.bv.toNat = q.value.bv.toNat * y.bv.toNat + r.value.bv.toNat ∧
        r.value.bv.toNat < y.bv.toNat) := by
  have hz := Lg.known_zero y
  simp only [Lg.addBit, Lg.subBit, Lg.divBit, Lg.modBit, Lg.withBit_self]
  exact ⟨C28_add_logic_partial hn x ⟨y, Bits.zero⟩ hk hz (by simp),
    C29_sub_logic_partial (by omega) x ⟨y, Bits.zero⟩ hk hz (by simp),
    fun hN h0 hv => C31_div_logic_partial (by omega) hN x ⟨y, Bits.zero⟩ hk hz hx hy h0 hv⟩

/-- **C105, x/z in arithmetic, partial.**. Missing: x and z that the emptiness test of a wide value
does not see (`C105_x_iff`). -/
theorem C105_arith_x_partial (hn : 0 < n) (x : Lg n s) (y : Bits n s) (hx : x.SeenXZ) :
    (∃ z, x.addBit y = .ok z ∧ ∀ i, i < n → z.at i = .x) ∧
    (∃ z, x.subBit y = .ok z ∧ ∀ i, i < n → z.at i = .x) ∧
    (∃ z, x.mulBit y = .ok z ∧ ∀ i, i < n → z.at i = .x) ∧
    (∃ z, x.divBit y = .ok z ∧ ∀ i, i < n → z.at i = .x) ∧
    (∃ z, x.modBit y = .ok z ∧ ∀ i, i < n → z.at i = .x) := by
  simp only [Lg.addBit, Lg.subBit, Lg.mulBit, Lg.divBit, Lg.modBit, Lg.withBit_self]
  exact C33_arith_x_partial hn x ⟨y, Bits.zero⟩ (Or.inl hx)

/-- **C105, division by a 2-state zero** is x. -/
theorem C105_div_zero (hn : 0 < n) (x : Lg n s) (y : Bits n s) (hy : y.Clean) (h0 : y.bv = 0) :
    (∃ z, x.divBit y = .ok z ∧ ∀ i, i < n → z.at i = .x) ∧
    (∃ z, x.modBit y = .ok z ∧ ∀ i, i < n → z.at i = .x) := by
  simp only [Lg.divBit, Lg.modBit, Lg.withBit_self]
  exact C32_div_zero_logic hn x ⟨y, Bits.zero⟩ hy h0

-- 5 + 252 in eight bits; an x in the 4-state operand; 5 < 252
example : Lg.bits ((Lg.ofInt 5 : Lg 8 false).addBit (Bits.ofInt 252 : Bits 8 false)) =
    some [.b1, .b0, .b0, .b0, .b0, .b0, .b0, .b0] := by decide +kernel
example : Lg.bits ((((Lg.ofInt 5 : Lg 8 false).setX (Rng.down 8) 7).toOption.get!).ltBit (Bits.ofInt 252 : Bits 8 false)) =
    some [.x] := by decide +kernel
example : Lg.bits ((Lg.ofInt 5 : Lg 8 false).ltBit (Bits.ofInt 252 : Bits 8 false)) = some [.b1] := by decide +kernel

/-- **C105 is false for a signed 2-state operand of an unsigned 4-state one**: 15 and the four
bit -1 have the same bits and do not match, and `15 < -1` is 1. -/
theorem C105_refuted : ∃ (x : Lg 4 false) (y : Bits 4 true), x.Clean ∧ y.Clean ∧ x.Known ∧
    x.value.bv = y.bv ∧ x.matchBit y = .ok false ∧ Lg.bits (x.eqBit y) = some [.b0] ∧
    numOf true y.bv < numOf false x.value.bv ∧ Lg.bits (x.ltBit y) = some [.b1] :=
  ⟨Lg.ofInt 15, Bits.ofInt (-1), by decide +kernel, by decide +kernel, by decide +kernel, by decide +kernel,
    by decide +kernel, by decide +kernel, by decide +kernel, by decide +kernel⟩

end Verif
