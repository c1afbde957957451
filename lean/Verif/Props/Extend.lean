import Verif.Lemmas.Compare
import Verif.Lemmas.OfBV
import Verif.Props.Bitwise
import Verif.Show

/-!
# Extension and mixed-width bitwise operators (C12, C13, C47, C48, C87)
-/

namespace Verif

variable {n m : Nat} {s t : Bool}

/-- **C47.** Zero extension of a canonical unsigned object keeps the low `n` bits and
clears the new ones; the result is canonical. Missing: objects that are not canonical, for which it
is false (`C47_iff`, `C47_refuted_all`). -/
theorem C47_zero_extend_partial (hn : 0 < n) (h : n ≤ m) (x : Bits n false) (hx : x.Clean) :
    (x.extend m).Clean ∧ (x.extend m).bv.toNat = x.bv.toNat ∧
    ∀ i, i < m → (x.extend m).bv.getLsbD i = if i < n then x.bv.getLsbD i else false := by
  refine ⟨hx.extend_unsigned hn h, ?_, ?_⟩
  · rw [Bits.bv_extend_unsigned hn h hx, BitVec.toNat_setWidth_of_le h]
  · intro i hi
    rw [Bits.bv_extend_unsigned hn h hx, BitVec.getLsbD_setWidth]
    by_cases hin : i < n
    · simp [hin, hi]
    · rw [if_neg hin, BitVec.getLsbD_of_ge _ _ (by omega)]; simp

/-- **C47, 4-state.**. Missing: objects that are not canonical, for which it is false (`C47_iff`).
-/
theorem C47_zero_extend_logic_partial (hn : 0 < n) (h : n ≤ m) (x : Lg n false) (hx : x.Clean) :
    (x.extend m).Clean ∧ ∀ i, i < m → (x.extend m).at i = if i < n then x.at i else .b0 := by
  obtain ⟨c1, _, b1⟩ := C47_zero_extend_partial hn h x.value hx.1
  obtain ⟨c2, _, b2⟩ := C47_zero_extend_partial hn h x.xz hx.2
  refine ⟨⟨c1, c2⟩, fun i hi => ?_⟩
  rw [Lg.at, Lg.at]
  show V4.mk ((x.value.extend m).bv.getLsbD i) ((x.xz.extend m).bv.getLsbD i) = _
  rw [b1 i hi, b2 i hi]
  by_cases hin : i < n
  · simp [hin]
  · simp [hin, V4.mk]

example : (Bits.ofInt 200 : Bits 8 false).Clean ∧
    ((Bits.ofInt 200 : Bits 8 false).extend 100).bv = 200 ∧
    ((Bits.ofInt 200 : Bits 8 false).extend 16).bv = 200 ∧
    ((Bits.ofInt 200 : Bits 70 false).extend 200).bv = 200 := by decide +kernel

/-- **C47 is false of the code** without canonicity: `bit<3, 0>(255)` stores 255 and
its extension to 8 bits is 255, although its low four bits are 15. -/
theorem C47_refuted : ∃ x : Bits 4 false, x = Bits.ofInt 255 ∧ x.bv.toNat = 15 ∧
    (x.extend 8).bv.toNat = 255 := ⟨_, rfl, by decide +kernel, by decide +kernel⟩

/-- **C48, native sources.** Sign extension of a canonical object of at most 64 bits
keeps the denoted number, whatever the target width. Missing: wide sources, for which it is false
unless the number is negative (`C48_wide_exact`, `C48_refuted`). -/
theorem C48_sign_extend_partial (hn : 0 < n) (h64 : n ≤ 64) (h : n ≤ m) (x : Bits n s)
    (hx : x.Clean) :
    (x.extend m).Clean ∧ numOf s (x.extend m).bv = numOf s x.bv :=
  ⟨hx.extend_native hn h64 h, Bits.extend_native_num hn h64 h hx⟩

example : (Bits.ofInt (-3) : Bits 7 true).Clean ∧
    ((Bits.ofInt (-3) : Bits 7 true).extend 20).bv.toInt = -3 ∧
    ((Bits.ofInt (-3) : Bits 7 true).extend 130).bv.toInt = -3 ∧
    ((Bits.ofInt 3 : Bits 7 true).extend 130).bv.toInt = 3 := by decide +kernel

/-- **C48, exact behaviour of wide sources**: the new bits are always ones, so that
the number is kept exactly when it is negative. -/
theorem C48_wide_exact (h64 : 64 < n) (h : n < m) (x : Bits n true) :
    (x.extend m).bv.toInt = x.bv.toInt ↔ x.bv.toInt < 0 := by
  have hb := Bits.extend_wide_signed (by omega) h x
  have hneg : (x.extend m).bv.toInt < 0 := by
    rw [BitVec.toInt_neg_iff]
    have : (x.extend m).bv.msb = true := by
      rw [BitVec.msb_eq_getLsbD_last, hb (m - 1) (by omega), if_neg (by omega)]
    rw [BitVec.msb_eq_true_iff_two_mul_ge] at this
    exact this
  constructor
  · intro he; rw [← he]; exact hneg
  · intro hlt
    have hm : x.bv.msb = true := by
      rw [BitVec.msb_eq_toInt]; simpa using hlt
    have : (x.extend m).bv = x.bv.signExtend m := by
      apply BitVec.eq_of_getLsbD_eq
      intro i hi
      rw [hb i hi, BitVec.getLsbD_signExtend, hm]
      simp [hi]
    rw [this, BitVec.toInt_signExtend_of_le h.le]

/-- **C48 is false of the code** for every wide source: the extension of 5 is
negative. -/
theorem C48_refuted (h64 : 64 < n) (h : n < m) :
    ∃ x : Bits n true, x.Clean ∧ x.bv.toInt = 5 ∧ (x.extend m).bv.toInt < 0 := by
  obtain ⟨x, hx, hb⟩ := Bits.exists_clean (s := true) (BitVec.ofNat n 5)
  have h5 : x.bv.toInt = 5 := by
    have hlt : (5 : Nat) < 2 ^ (n - 1) := by
      calc (5 : Nat) < 2 ^ 64 := by norm_num
        _ ≤ 2 ^ (n - 1) := Nat.pow_le_pow_right (by omega) (by omega)
    have hp : (2 : Nat) ^ n = 2 * 2 ^ (n - 1) := by
      rw [← Nat.pow_succ']; congr 1; omega
    rw [hb, BitVec.toInt_eq_toNat_of_lt]
    · rw [BitVec.toNat_ofNat, Nat.mod_eq_of_lt (by omega)]; rfl
    · rw [BitVec.toNat_ofNat, Nat.mod_eq_of_lt (by omega)]; omega
  refine ⟨x, hx, h5, ?_⟩
  have hb := Bits.extend_wide_signed (by omega) h x
  rw [BitVec.toInt_neg_iff]
  apply BitVec.msb_eq_true_iff_two_mul_ge.1
  rw [BitVec.msb_eq_getLsbD_last, hb (m - 1) (by omega), if_neg (by omega)]

/-! ### mixed-width bitwise operators -/

/-- the 4-state bit `i` of an operand extended to a larger width: sign bits for a
signed object (a one bit object is a `bool`), zeros otherwise -/
def extAt (s : Bool) {n : Nat} (x : Lg n s) (i : Nat) : V4 :=
  if i < n then x.at i else V4.ofBool (s && !decide (n ≤ 1) && x.value.bv.msb)

theorem Lg.extend_at (hn : 0 < n) (h : n ≤ m) (x : Lg n s) (hx : x.Clean) (hs : 64 < n → s = false)
    {i : Nat} (hi : i < m) : (x.extend m).at i = extAt s x i := by
  have hxz := (C47_zero_extend_partial hn h x.xz hx.2).2.2 i hi
  have hv : (x.value.extend m).bv.getLsbD i =
      if i < n then x.value.bv.getLsbD i else s && !decide (n ≤ 1) && x.value.bv.msb := by
    by_cases h64 : n ≤ 64
    · rw [Bits.bv_extend_native hn h64 h, (Bits.clean_native h64 _).1 hx.1, numOf]
      by_cases hc : (s && !decide (n ≤ 1)) = true
      · rw [if_pos hc, hc, Bool.true_and, ← BitVec.signExtend, BitVec.getLsbD_signExtend]
        simp [hi]
      · rw [if_neg hc, BitVec.ofInt_natCast, BitVec.getLsbD_ofNat]
        rw [Bool.not_eq_true] at hc
        rw [hc]
        by_cases hin : i < n
        · rw [if_pos hin]; simp [hi, BitVec.getLsbD]
        · rw [if_neg hin, Nat.testBit_lt_two_pow]; · simp
          exact lt_of_lt_of_le x.value.bv.isLt (Nat.pow_le_pow_right (by omega) (by omega))
    · have := hs (by omega); subst this
      rw [(C47_zero_extend_partial hn h x.value hx.1).2.2 i hi]; rfl
  show V4.mk ((x.value.extend m).bv.getLsbD i) ((x.xz.extend m).bv.getLsbD i) = _
  rw [hv, hxz, extAt]
  by_cases hin : i < n
  · simp only [if_pos hin]; rfl
  · simp only [if_neg hin]
    cases (s && !decide (n ≤ 1) && x.value.bv.msb) <;> rfl

/-- **C13, exact behaviour.** `a & b` and `a | b` on different widths never fault and
apply the tables of C10/C11 (with the same deviations) to the extended operands. A
signed operand has to be native, because wide sign extension is broken (C48). Missing: the entries
of `andDeviation` and `orDeviation`, where the code is wrong (`C13_x_asymmetric`), and operands that
are not canonical (`C13_refuted`). -/
theorem C13_mixed_partial (hn : 0 < n) (hm : 0 < m) (x : Lg n s) (y : Lg m t)
    (hx : x.Clean) (hy : y.Clean) (hs : 64 < n → s = false) (ht : 64 < m → t = false) :
    (∃ z, x.andMix y = .ok z ∧ ∀ i, i < max n m → z.at i =
      (andDeviation (extAt s x i) (extAt t y i)).getD (V4.and (extAt s x i) (extAt t y i))) ∧
    (∃ z, x.orMix y = .ok z ∧ ∀ i, i < max n m → z.at i =
      (orDeviation (extAt s x i) (extAt t y i)).getD (V4.or (extAt s x i) (extAt t y i))) := by
  have ex : ∀ i, i < max n m → (x.extend (max n m)).at i = extAt s x i :=
    fun i hi => Lg.extend_at hn (Nat.le_max_left _ _) x hx hs hi
  have ey : ∀ i, i < max n m → (y.extend (max n m)).at i = extAt t y i :=
    fun i hi => Lg.extend_at hm (Nat.le_max_right _ _) y hy ht hi
  refine ⟨?_, ?_⟩
  · obtain ⟨z, hz, hb⟩ := C10_and_table_partial (n := max n m) (by omega) (x.extend _) (y.extend _)
    exact ⟨z, hz, fun i hi => by rw [hb i hi, ex i hi, ey i hi]⟩
  · obtain ⟨z, hz, hb⟩ := C11_or_table_partial (n := max n m) (by omega) (x.extend _) (y.extend _)
    exact ⟨z, hz, fun i hi => by rw [hb i hi, ex i hi, ey i hi]⟩

/-- **C13 for operands without x/z**: the tables hold without exception and the
operators commute. -/
theorem C13_known (hn : 0 < n) (hm : 0 < m) (x : Lg n s) (y : Lg m t)
    (hx : x.Clean) (hy : y.Clean) (hkx : x.Known) (hky : y.Known)
    (hs : 64 < n → s = false) (ht : 64 < m → t = false) :
    (∃ z w, x.andMix y = .ok z ∧ y.andMix x = .ok w ∧ ∀ i, i < max n m →
      z.at i = V4.and (extAt s x i) (extAt t y i) ∧ w.at i = z.at i) ∧
    (∃ z w, x.orMix y = .ok z ∧ y.orMix x = .ok w ∧ ∀ i, i < max n m →
      z.at i = V4.or (extAt s x i) (extAt t y i) ∧ w.at i = z.at i) := by
  obtain ⟨⟨z, hz, bz⟩, ⟨u, hu, bu⟩⟩ := C13_mixed_partial hn hm x y hx hy hs ht
  obtain ⟨⟨w, hw, bw⟩, ⟨v, hv, bv⟩⟩ := C13_mixed_partial hm hn y x hy hx ht hs
  have kx : ∀ i, ∃ b, extAt s x i = V4.ofBool b := by
    intro i
    rw [extAt]
    by_cases hi : i < n
    · rw [if_pos hi, hkx.at hi]; exact ⟨_, rfl⟩
    · rw [if_neg hi]; exact ⟨_, rfl⟩
  have ky : ∀ i, ∃ b, extAt t y i = V4.ofBool b := by
    intro i
    rw [extAt]
    by_cases hi : i < m
    · rw [if_pos hi, hky.at hi]; exact ⟨_, rfl⟩
    · rw [if_neg hi]; exact ⟨_, rfl⟩
  refine ⟨⟨z, w, hz, hw, fun i hi => ?_⟩, ⟨u, v, hu, hv, fun i hi => ?_⟩⟩
  · obtain ⟨a, ha⟩ := kx i
    obtain ⟨b, hb⟩ := ky i
    rw [bz i hi, bw i (by rw [Nat.max_comm]; exact hi), ha, hb]
    cases a <;> cases b <;> decide
  · obtain ⟨a, ha⟩ := kx i
    obtain ⟨b, hb⟩ := ky i
    rw [bu i hi, bv i (by rw [Nat.max_comm]; exact hi), ha, hb]
    cases a <;> cases b <;> decide

example : Lg.bits ((⟨Bits.ofInt 0b110, Bits.ofInt 0⟩ : Lg 3 false).andMix
      (⟨Bits.ofInt 0b01100, Bits.ofInt 0b10000⟩ : Lg 5 false)) = some [.b0, .b0, .b1, .b0, .b0] ∧
    Lg.bits ((⟨Bits.ofInt (-2), Bits.ofInt 0⟩ : Lg 3 true).orMix
      (⟨Bits.ofInt 0, Bits.ofInt 0⟩ : Lg 5 false)) = some [.b0, .b1, .b1, .b1, .b1] := by decide +kernel

/-- **C13 is false of the code** for an operand that is not canonical: the low four
bits of `logic<3, 0>(255)` are 15, but its conjunction with the 8-bit value 240 is
240. -/
theorem C13_refuted : ∃ (x : Lg 4 false) (y z : Lg 8 false), x = ⟨Bits.ofInt 255, Bits.ofInt 0⟩ ∧
    y.Clean ∧ x.andMix y = .ok z ∧ x.at 4 = .b0 ∧ z.at 4 = .b1 := by
  refine ⟨_, ⟨Bits.ofInt 240, Bits.ofInt 0⟩, ⟨Bits.ofInt 240, Bits.ofInt 0⟩, rfl, ?_⟩
  decide +kernel

/-- With an x operand the mixed-width `&` neither follows the table nor commutes. -/
theorem C13_x_asymmetric : ∃ (x : Lg 1 false) (y : Lg 2 false) (z w : Lg 2 false),
    x.Clean ∧ y.Clean ∧ x.andMix y = .ok z ∧ y.andMix x = .ok w ∧
    z.at 0 = .x ∧ V4.and (x.at 0) (y.at 0) = .b0 ∧ w.at 0 = .b0 := by
  refine ⟨⟨Bits.ofInt 0, Bits.ofInt 1⟩, ⟨Bits.ofInt 0, Bits.ofInt 0⟩, ?_⟩
  obtain ⟨⟨z, hz, bz⟩, _⟩ := C13_mixed_partial (by decide) (by decide)
    (⟨Bits.ofInt 0, Bits.ofInt 1⟩ : Lg 1 false) (⟨Bits.ofInt 0, Bits.ofInt 0⟩ : Lg 2 false)
    (by decide) (by decide) (by decide) (by decide)
  obtain ⟨⟨w, hw, bw⟩, _⟩ := C13_mixed_partial (by decide) (by decide)
    (⟨Bits.ofInt 0, Bits.ofInt 0⟩ : Lg 2 false) (⟨Bits.ofInt 0, Bits.ofInt 1⟩ : Lg 1 false)
    (by decide) (by decide) (by decide) (by decide)
  refine ⟨z, w, by decide, by decide, hz, hw, ?_, by decide, ?_⟩
  · rw [bz 0 (by decide)]; decide
  · rw [bw 0 (by decide)]; decide

/-- **C12, exact behaviour.** `a ^ b` on different widths computes `|`. Missing: the table of `^`,
which the code does not compute (`C12_refuted`). Not canonical operands are extended with their
stored bits (C47); wide signed operands, which the property leaves out, are extended with ones
(C48). -/
theorem C12_xor_mixed_partial (hn : 0 < n) (hm : 0 < m) (x : Lg n s) (y : Lg m t)
    (hx : x.Clean) (hy : y.Clean) (hs : 64 < n → s = false) (ht : 64 < m → t = false) :
    ∃ z, x.xorMix y = .ok z ∧ ∀ i, i < max n m → z.at i =
      (orDeviation (extAt s x i) (extAt t y i)).getD (V4.or (extAt s x i) (extAt t y i)) :=
  (C13_mixed_partial hn hm x y hx hy hs ht).2

/-- **C12 under the extra hypothesis** that at no position both extended operands are
1 and none is x/z: there `|` and `^` agree. Missing: all other operands, where the result is that of
`|` (`C12_xor_mixed_partial`, `C12_refuted`). -/
theorem C12_disjoint_partial (hn : 0 < n) (hm : 0 < m) (x : Lg n s) (y : Lg m t)
    (hx : x.Clean) (hy : y.Clean) (hkx : x.Known) (hky : y.Known)
    (hs : 64 < n → s = false) (ht : 64 < m → t = false)
    (hd : ∀ i, i < max n m → ¬ (extAt s x i = .b1 ∧ extAt t y i = .b1)) :
    ∃ z, x.xorMix y = .ok z ∧ ∀ i, i < max n m → z.at i = V4.xor (extAt s x i) (extAt t y i) := by
  obtain ⟨_, ⟨z, _, hz, _, hb⟩⟩ := C13_known hn hm x y hx hy hkx hky hs ht
  refine ⟨z, hz, fun i hi => ?_⟩
  have hd := hd i hi
  have kx : ∃ b, extAt s x i = V4.ofBool b := by
    rw [extAt]
    by_cases hi : i < n
    · rw [if_pos hi, hkx.at hi]; exact ⟨_, rfl⟩
    · rw [if_neg hi]; exact ⟨_, rfl⟩
  have ky : ∃ b, extAt t y i = V4.ofBool b := by
    rw [extAt]
    by_cases hi : i < m
    · rw [if_pos hi, hky.at hi]; exact ⟨_, rfl⟩
    · rw [if_neg hi]; exact ⟨_, rfl⟩
  obtain ⟨a, ha⟩ := kx
  obtain ⟨b, hb'⟩ := ky
  rw [(hb i hi).1]
  rw [ha, hb'] at hd ⊢
  cases a <;> cases b <;> first | rfl | exact absurd ⟨rfl, rfl⟩ hd

/-- **C12 is false of the code** for all pairs of widths: 1 ^ 1 gives 1. -/
theorem C12_refuted (hn : 0 < n) (hm : 0 < m) :
    ∃ (x : Lg n false) (y : Lg m false) (z : Lg (max n m) false), x.Clean ∧ y.Clean ∧ x.Known ∧ y.Known ∧
      x.xorMix y = .ok z ∧ x.at 0 = .b1 ∧ y.at 0 = .b1 ∧ z.at 0 = .b1 := by
  obtain ⟨x, hx, bx⟩ := Lg.exists_clean n false fun i => if i = 0 then .b1 else .b0
  obtain ⟨y, hy, by'⟩ := Lg.exists_clean m false fun i => if i = 0 then .b1 else .b0
  obtain ⟨z, hz, bz⟩ := C12_xor_mixed_partial hn hm x y hx hy (fun _ => rfl) (fun _ => rfl)
  have hx0 : x.at 0 = .b1 := bx 0 hn
  have hy0 : y.at 0 = .b1 := by' 0 hm
  refine ⟨x, y, z, hx, hy, ⟨hx.2, fun i hi => ?_⟩, ⟨hy.2, fun i hi => ?_⟩, hz, hx0, hy0, ?_⟩
  · rw [bx i hi]; split_ifs <;> rfl
  · rw [by' i hi]; split_ifs <;> rfl
  · rw [bz 0 (by omega), extAt, extAt, if_pos hn, if_pos hm, hx0, hy0]; rfl

example : Lg.bits ((⟨Bits.ofInt 0b101, Bits.ofInt 0⟩ : Lg 3 false).xorMix
    (⟨Bits.ofInt 0b01010, Bits.ofInt 0⟩ : Lg 5 false)) = some [.b1, .b1, .b1, .b1, .b0] := by decide +kernel

/-! ### 2-state operands -/

/-- bit `i` of an operand extended to a larger width -/
def extBit (s : Bool) {n : Nat} (x : BitVec n) (i : Nat) : Bool :=
  if i < n then x.getLsbD i else s && !decide (n ≤ 1) && x.msb

/-- **C87.** `&`, `|`, `^` of canonical 2-state operands of different widths never
fault, give canonical unsigned results when one operand is unsigned, and compute
the boolean function of the extended operands. Wide operands have to be unsigned
(C48). Missing: wide signed operands, for which it is false unless they are negative
(`C87_mixed_exact`, `C87_refuted_all`). -/
theorem C87_mixed_partial (hn : 0 < n) (hm : 0 < m) (x : Bits n s) (y : Bits m t)
    (hx : x.Clean) (hy : y.Clean) (hs : 64 < n → s = false) (ht : 64 < m → t = false) :
    (∃ z, x.andMix y = .ok z ∧ ∀ i, z.raw i =
      (decide (i < max n m) && (extBit s x.bv i && extBit t y.bv i))) ∧
    (∃ z, x.orMix y = .ok z ∧ ∀ i, z.raw i =
      (decide (i < max n m) && (extBit s x.bv i || extBit t y.bv i))) ∧
    (∃ z, x.xorMix y = .ok z ∧ ∀ i, z.raw i =
      (decide (i < max n m) && (extBit s x.bv i ^^ extBit t y.bv i))) := by
  have key : ∀ {k : Nat} {u : Bool} (_ : 0 < k) (_ : k ≤ max n m) (b : Bits k u) (_ : b.Clean)
      (_ : 64 < k → u = false) (i : Nat), i < max n m →
      (b.extend (max n m)).bv.getLsbD i = extBit u b.bv i := by
    intro k u hk hle b hb hu i hi
    have hat := Lg.extend_at hk hle (⟨b, Bits.zero⟩ : Lg k u)
      ⟨hb, Bits.clean_of_raw_zero fun i => Bits.raw_zero i⟩ hu hi
    have e1 : ((⟨b, Bits.zero⟩ : Lg k u).extend (max n m)).at i =
        V4.mk ((b.extend (max n m)).bv.getLsbD i) false := by
      have := (C47_zero_extend_partial hk hle (Bits.zero : Bits k false)
        (Bits.clean_of_raw_zero fun i => Bits.raw_zero i)).2.2 i hi
      show V4.mk _ ((Bits.zero.extend (max n m)).bv.getLsbD i) = _
      rw [this, Bits.getLsbD_bv Bits.zero, Bits.raw_zero]
      simp
      rfl
    have e2 : extAt u (⟨b, Bits.zero⟩ : Lg k u) i = V4.mk (extBit u b.bv i) false := by
      rw [extAt, extBit]
      by_cases hik : i < k
      · rw [if_pos hik, if_pos hik, Lg.at]
        show V4.mk _ ((Bits.zero : Bits k false).bv.getLsbD i) = _
        rw [Bits.getLsbD_bv Bits.zero, Bits.raw_zero, Bool.and_false]
      · rw [if_neg hik, if_neg hik]
        cases (u && !decide (k ≤ 1) && b.bv.msb) <;> rfl
    rw [e1, e2] at hat
    revert hat
    cases (b.extend (max n m)).bv.getLsbD i <;> cases extBit u b.bv i <;> decide
  have hM : 0 < max n m := by omega
  have kx := fun i hi => key hn (Nat.le_max_left n m) x hx hs i hi
  have ky := fun i hi => key hm (Nat.le_max_right n m) y hy ht i hi
  refine ⟨?_, ?_, ?_⟩
  · obtain ⟨z, hz, hr⟩ := Bits.maskOff_ok hM ((x.extend (max n m)).and (y.extend (max n m)))
    refine ⟨z, hz, fun i => ?_⟩
    rw [hr]
    by_cases hi : i < max n m
    · have := congrArg (fun b => b.getLsbD i) (Bits.bv_and hM (x.extend (max n m)) (y.extend (max n m)))
      simp only [BitVec.getLsbD_and] at this
      rw [Bits.getLsbD_bv, kx i hi, ky i hi] at this
      rw [this, decide_eq_true hi, Bool.true_and]
    · simp [hi]
  · obtain ⟨z, hz, hr⟩ := Bits.maskOff_ok hM ((x.extend (max n m)).or (y.extend (max n m)))
    refine ⟨z, hz, fun i => ?_⟩
    rw [hr]
    by_cases hi : i < max n m
    · have := congrArg (fun b => b.getLsbD i) (Bits.bv_or (x.extend (max n m)) (y.extend (max n m)))
      simp only [BitVec.getLsbD_or] at this
      rw [Bits.getLsbD_bv, kx i hi, ky i hi] at this
      rw [this, decide_eq_true hi, Bool.true_and]
    · simp [hi]
  · obtain ⟨z, hz, hr⟩ := Bits.maskOff_ok hM ((x.extend (max n m)).xor (y.extend (max n m)))
    refine ⟨z, hz, fun i => ?_⟩
    rw [hr]
    by_cases hi : i < max n m
    · have := congrArg (fun b => b.getLsbD i) (Bits.bv_xor (x.extend (max n m)) (y.extend (max n m)))
      simp only [BitVec.getLsbD_xor] at this
      rw [Bits.getLsbD_bv, kx i hi, ky i hi] at this
      rw [this, decide_eq_true hi, Bool.true_and]
    · simp [hi]

example : Bits.num ((Bits.ofInt (-2) : Bits 3 true).andMix (Bits.ofInt 0x5a : Bits 8 false)) = some 0x5a ∧
    Bits.num ((Bits.ofInt (-2) : Bits 3 true).xorMix (Bits.ofInt 0x5a : Bits 8 true)) = some 0xa4 ∧
    Bits.num ((Bits.ofInt 5 : Bits 70 false).orMix (Bits.ofInt 0x5a : Bits 8 false)) = some 0x5f := by
  decide +kernel

/-- **C87 is false of the code** for a wide signed operand: 5 & 2^100 has bit 100. -/
theorem C87_refuted : ∃ (x : Bits 70 true) (y z : Bits 130 false), x.Clean ∧ y.Clean ∧
    x.bv.toInt = 5 ∧ y.bv.toNat = 2 ^ 100 ∧ x.andMix y = .ok z ∧ z.bv.toNat = 2 ^ 100 := by
  refine ⟨Bits.ofInt 5, (Bits.big (by decide) (Big.zero.set 100 true)),
    (Bits.big (by decide) (Big.zero.set 100 true)), ?_⟩
  decide +kernel

end Verif
