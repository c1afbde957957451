import Verif.Lemmas.OfBV
import Verif.Lemmas.Compare
import Verif.Lemmas.Extend
import Verif.Lemmas.Planes
import Verif.Lemmas.BitDiv
import Verif.Show

/-!
# Casts, numeric conversion, construction from integers and literals (C58 - C60, C85)
-/

namespace Verif

variable {n m : Nat} {s t : Bool}

/-! ## C58 -/

/-- **C58.** Signedness casts keep every bit, stored bits above the width included. -/
theorem C58_bits (x : Bits n s) : x.toSigned.bv = x.bv ∧ x.toUnsigned.bv = x.bv ∧
    (∀ i, x.toSigned.raw i = x.raw i) ∧ ∀ i, x.toUnsigned.raw i = x.raw i :=
  ⟨Bits.bv_toSign x, Bits.bv_toSign x, Bits.raw_toSign x, Bits.raw_toSign x⟩

theorem C58_bits_logic (x : Lg n s) (i : Nat) : x.toSigned.at i = x.at i ∧ x.toUnsigned.at i = x.at i := by
  constructor
  · show V4.mk (x.value.toSigned.bv.getLsbD i) _ = _
    rw [(C58_bits x.value).1]; rfl
  · show V4.mk (x.value.toUnsigned.bv.getLsbD i) _ = _
    rw [(C58_bits x.value).2.1]; rfl

theorem Bits.ext_raw {x y : Bits n s} (h : ∀ i, x.raw i = y.raw i) : x = y := by
  by_cases hn : n ≤ 64
  · apply Bits.ext_native hn
    apply BitVec.eq_of_getLsbD_eq
    intro i _
    rw [← Bits.raw_native hn, ← Bits.raw_native hn, h]
  · rw [← Bits.big_bg hn x, ← Bits.big_bg hn y]
    congr 1
    apply Big.ext_raw
    intro i
    intro _
    rw [← Bits.raw_big hn, ← Bits.raw_big hn, h]

/-- **C58.** Casting to the other signedness and back is the identity. -/
theorem C58_round_trip (x : Bits n false) (y : Bits n true) :
    x.toSigned.toUnsigned = x ∧ y.toUnsigned.toSigned = y :=
  ⟨Bits.ext_raw fun i => by rw [(C58_bits _).2.2.2, (C58_bits _).2.2.1],
   Bits.ext_raw fun i => by rw [(C58_bits _).2.2.1, (C58_bits _).2.2.2]⟩

theorem conv_conv (ty : CTy) (a : Int) : ty.conv (ty.conv a) = ty.conv a := by
  match ty with
  | .bool => by_cases h : a = 0 <;> simp [CTy.conv, h]
  | .int w false => simp [CTy.conv]
  | .int w true => simp [CTy.conv]

theorem conv_signed_nat {w k : Nat} (hw : 0 < w) (h : k < 2 ^ (w - 1)) :
    (CTy.int w true).conv (k : Int) = k := by
  have h' : (k : Int) < 2 ^ (w - 1) := by exact_mod_cast h
  have h0 : (0 : Int) ≤ 2 ^ (w - 1) := by positivity
  exact CTy.conv_signed_of_mem hw (by omega) h'

theorem sizeofBits_ge {n : Nat} (h1 : ¬ n ≤ 1) : sizeofBits n = hw n := Bits.sizeof_eq (by omega)

theorem Bits.toNum_eq (h : n ≤ 64) (x : Bits n s) : x.toNum = x.nv.v := by
  rw [Bits.toNum]
  by_cases h1 : n ≤ 1
  · rcases Bits.nv_one h h1 x with e | e <;> rw [e] <;> rw [show sizeofBits n = 8 by simp [sizeofBits, h1]] <;>
      cases s <;> rfl
  · rw [sizeofBits_ge h1, ← holderTy_ge h1, Bits.nv_conv h]

/-- **C58, the signed number, exact**: the cast of a canonical unsigned value denotes
its two's complement number exactly for the widths of the C++ integer types (2-bit and
wider) and for values whose top bit is 0; otherwise it is the unsigned number and the
object is not canonical. Missing: the number of a value with a set top bit at the other widths,
which is wrong (`C58_refuted`). -/
theorem C58_signed_partial (h1 : 1 < n) (h : n ≤ 64) (x : Bits n false) (hx : x.Clean) :
    ((Full n ∨ x.bv.msb = false) → x.toSigned.toNum = x.bv.toInt ∧ x.toSigned.Clean) ∧
    (¬ Full n ∧ x.bv.msb = true → x.toSigned.toNum = x.bv.toNat ∧ x.toSigned.toNum ≠ x.bv.toInt ∧
      ¬ x.toSigned.Clean) := by
  have hb := (C58_bits x).1
  have hnv : x.toSigned.nv.v = (CTy.int (hw n) true).conv x.bv.toNat := by
    show (x.toSign true).nv.v = _
    rw [Bits.toSign, dif_pos h, Bits.nv_mkN, Bits.clean_unsigned_num h hx, holderTy_ge (by omega)]
  have hcl : x.toSigned.Clean ↔ x.toSigned.nv.v = x.bv.toInt := by
    rw [Bits.clean_native h, hb, numOf]
    simp [show ¬ n ≤ 1 by omega]
  have hlt := x.bv.isLt
  have hle := le_hw h
  rw [Bits.toNum_eq h, hcl, hnv]
  have hfull := Bits.full_iff (n := n) (by omega) h
  constructor
  · rintro (hf | hm)
    · rw [hfull.1 hf]
      have : (CTy.int n true).conv (x.bv.toNat : Int) = x.bv.toInt := by
        rw [CTy.conv, BitVec.toInt_eq_toNat_bmod]
      exact ⟨this, this⟩
    · have e : x.bv.toInt = x.bv.toNat := BitVec.toInt_eq_toNat_of_msb hm
      have hlt2 : x.bv.toNat < 2 ^ (n - 1) := by
        have := BitVec.msb_eq_false_iff_two_mul_lt.1 hm
        have e2 : 2 ^ n = 2 * 2 ^ (n - 1) := by rw [← Nat.pow_succ']; congr 1; omega
        omega
      have hp : 2 ^ (n - 1) ≤ 2 ^ (hw n - 1) := Nat.pow_le_pow_right (by omega) (by omega)
      have : (CTy.int (hw n) true).conv (x.bv.toNat : Int) = x.bv.toNat :=
        conv_signed_nat (by omega) (lt_of_lt_of_le hlt2 hp)
      rw [this, e]; simp
  · rintro ⟨hf, hm⟩
    have hne : hw n ≠ n := fun e => hf (hfull.2 e)
    have hp : 2 ^ n ≤ 2 ^ (hw n - 1) := Nat.pow_le_pow_right (by omega) (by omega)
    have : (CTy.int (hw n) true).conv (x.bv.toNat : Int) = x.bv.toNat :=
      conv_signed_nat (by omega) (lt_of_lt_of_le hlt hp)
    have hneg : x.bv.toInt < 0 := BitVec.toInt_neg_of_msb_true hm
    rw [this]
    refine ⟨rfl, by omega, by omega⟩

example : ∃ x : Bits 8 false, x.Clean ∧ x.bv = 200#8 ∧ x.toSigned.toNum = -56 :=
  ⟨Bits.ofInt 200, by decide +kernel⟩

/-- **C58 is false of the code** for every native width that is not that of a C++
integer type: the signed view of the pattern with only the top bit set is positive. -/
theorem C58_refuted (h1 : 1 < n) (h : n ≤ 64) (hf : ¬ Full n) :
    ∃ x : Bits n false, x.Clean ∧ x.bv.toInt < 0 ∧ 0 < x.toSigned.toNum := by
  obtain ⟨x, hx, hb⟩ := Bits.exists_clean (s := false) (BitVec.ofNat n (2 ^ (n - 1)))
  have hm : x.bv.msb = true := by
    rw [hb, BitVec.msb_eq_true_iff_two_mul_ge, BitVec.toNat_ofNat, Nat.mod_eq_of_lt
      (Nat.pow_lt_pow_right (by omega) (by omega)), ← Nat.pow_succ']
    apply Nat.pow_le_pow_right <;> omega
  obtain ⟨e, -⟩ := (C58_signed_partial h1 h x hx).2 ⟨hf, hm⟩
  refine ⟨x, hx, BitVec.toInt_neg_of_msb_true hm, ?_⟩
  rw [e, hb, BitVec.toNat_ofNat, Nat.mod_eq_of_lt (Nat.pow_lt_pow_right (by omega) (by omega))]
  positivity

/-! ## C59 -/

/-- **C59, 2-state.** `to_num()` of a canonical native value is the denoted number. -/
theorem C59_num (h : n ≤ 64) (x : Bits n s) (hx : x.Clean) : x.toNum = numOf s x.bv := by
  rw [Bits.toNum_eq h, ← (Bits.clean_native h x).1 hx]

/-- **C59, 2-state.** `to_uint64()` of a canonical native value is the denoted number
modulo 2^64; of a wide value it is the low 64 bits. -/
theorem C59_uint64 (x : Bits n s) (hx : x.Clean) :
    x.toUint64 = if n ≤ 64 then BitVec.ofInt 64 (numOf s x.bv) else x.bv.setWidth 64 := by
  by_cases h : n ≤ 64
  · rw [if_pos h, Bits.toUint64, dif_pos h, ← (Bits.clean_native h x).1 hx]
  · rw [if_neg h, Bits.toUint64, dif_neg h]
    apply BitVec.eq_of_getLsbD_eq
    intro i hi
    rw [Big.toUint64, BitVec.getLsbD_setWidth, Bits.getLsbD_bv, Bits.raw_big h, Big.raw]
    have h1 : i < n := by omega
    have h2 : i / 64 = 0 := by omega
    have h3 : i % 64 = i := by omega
    simp [hi, h1, h2, h3]

/-- **C59, 4-state.** A value with an x or z at a position the emptiness test looks at
(every position of a native value) converts to 0, a known value to its number. Missing: wide values
whose only x and z are at positions that test does not look at (`C59_logic_exact`, `C59_refuted`).
-/
theorem C59_logic_partial (x : Lg n s) :
    (x.SeenXZ → x.toUint64 = 0 ∧ x.toNum = 0) ∧
    (x.Known → x.toUint64 = x.value.toUint64 ∧ x.toNum = x.value.toNum) := by
  constructor
  · rintro ⟨i, hi, hs, hk⟩
    have := Lg.anySet_of_unknown hi hs hk
    rw [Lg.toUint64, Lg.toNum, this]; simp
  · intro hk
    rw [Lg.toUint64, Lg.toNum, hk.anySet]; simp

/-- **C59, native 4-state values**, as stated. -/
theorem C59_logic_native (h : n ≤ 64) (x : Lg n s) (hx : x.Clean) :
    x.toNum = if ∀ i, i < n → (x.at i).isKnown = true then numOf s x.value.bv else 0 := by
  by_cases hk : ∀ i, i < n → (x.at i).isKnown = true
  · rw [if_pos hk, ((C59_logic_partial x).2 ⟨hx.2, hk⟩).2, C59_num h _ hx.1]
  · rw [if_neg hk]
    push Not at hk
    obtain ⟨i, hi, hk⟩ := hk
    exact ((C59_logic_partial x).1 ⟨i, hi, Or.inl h, by simpa using hk⟩).2

example : ∃ x : Bits 5 true, x.Clean ∧ x.bv = 0b10110#5 ∧ x.toNum = -10 :=
  ⟨Bits.ofInt (-10), by decide +kernel⟩

/-- **C59 is false of the code** for wide 4-state values: an x at bit 40 is not seen. -/
theorem C59_refuted (h : 64 < n) : ∃ x : Lg n s, x.Clean ∧ x.at 40 = .x ∧ x.toUint64 = 1 := by
  obtain ⟨x, hx, hb⟩ := Lg.exists_clean n s (fun i => if i = 40 then .x else if i = 0 then .b1 else .b0)
  refine ⟨x, hx, hb 40 (by omega), ?_⟩
  have hnot : x.xz.anySet = false := by
    rw [Bool.eq_false_iff]
    intro ha
    obtain ⟨i, hs, hr⟩ := (Bits.anySet_iff _).1 ha
    have hin : i < n := by
      by_contra hc
      rw [(Bits.clean_unsigned_iff _).1 hx.2 i (by omega)] at hr
      exact absurd hr (by decide)
    have := hb i hin
    have hu : (x.at i).isKnown = false := by
      rw [Lg.at, isKnown_mk, Bits.getLsbD_bv x.xz, hr]; simp [hin]
    rw [this] at hu
    by_cases h40 : i = 40
    · subst h40; simp [seen] at hs; omega
    · rw [if_neg h40] at hu
      by_cases h0 : i = 0 <;> simp [h0] at hu <;> exact absurd hu (by decide)
  rw [Lg.toUint64, hnot]
  simp only [Bool.false_eq_true, if_false]
  rw [C59_uint64 _ hx.1, if_neg (by omega)]
  apply BitVec.eq_of_getLsbD_eq
  intro i hi
  have := hb i (by omega)
  rw [Lg.at] at this
  rw [BitVec.getLsbD_setWidth, show (1 : BitVec 64) = 1#64 from rfl, BitVec.getLsbD_one]
  by_cases h40 : i = 40
  · subst h40
    generalize x.value.bv.getLsbD 40 = v at *
    generalize x.xz.bv.getLsbD 40 = k at *
    revert this; cases v <;> cases k <;> decide
  · rw [if_neg h40] at this
    by_cases h0 : i = 0
    · subst h0
      generalize x.value.bv.getLsbD 0 = v at *
      generalize x.xz.bv.getLsbD 0 = k at *
      revert this; cases v <;> cases k <;> decide
    · rw [if_neg h0] at this
      generalize x.value.bv.getLsbD i = v at *
      generalize x.xz.bv.getLsbD i = k at *
      revert this; cases v <;> cases k <;> simp [V4.mk, h0]

/-! ## C60 -/

/-- **C60, the bits.** Native widths from 2 on: the low `n` bits of the integer. -/
theorem C60_bits (h1 : 1 < n) (h : n ≤ 64) (k : Int) : (Bits.ofInt k : Bits n s).bv = BitVec.ofInt n k := by
  rw [Bits.ofInt, dif_pos h, Bits.bv_mkN h (by omega), holderTy_ge (by omega)]
  exact ofInt_conv (le_hw h) k

/-- **C60, one bit**: the holder is a `bool`, any non-zero integer gives 1. -/
theorem C60_one_bit (k : Int) : (Bits.ofInt k : Bits 1 s).bv = if k = 0 then 0#1 else 1#1 := by
  rw [Bits.ofInt, dif_pos (by decide), Bits.bv_mkN_one (by decide) (by decide), holderTy_one (by decide)]
  by_cases hk : k = 0
  · subst hk; rfl
  · simp only [CTy.conv, if_neg hk]; rfl

/-- **C60, canonical form**: the constructed value is canonical exactly when the integer
(converted to the holder type) is a number of the declared width and sign. -/
theorem C60_clean_iff (h1 : 1 < n) (h : n ≤ 64) (k : Int) :
    (Bits.ofInt k : Bits n s).Clean ↔ (holderTy n s).conv k = numOf s (BitVec.ofInt n k) := by
  rw [Bits.clean_native h, C60_bits h1 h, Bits.ofInt, dif_pos h, Bits.nv_mkN]
  simp only
  rw [conv_conv]

/-- **C60, congruent integers**, for the widths of the C++ types: the same object. Missing: the
other widths, for which it is false (`C60_refuted`); the bits are right there too (`C60_bits`). -/
theorem C60_congr_partial (h1 : 1 < n) (hf : Full n) (k l : Int) (e : k % 2 ^ n = l % 2 ^ n) :
    (Bits.ofInt k : Bits n s) = Bits.ofInt l := by
  have h : n ≤ 64 := by rcases hf with h | h | h | h | h <;> omega
  have hw := (Bits.full_iff (by omega) h).1 hf
  apply Bits.ext_native h
  rw [Bits.ofInt, dif_pos h, Bits.ofInt, dif_pos h, Bits.hold_mkN h (by omega), Bits.hold_mkN h (by omega),
    holderTy_ge (by omega), ofInt_conv (le_refl _), ofInt_conv (le_refl _), hw]
  apply ofInt_congr
  exact_mod_cast e

example : (Bits.ofInt 300 : Bits 8 false) = Bits.ofInt 44 := C60_congr_partial (by decide) (by decide) _ _ (by decide)

/-- **C60, wide values, exact**: the low limb is set, all higher bits are 0. -/
theorem C60_wide (h : 64 < n) (k : Int) : (Bits.ofInt k : Bits n s).bv = (BitVec.ofInt 64 k).setWidth n := by
  have h' : ¬ n ≤ 64 := by omega
  rw [Bits.ofInt, dif_neg h', Bits.bv_big h', Bits.bg_big, Big.bv_ofU64 (by omega)]

/-- **C60 is false of the code.** For every native width that is not that of a C++
type, `2^n` and 0 give different values (`==` is false); the one bit value made from 2
is 1; a wide value made from -1 has bit 64 clear. -/
theorem C60_refuted :
    (∀ n, 1 < n → n ≤ 64 → ¬ Full n →
      (Bits.ofInt (2 ^ n) : Bits n false).eq (Bits.ofInt 0 : Bits n false) = false) ∧
    (Bits.ofInt 2 : Bits 1 false).bv = 1#1 ∧
    (∀ n s, 64 < n → (Bits.ofInt (-1) : Bits n s).bv.getLsbD 64 = false) := by
  refine ⟨fun n h1 h hf => ?_, by decide, fun n s h => ?_⟩
  · have hne : hw n ≠ n := fun e => hf ((Bits.full_iff (by omega) h).2 e)
    have hle := le_hw h
    have hlt : (2 : Int) ^ n < 2 ^ hw n := by exact_mod_cast Nat.pow_lt_pow_right (by omega) (by omega)
    have hpos : (0 : Int) < 2 ^ n := by positivity
    have e1 : (Bits.ofInt (2 ^ n) : Bits n false).nv.v = 2 ^ n := by
      rw [Bits.ofInt, dif_pos h, Bits.nv_mkN]
      simp only
      rw [conv_conv, holderTy_ge (by omega), CTy.conv_unsigned_of_lt (by omega) hlt]
    have e2 : (Bits.ofInt 0 : Bits n false).nv.v = 0 := by
      rw [Bits.ofInt, dif_pos h, Bits.nv_mkN]
      simp only
      rw [conv_conv, holderTy_ge (by omega), CTy.conv_unsigned_of_lt (by omega) (by omega)]
    rw [Bool.eq_false_iff]
    intro he
    rw [Bits.eq_native h h, Bits.nv_conv h, e1, e2, decide_eq_true_iff] at he
    omega
  · rw [C60_wide h]; simp

/-! ## C85 -/

/-- **C85.** `k_bit` and `k_bit64`: the number modulo 2^32 or 2^64, canonical, signed. -/
theorem C85_bit (k : BitVec 64) :
    (litBit k).bv = k.setWidth 32 ∧ (litBit k).Clean ∧ (litBit k).toNum = (k.toNat : Int).bmod (2 ^ 32) ∧
    (litBit64 k).bv = k ∧ (litBit64 k).Clean ∧ (litBit64 k).toNum = k.toInt := by
  have e1 : litBit k = Bits.ofInt (tInt.conv k.toNat) := Bits.extend_self _
  have e2 : litBit64 k = Bits.ofInt ((CTy.int 64 true).conv k.toNat) := Bits.extend_self _
  have b1 : (litBit k).bv = k.setWidth 32 := by
    rw [e1, C60_bits (by decide) (by decide), ofInt_conv (le_refl _), ofInt_natCast, BitVec.ofNat_toNat]
  have b2 : (litBit64 k).bv = k := by
    rw [e2, C60_bits (by decide) (by decide), ofInt_conv (le_refl _), ofInt_natCast, BitVec.ofNat_toNat,
      BitVec.setWidth_eq]
  have n1 : (litBit k).nv.v = (k.toNat : Int).bmod (2 ^ 32) := by
    rw [e1, Bits.ofInt, dif_pos (by decide), Bits.nv_mkN]
    have ht : holderTy 32 true = tInt := rfl
    simp only [ht, conv_conv]
    rfl
  have n2 : (litBit64 k).nv.v = (k.toNat : Int).bmod (2 ^ 64) := by
    rw [e2, Bits.ofInt, dif_pos (by decide), Bits.nv_mkN]
    have ht : holderTy 64 true = CTy.int 64 true := rfl
    simp only [ht, conv_conv]
    rfl
  refine ⟨b1, ?_, by rw [Bits.toNum_eq (by decide), n1], b2, ?_, ?_⟩
  · rw [Bits.clean_native (by decide), n1, b1]
    show _ = (k.setWidth 32).toInt
    rw [BitVec.toInt_eq_toNat_bmod, BitVec.toNat_setWidth, Int.natCast_emod, Int.emod_bmod]
  · rw [Bits.clean_native (by decide), n2, b2]
    show _ = k.toInt
    rw [BitVec.toInt_eq_toNat_bmod]
  · rw [Bits.toNum_eq (by decide), n2, BitVec.toInt_eq_toNat_bmod]

/-- **C85.** `k_logic` and `k_logic64`: the same number, no x or z. -/
theorem C85_logic (k : BitVec 64) :
    (litLogic k).value = litBit k ∧ (litLogic k).Known ∧ (litLogic k).toNum = (k.toNat : Int).bmod (2 ^ 32) ∧
    (litLogic64 k).value = litBit64 k ∧ (litLogic64 k).Known ∧ (litLogic64 k).toNum = k.toInt := by
  have k1 : (litLogic k).Known := by
    have : (litLogic k).xz = Bits.zero := Bits.extend_self (Bits.zero : Bits 32 false)
    apply Lg.known_of_raw
    rw [this]
    intro i; exact Bits.raw_zero i
  have k2 : (litLogic64 k).Known := by
    have : (litLogic64 k).xz = Bits.zero := Bits.extend_self (Bits.zero : Bits 64 false)
    apply Lg.known_of_raw
    rw [this]
    intro i; exact Bits.raw_zero i
  obtain ⟨-, -, h1, -, -, h2⟩ := C85_bit k
  refine ⟨rfl, k1, ?_, rfl, k2, ?_⟩
  · rw [((C59_logic_partial _).2 k1).2]; exact h1
  · rw [((C59_logic_partial _).2 k2).2]; exact h2

example : (litBit 4294967295#64).toNum = -1 ∧ (litLogic64 7#64).toNum = 7 := by decide +kernel

end Verif
