import Verif.Props.FormatWide
import Verif.Props.FormatPad
import Verif.Show

/-!
# Decimal text of objects with unknown bits (C99)
-/

namespace Verif
variable {n m : Nat} {s t : Bool}

/-- IEEE 1800 21.2.1.3: the letter that stands for a decimal value with unknown bits -/
def unkLetter (n : Nat) (f : Nat → V4) : Char :=
  if ∀ i, i < n → f i = .x then 'x'
  else if ∀ i, i < n → f i = .z then 'z'
  else if ∃ i, i < n ∧ f i = .x then 'X'
  else 'Z'

theorem unkLetter_congr {f g : Nat → V4} (h : ∀ i, i < n → f i = g i) : unkLetter n f = unkLetter n g := by
  have e1 : ∀ v, (∀ i, i < n → f i = v) ↔ (∀ i, i < n → g i = v) := fun v =>
    ⟨fun a i hi => by rw [← h i hi, a i hi], fun a i hi => by rw [h i hi, a i hi]⟩
  have e2 : (∃ i, i < n ∧ f i = .x) ↔ (∃ i, i < n ∧ g i = .x) :=
    ⟨fun ⟨i, hi, a⟩ => ⟨i, hi, by rw [← h i hi, a]⟩, fun ⟨i, hi, a⟩ => ⟨i, hi, by rw [h i hi, a]⟩⟩
  simp only [unkLetter, e1, e2]

theorem V4.mk_x {v k : Bool} : V4.mk v k = .x ↔ v = false ∧ k = true := by revert v k; decide
theorem V4.mk_z {v k : Bool} : V4.mk v k = .z ↔ v = true ∧ k = true := by revert v k; decide

/-- the nested tests of `fmt_decimal` and of the wide decimal branch compute the letter -/
theorem letter_core {v k : Nat → Bool} {all vz vo hx : Prop} [Decidable all] [Decidable vz] [Decidable vo] [Decidable hx]
    (h0 : 0 < n) (h1 : all ↔ ∀ i, i < n → k i = true) (h2 : all → (vz ↔ ∀ i, i < n → v i = false))
    (h3 : all → (vo ↔ ∀ i, i < n → v i = true)) (h4 : hx ↔ ∃ i, i < n ∧ v i = false ∧ k i = true) :
    (if all then (if vz then ['x'] else if vo then ['z'] else ['X']) else if hx then ['X'] else ['Z']) =
      [unkLetter n fun i => V4.mk (v i) (k i)] := by
  rw [unkLetter]
  simp only [V4.mk_x, V4.mk_z]
  by_cases ha : all
  · have hk := h1.1 ha
    have e1 : (∀ i, i < n → v i = false ∧ k i = true) ↔ vz := by
      rw [h2 ha]; exact ⟨fun a i hi => (a i hi).1, fun a i hi => ⟨a i hi, hk i hi⟩⟩
    have e2 : (∀ i, i < n → v i = true ∧ k i = true) ↔ vo := by
      rw [h3 ha]; exact ⟨fun a i hi => (a i hi).1, fun a i hi => ⟨a i hi, hk i hi⟩⟩
    rw [if_pos ha]
    simp only [e1, e2]
    by_cases hz : vz
    · rw [if_pos hz, if_pos hz]
    · by_cases ho : vo
      · rw [if_neg hz, if_neg hz, if_pos ho, if_pos ho]
      · rw [if_neg hz, if_neg hz, if_neg ho, if_neg ho, if_pos]
        by_contra hc
        apply ho
        rw [h3 ha]
        intro i hi
        by_contra hv
        exact hc ⟨i, hi, by simpa using hv, hk i hi⟩
  · have hk : ¬ ∀ i, i < n → k i = true := fun a => ha (h1.2 a)
    have e1 : ¬ ∀ i, i < n → v i = false ∧ k i = true := fun a => hk fun i hi => (a i hi).2
    have e2 : ¬ ∀ i, i < n → v i = true ∧ k i = true := fun a => hk fun i hi => (a i hi).2
    rw [if_neg ha, if_neg e1, if_neg e2]
    by_cases hh : hx
    · rw [if_pos hh, if_pos (h4.1 hh)]
    · rw [if_neg hh, if_neg (fun a => hh (h4.2 a))]

theorem allOnes_shift {n : Nat} (h : n ≤ 64) (i : Nat) : (BitVec.allOnes 64 >>> (64 - n)).getLsbD i = decide (i < n) := by
  rw [BitVec.getLsbD_ushiftRight, BitVec.getLsbD_allOnes]
  by_cases hi : i < n <;> simp [hi] <;> omega

/-- `fmt_decimal` of a word with an unknown bit -/
theorem fmtDecimal_letter (h0 : 0 < n) (h64 : n ≤ 64) (v k : BitVec n) (hk : k ≠ 0) :
    fmtDecimal n (v.setWidth 64) (k.setWidth 64) = [unkLetter n fun i => V4.mk (v.getLsbD i) (k.getLsbD i)] := by
  have inj : ∀ a : BitVec n, a.setWidth 64 = (0 : BitVec 64) ↔ a = 0 := by
    intro a
    constructor
    · intro h
      apply BitVec.eq_of_getLsbD_eq
      intro i hi
      have := congrArg (fun b => b.getLsbD i) h
      simp at this
      have := this (by omega)
      rw [this]; simp
    · intro h; subst h; simp
  have ones : ∀ a : BitVec n, a.setWidth 64 = (BitVec.allOnes 64 >>> (64 - n)) ↔ ∀ i, i < n → a.getLsbD i = true := by
    intro a
    constructor
    · intro h i hi
      have := congrArg (fun b => b.getLsbD i) h
      simp only [BitVec.getLsbD_setWidth, allOnes_shift h64] at this
      simp [hi] at this
      exact this.2
    · intro h
      apply BitVec.eq_of_getLsbD_eq
      intro i hi
      rw [BitVec.getLsbD_setWidth, allOnes_shift h64]
      by_cases hin : i < n
      · rw [h i hin]; simp [hin]; omega
      · rw [BitVec.getLsbD_of_ge a i (by omega)]; simp [hin]
  rw [fmtDecimal, if_pos (fun h => hk ((inj k).1 h))]
  apply letter_core h0
  · exact ones k
  · intro _
    rw [show (v.setWidth 64 = 0) ↔ v = 0 from inj v]
    constructor
    · intro h i _; rw [h]; simp
    · intro h
      apply BitVec.eq_of_getLsbD_eq
      intro i hi
      rw [h i hi]; simp
  · intro _; exact ones v
  · rw [List.any_eq_true]
    constructor
    · rintro ⟨i, hi, h⟩
      rw [List.mem_range] at hi
      simp only [BitVec.getLsbD_setWidth, show i < 64 by omega, decide_true, Bool.true_and, Bool.and_eq_true,
        Bool.not_eq_true'] at h
      exact ⟨i, hi, h.2, h.1⟩
    · rintro ⟨i, hi, a, b⟩
      refine ⟨i, List.mem_range.2 hi, ?_⟩
      simp only [BitVec.getLsbD_setWidth, show i < 64 by omega, decide_true, Bool.true_and, a, b]
      rfl

theorem Bits.word_nonneg (hn : 0 < n) (h64 : n ≤ 64) {x : Bits n s} (hx : x.Clean) (h : 0 ≤ x.nv.v) :
    BitVec.ofInt 64 x.nv.v = x.bv.setWidth 64 := by
  have hv := (Bits.clean_native h64 x).1 hx
  rw [hv] at h ⊢
  have : numOf s x.bv = x.bv.toNat := by
    unfold numOf at h ⊢
    split_ifs at h ⊢
    · rw [BitVec.toInt_eq_toNat_cond] at h ⊢
      have := x.bv.isLt
      split_ifs at h ⊢ <;> omega
    · rfl
  rw [this, BitVec.ofInt_natCast]
  apply BitVec.eq_of_toNat_eq
  simp

theorem Lg.xz_word (h64 : n ≤ 64) {x : Lg n s} (hc : x.xz.Clean) (hn : 0 < n) :
    BitVec.ofInt 64 x.xz.nv.v = x.xz.bv.setWidth 64 := by
  apply Bits.word_nonneg hn h64 hc
  rw [(Bits.clean_native h64 _).1 hc]
  simp [numOf]

theorem Lg.xz_ne {x : Lg n s} (h : ∃ i, i < n ∧ (x.at i).isKnown = false) : x.xz.bv ≠ 0 := by
  obtain ⟨i, hi, hk⟩ := h
  intro hz
  rw [Lg.at, hz] at hk
  revert hk
  cases x.value.bv.getLsbD i <;> simp [V4.mk, V4.isKnown, V4.known?]

/-- **C99, native, exact.** `str("0d")` of a native object with unknown bits. Of a signed object
whose stored value plane is negative (top bit 1 or z) the value plane is negated first. -/
theorem C99_exact (hn : 0 < n) (h64 : n ≤ 64) (x : Lg n s) (hc : x.Clean) (hu : ∃ i, i < n ∧ (x.at i).isKnown = false)
    {b : Char} (hb : b = 'd' ∨ b = 'D') (hmin : s = true → n = 32 ∨ n = 64 → x.value.bv ≠ BitVec.intMin n) :
    x.str ['0', b] = .ok (if numOf s x.value.bv < 0 then
      ['-', unkLetter n fun i => V4.mk ((-x.value.bv).getLsbD i) (x.xz.bv.getLsbD i)]
      else [unkLetter n x.at]) := by
  have hdec : isDec b = true := by rcases hb with rfl | rfl <;> rfl
  have hnb : ¬ ('0' ≤ b ∧ b ≤ '9') := by rcases hb with rfl | rfl <;> decide
  have hd : decimalFmt ['0', b] = true := by
    rw [show ['0', b] = ['0'] ++ b :: [] from rfl, decimalFmt_letter hnb (by decide), hdec]
  have hbody : ∀ v k : BitVec 64, body4 b n v k = fmtDecimal n v k := by
    intro v k
    rcases hb with rfl | rfl <;> rfl
  have hbody4 : ∀ (v k : BitVec 64) (neg : Bool), toString4 ['0', b] n v k neg = .ok (minusText neg b (fmtDecimal n v k)) := by
    intro v k neg
    rw [toString4, toString4_, parseFmt_0d hb (size := n) (by omega), res_bind_ok, if_pos rfl, hbody, padResult_full (by simp)]
  have hv := (Bits.clean_native h64 x.value).1 hc.1
  have hxz := Lg.xz_ne hu
  rw [Lg.str, dif_pos h64, hd, Bool.and_true, Bits.negative, dif_pos h64]
  by_cases hneg : numOf s x.value.bv < 0
  · obtain ⟨hs, -, -, -⟩ := (split_sign hn h64 hc.1 hmin).1 (by rw [hv]; exact hneg)
    have h1 : ¬ n ≤ 1 := by
      intro h
      unfold numOf at hneg
      simp [h] at hneg
      omega
    obtain ⟨z, hz, hzc, hzb⟩ := Bits.negate_native h64 hn x.value (by
      intro hs' h16 he
      have hle := le_hw h64
      rw [hv, numOf, if_pos (by simp [hs, h1])] at he
      have hlo := BitVec.le_toInt x.value.bv
      have hne : n = hw n := by
        by_contra hne
        have : (2 : Int) ^ (n - 1) < 2 ^ (hw n - 1) := pow_lt_pow_right₀ (by norm_num) (by omega)
        omega
      apply hmin hs (by rcases hw_cases n with h | h | h | h | h <;> omega)
      apply BitVec.eq_of_toInt_eq
      rw [BitVec.toInt_intMin_of_pos hn, he, ← hne])
    have hz0 : 0 ≤ z.nv.v := by
      rw [(Bits.clean_native h64 z).1 hzc]
      simp [numOf]
    rw [if_pos hneg, if_pos (by rw [hv]; simpa using ⟨hs, hneg⟩), hz, res_bind_ok, hbody4, Bits.word_nonneg hn h64 hzc hz0,
      Lg.xz_word h64 hc.2 hn, fmtDecimal_letter hn h64 _ _ hxz, minusText, hdec, if_pos (by decide), hzb]
    rfl
  · have hnn : 0 ≤ x.value.nv.v := by rw [hv]; omega
    rw [if_neg hneg, if_neg (by rw [hv]; simp; intro _; omega), hbody4, Bits.word_nonneg hn h64 hc.1 hnn,
      Lg.xz_word h64 hc.2 hn, fmtDecimal_letter hn h64 _ _ hxz, minusText, hdec, if_neg (by decide)]
    rfl

/-- **C99, partial.** The decimal text of a native object with unknown bits is the letter of IEEE
1800 21.2.1.3: `x` or `z` when all bits are x or z, `X` when some bit is x, else `Z`. Missing: wide
objects and signed objects whose top bit is 1 or z (`C99_refuted`, `C99_wide_refuted`). -/
theorem C99_decimal_partial (hn : 0 < n) (h64 : n ≤ 64) (x : Lg n s) (hc : x.Clean)
    (hu : ∃ i, i < n ∧ (x.at i).isKnown = false) (hs : s = true → 1 < n → x.at (n - 1) = .b0 ∨ x.at (n - 1) = .x)
    {b : Char} (hb : b = 'd' ∨ b = 'D') :
    ((∀ i, i < n → x.at i = .x) → x.str ['0', b] = .ok ['x']) ∧
    ((∀ i, i < n → x.at i = .z) → x.str ['0', b] = .ok ['z']) ∧
    ((∃ i, i < n ∧ x.at i = .x) → (∃ i, i < n ∧ x.at i ≠ .x) → x.str ['0', b] = .ok ['X']) ∧
    ((∀ i, i < n → x.at i ≠ .x) → (∃ i, i < n ∧ x.at i ≠ .z) → x.str ['0', b] = .ok ['Z']) := by
  have hmsb : s = true → 1 < n → x.value.bv.msb = false := by
    intro h1 h2
    rw [BitVec.msb_eq_getLsbD_last]
    have := hs h1 h2
    rw [Lg.at] at this
    revert this
    cases x.value.bv.getLsbD (n - 1) <;> cases x.xz.bv.getLsbD (n - 1) <;> simp [V4.mk]
  have hnn : ¬ numOf s x.value.bv < 0 := by
    unfold numOf
    split_ifs with h
    · have hs1 : s = true := by revert h; cases s <;> simp
      have h1 : ¬ n ≤ 1 := by revert h; cases s <;> simp
      rw [BitVec.toInt_eq_msb_cond, hmsb hs1 (by omega)]; simp
    · omega
  have key := C99_exact hn h64 x hc hu hb (by
    intro h1 h2 he
    have := hmsb h1 (by omega)
    rw [he, BitVec.msb_intMin] at this
    simp at this; omega)
  rw [if_neg hnn] at key
  rw [key]
  have e : ∀ {c d : Char}, c = d → (Except.ok [c] : Res (List Char)) = .ok [d] := fun h => by rw [h]
  refine ⟨fun h => ?_, fun h => ?_, fun h1 h2 => ?_, fun h1 h2 => ?_⟩ <;> apply e <;> unfold unkLetter
  · rw [if_pos h]
  · have hx : ¬ ∀ i, i < n → x.at i = .x := fun a => by have := a 0 hn; rw [h 0 hn] at this; cases this
    rw [if_neg hx, if_pos h]
  · have hx : ¬ ∀ i, i < n → x.at i = .x := fun a => by obtain ⟨i, hi, hne⟩ := h2; exact hne (a i hi)
    have hz : ¬ ∀ i, i < n → x.at i = .z := fun a => by
      obtain ⟨i, hi, hne⟩ := h1; rw [a i hi] at hne; cases hne
    rw [if_neg hx, if_neg hz, if_pos h1]
  · have hx : ¬ ∀ i, i < n → x.at i = .x := fun a => h1 0 hn (a 0 hn)
    have hz : ¬ ∀ i, i < n → x.at i = .z := fun a => by obtain ⟨i, hi, hne⟩ := h2; exact hne (a i hi)
    have hxe : ¬ ∃ i, i < n ∧ x.at i = .x := fun ⟨i, hi, a⟩ => h1 i hi a
    rw [if_neg hx, if_neg hz, if_neg hxe]

/-- **C99 is false for signed native objects**: at every width from 2 bits on, the object with all
bits z is shown as `-X` and not as `z`. -/
theorem C99_refuted (h1 : 1 < n) (h64 : n ≤ 64) (x : Lg n true) (hc : x.Clean) (hz : ∀ i, i < n → x.at i = .z)
    {b : Char} (hb : b = 'd' ∨ b = 'D') : x.str ['0', b] = .ok ['-', 'X'] := by
  have hpl : ∀ i, i < n → x.value.bv.getLsbD i = true ∧ x.xz.bv.getLsbD i = true := by
    intro i hi
    have := hz i hi
    rw [Lg.at, V4.mk_z] at this
    exact this
  have hv : x.value.bv = BitVec.allOnes n := by
    apply BitVec.eq_of_getLsbD_eq
    intro i hi
    rw [(hpl i hi).1, BitVec.getLsbD_allOnes]; simp [hi]
  have hneg1 : -x.value.bv = 1#n := by rw [hv, ← BitVec.neg_one_eq_allOnes, BitVec.neg_neg]
  have key := C99_exact (by omega) h64 x hc ⟨0, by omega, by rw [hz 0 (by omega)]; rfl⟩ hb (by
    intro _ _ he
    have := congrArg (fun v => BitVec.getLsbD v 0) he
    rw [show BitVec.getLsbD x.value.bv 0 = true from (hpl 0 (by omega)).1, BitVec.getLsbD_intMin] at this
    simp at this; omega)
  have hnum : numOf true x.value.bv < 0 := by
    rw [numOf, if_pos (by simp; omega), hv, BitVec.toInt_allOnes, if_pos (by omega)]
    decide
  rw [key, if_pos hnum, hneg1]
  congr 3
  have bit : ∀ i, i < n → V4.mk ((1#n).getLsbD i) (x.xz.bv.getLsbD i) = if i = 0 then .z else .x := by
    intro i hi
    rw [(hpl i hi).2, BitVec.getLsbD_one]
    by_cases h : i = 0
    · subst h; simp [hi, V4.mk]
    · simp [h, V4.mk]
  rw [unkLetter_congr bit, unkLetter, if_neg, if_neg, if_pos]
  · exact ⟨1, h1, rfl⟩
  · intro a; have := a 1 h1; simp at this
  · intro a; have := a 0 (by omega); simp at this

example : ∃ x : Lg 12 false, Lg.ofString "12'b1x0000000000".toList = .ok x ∧ x.Clean ∧ x.str ['0', 'd'] = .ok ['X'] :=
  ⟨_, rfl, by decide +kernel, by decide +kernel⟩

example : ∃ x : Lg 4 true, x.Clean ∧ (∀ i, i < 4 → x.at i = .z) ∧ x.str ['0', 'd'] = .ok ['-', 'X'] := by
  obtain ⟨x, hc, hx⟩ := Lg.exists_clean 4 true fun _ => .z
  exact ⟨x, hc, hx, C99_refuted (by decide) (by decide) x hc hx (Or.inl rfl)⟩

/-! ### wide objects -/

theorem bigDecimal4_letter {size : Nat} (h64 : 64 < size) {v k : Nat} (hv : v < 2 ^ 128) (hk : k < 2 ^ 128)
    (hks : k < 2 ^ size) (h0 : k ≠ 0) :
    bigDecimal4 size v k = [if size < 128 then (if ∃ i, i < size ∧ v.testBit i = false ∧ k.testBit i = true then 'X' else 'Z')
      else unkLetter 128 fun i => V4.mk (v.testBit i) (k.testBit i)] := by
  have zero : v = 0 ↔ ∀ i, i < 128 → v.testBit i = false := by
    constructor
    · intro h i _; rw [h]; simp
    · intro h
      apply Nat.eq_of_testBit_eq
      intro i
      by_cases hi : i < 128
      · rw [h i hi]; simp
      · rw [Nat.testBit_eq_false_of_lt (lt_of_lt_of_le hv (Nat.pow_le_pow_right (by decide) (by omega)))]; simp
  have ones : ∀ a : Nat, a < 2 ^ 128 → (a = 2 ^ 128 - 1 ↔ ∀ i, i < 128 → a.testBit i = true) := by
    intro a ha
    constructor
    · intro h i hi; rw [h, Nat.testBit_two_pow_sub_one]; simp [hi]
    · intro h
      apply Nat.eq_of_testBit_eq
      intro i
      rw [Nat.testBit_two_pow_sub_one]
      by_cases hi : i < 128
      · rw [h i hi]; simp [hi]
      · rw [Nat.testBit_eq_false_of_lt (lt_of_lt_of_le ha (Nat.pow_le_pow_right (by decide) (by omega)))]; simp [hi]
  have any : ((List.range (min size 128)).any fun i => k.testBit i && !v.testBit i) = true ↔
      ∃ i, i < min size 128 ∧ v.testBit i = false ∧ k.testBit i = true := by
    rw [List.any_eq_true]
    constructor
    · rintro ⟨i, hi, h⟩
      rw [List.mem_range] at hi
      simp only [Bool.and_eq_true, Bool.not_eq_true'] at h
      exact ⟨i, hi, h.2, h.1⟩
    · rintro ⟨i, hi, a, b⟩
      exact ⟨i, List.mem_range.2 hi, by simp [a, b]⟩
  rw [bigDecimal4, if_pos h0]
  by_cases hs : size < 128
  · have hne : k ≠ 2 ^ 128 - 1 := by
      intro h
      have : 2 ^ size ≤ 2 ^ 127 := Nat.pow_le_pow_right (by decide) (by omega)
      have h3 : 2 ^ 128 = 2 * 2 ^ 127 := by norm_num
      have h4 : 0 < 2 ^ 127 := by positivity
      omega
    have e : min size 128 = size := by omega
    rw [e] at any ⊢
    rw [if_neg hne, if_pos hs]
    by_cases hh : ∃ i, i < size ∧ v.testBit i = false ∧ k.testBit i = true
    · rw [if_pos hh, if_pos (any.2 hh)]
    · rw [if_neg hh, if_neg (fun a => hh (any.1 a))]
  · have e : min size 128 = 128 := by omega
    rw [if_neg hs]
    apply letter_core (by decide)
    · exact ones k hk
    · intro _; exact zero
    · intro _; exact ones v hv
    · rw [any, e]

theorem toStringBig4_dec_unk {b : Char} (hb : b = 'd' ∨ b = 'D') (hn : ¬ n ≤ 64) (h128 : n ≠ 128) (V : Big n s)
    {t : Bool} (K : Big n t) (neg : Bool) :
    toStringBig4 ['0', b] n V.vals K.vals neg =
      .ok (minusText neg b (bigDecimal4 n (val V.vals % 2 ^ 128) (val K.vals % 2 ^ 128))) := by
  have hdec : isDec b = true := by rcases hb with rfl | rfl <;> rfl
  obtain ⟨p, hp⟩ := parseFmt_0d_wide hb h128
  rw [toStringBig4, hp, res_bind_ok]
  simp only
  rw [hdec, if_neg (by decide), low128_eq hn, low128_eq hn, res_bind_ok, res_map_ok, res_bind_ok,
    padResult_full (by simp)]

/-- **C99, wide, exact** for objects whose value plane is not negative: only the low 128 bits count.
Below 128 bits the letters `x` and `z` are never shown. Unknown bits above bit 127 alone do not
show: the low 128 bits are printed as a number. -/
theorem C99_wide_exact (hn : ¬ n ≤ 64) (h128 : n ≠ 128) (x : Lg n s) (hc : x.Clean) (hs : s = true → x.value.bv.msb = false)
    {b : Char} (hb : b = 'd' ∨ b = 'D') :
    x.str ['0', b] = .ok (if ∃ i, i < min n 128 ∧ (x.at i).isKnown = false then
        [if n < 128 then (if ∃ i, i < n ∧ x.at i = .x then 'X' else 'Z') else unkLetter 128 x.at]
      else wideDec (x.value.bv.toNat % 2 ^ 128)) := by
  have hdec : isDec b = true := by rcases hb with rfl | rfl <;> rfl
  have hnb : ¬ ('0' ≤ b ∧ b ≤ '9') := by rcases hb with rfl | rfl <;> decide
  have hd : decimalFmt ['0', b] = true := by
    rw [show ['0', b] = ['0'] ++ b :: [] from rfl, decimalFmt_letter hnb (by decide), hdec]
  have hv : x.value.bv.toNat = val (x.value.bg hn).vals := by
    rw [Bits.bv_big hn, Big.Clean.toNat_bv ((Bits.clean_big hn _).1 hc.1)]
  have hk : x.xz.bv.toNat = val (x.xz.bg hn).vals := by
    rw [Bits.bv_big hn, Big.Clean.toNat_bv ((Bits.clean_big hn _).1 hc.2)]
  have hneg : x.value.negative = x.value.bv.msb := by
    rw [Bits.negative, dif_neg hn, Big.negative_eq _ (by omega), ← Bits.bv_big hn]
  have hcond : (s && x.value.bv.msb) = false := by
    cases s
    · rfl
    · rw [hs rfl]; rfl
  have bit : ∀ i, i < 128 → V4.mk ((x.value.bv.toNat % 2 ^ 128).testBit i) ((x.xz.bv.toNat % 2 ^ 128).testBit i) = x.at i := by
    intro i hi
    rw [Nat.testBit_mod_two_pow, Nat.testBit_mod_two_pow, Lg.at, decide_eq_true hi, Bool.true_and, Bool.true_and]
    rfl
  have unk : (x.xz.bv.toNat % 2 ^ 128 ≠ 0) ↔ ∃ i, i < min n 128 ∧ (x.at i).isKnown = false := by
    constructor
    · intro h
      obtain ⟨i, hi⟩ := Nat.exists_testBit_of_ne_zero h
      rw [Nat.testBit_mod_two_pow] at hi
      simp only [Bool.and_eq_true, decide_eq_true_eq] at hi
      have hin : i < n := by
        by_contra hc
        rw [Nat.testBit_eq_false_of_lt (lt_of_lt_of_le x.xz.bv.isLt (Nat.pow_le_pow_right (by decide) (by omega)))] at hi
        simp at hi
      refine ⟨i, by omega, ?_⟩
      rw [Lg.at]
      have : x.xz.bv.getLsbD i = true := hi.2
      rw [this]
      cases x.value.bv.getLsbD i <;> rfl
    · rintro ⟨i, hi, hu⟩ h
      rw [Lg.at] at hu
      have h2 := congrArg (fun a => a.testBit i) h
      simp only [Nat.testBit_mod_two_pow, Nat.zero_testBit, show i < 128 by omega, decide_true, Bool.true_and] at h2
      have : x.xz.bv.getLsbD i = false := h2
      rw [this] at hu
      revert hu
      cases x.value.bv.getLsbD i <;> simp [V4.mk, V4.isKnown, V4.known?]
  rw [Lg.str, dif_neg hn, hd, Bool.and_true, hneg, hcond, if_neg (by decide), toStringBig4_dec_unk hb hn h128, ← hv, ← hk,
    minusText, if_neg (by simp)]
  by_cases h0 : x.xz.bv.toNat % 2 ^ 128 = 0
  · rw [if_neg (fun a => (unk.2 a) h0), bigDecimal4, if_neg (by simpa using h0), lsDigits_wide (Nat.mod_lt _ (by decide))]
  · have ml : ∀ a : Nat, a < 2 ^ n → a % 2 ^ 128 < 2 ^ n := fun a h => lt_of_le_of_lt (Nat.mod_le _ _) h
    rw [if_pos (unk.1 h0), bigDecimal4_letter (by omega) (Nat.mod_lt _ (by decide)) (Nat.mod_lt _ (by decide))
      (ml _ x.xz.bv.isLt) h0, List.reverse_singleton, unkLetter_congr (g := x.at) bit]
    by_cases hlt : n < 128
    · rw [if_pos hlt, if_pos hlt]
      have e : (∃ i, i < n ∧ (x.value.bv.toNat % 2 ^ 128).testBit i = false ∧ (x.xz.bv.toNat % 2 ^ 128).testBit i = true) ↔
          ∃ i, i < n ∧ x.at i = .x := by
        constructor
        · rintro ⟨i, hi, a⟩
          exact ⟨i, hi, by rw [← bit i (by omega), V4.mk_x]; exact a⟩
        · rintro ⟨i, hi, a⟩
          exact ⟨i, hi, by rw [← bit i (by omega), V4.mk_x] at a; exact a⟩
      simp only [e]
    · rw [if_neg hlt, if_neg hlt]

/-- **C99 is false for wide objects**: (1) below 128 bits, an object with all bits x is shown as
`X`, and with all bits z as `Z`; (2) above 128 bits, an object whose low 128 bits are all x is shown
as `x` whatever the others are, and (3) unknown bits above bit 127 are ignored. -/
theorem C99_wide_refuted (hn : ¬ n ≤ 64) (x : Lg n false) (hc : x.Clean) {b : Char} (hb : b = 'd' ∨ b = 'D') :
    (n < 128 → (∀ i, i < n → x.at i = .x) → x.str ['0', b] = .ok ['X']) ∧
    (n < 128 → (∀ i, i < n → x.at i = .z) → x.str ['0', b] = .ok ['Z']) ∧
    (128 < n → (∀ i, i < 128 → x.at i = .x) → x.str ['0', b] = .ok ['x']) ∧
    (128 < n → (∀ i, i < 128 → x.at i = if i = 0 then .b1 else .b0) → x.str ['0', b] = .ok ['1']) := by
  refine ⟨fun h a => ?_, fun h a => ?_, fun h a => ?_, fun h a => ?_⟩ <;>
    rw [C99_wide_exact hn (by omega) x hc (by simp) hb]
  · rw [if_pos ⟨0, by omega, by rw [a 0 (by omega)]; rfl⟩, if_pos h, if_pos ⟨0, by omega, a 0 (by omega)⟩]
  · rw [if_pos ⟨0, by omega, by rw [a 0 (by omega)]; rfl⟩, if_pos h, if_neg]
    rintro ⟨i, hi, hx⟩
    rw [a i hi] at hx; cases hx
  · rw [if_pos ⟨0, by omega, by rw [a 0 (by omega)]; rfl⟩, if_neg (by omega), unkLetter, if_pos a]
  · rw [if_neg]
    · have : x.value.bv.toNat % 2 ^ 128 = 1 := by
        apply Nat.eq_of_testBit_eq
        intro i
        rw [Nat.testBit_mod_two_pow]
        by_cases hi : i < 128
        · have := a i hi
          rw [Lg.at] at this
          have e : x.value.bv.toNat.testBit i = decide (i = 0) := by
            change x.value.bv.getLsbD i = _
            revert this
            by_cases h0 : i = 0 <;> cases x.value.bv.getLsbD i <;> cases x.xz.bv.getLsbD i <;> simp [h0, V4.mk]
          rw [e, decide_eq_true hi, Bool.true_and]
          cases i <;> simp [Nat.testBit_succ]
        · rw [decide_eq_false hi, Bool.false_and]
          cases i
          · omega
          · simp [Nat.testBit_succ]
      rw [this]; decide
    · rintro ⟨i, hi, hu⟩
      rw [a i (by omega)] at hu
      split_ifs at hu <;> simp [V4.isKnown, V4.known?] at hu

end Verif
