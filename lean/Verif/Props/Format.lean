import Verif.Lemmas.Format
import Verif.Lemmas.Arith
import Verif.Props.Parse
import Verif.Show

/-!
# Formatting (C07, C70-C77)

`digit4` is the character IEEE 1800 prescribes for a group of 4-state bits; `charVal` is the
value of a digit character.
-/

namespace Verif

variable {n : Nat} {s : Bool}

/-! ### native values -/

/-- a binary, octal or hexadecimal format of a native object: digit `k` shows the bits
`st*k ..` of the words handed to the formatter -/
theorem Lg.str_native (h64 : n ≤ 64) (x : Lg n s) {b : Char} {st : Nat} (h : OutBase b st) :
    x.str [b] = .ok ((List.range ((n + st - 1) / st)).reverse.map
      (wordDigit st (BitVec.ofInt 64 x.value.nv.v) (BitVec.ofInt 64 x.xz.nv.v))) := by
  have hd : decimalFmt [b] = false := by
    rw [show [b] = [] ++ b :: [] from rfl, decimalFmt_letter h.notDigit (by simp), h.notDec]
  rw [Lg.str, dif_pos h64, hd, Bool.and_false, if_neg (by decide), toString4, toString4_, parseFmt_letter h.notDigit,
    possibleSize_out h, res_map_ok, res_bind_ok, if_pos rfl]
  simp only
  rw [body4_eq h h64, padResult_full (by simp), minusText, Bool.false_and, if_neg (by decide), List.map_reverse]

theorem digit4_one (f : Nat → V4) : digit4 1 f = (f 0).char := by
  rw [digit4_congr (g := fun _ => f 0) (fun j hj => by rw [show j = 0 by omega])]
  cases f 0 <;> decide

/-- **C70, native 4-state.** `str("b")` is `n` characters, character `n-1-i` showing bit `i`. -/
theorem C70_native (h64 : n ≤ 64) (x : Lg n s) {b : Char} (hb : b = 'b' ∨ b = 'B') :
    x.str [b] = .ok ((List.range n).reverse.map fun i => (x.at i).char) := by
  have h : OutBase b 1 := by rcases hb with rfl | rfl; exacts [.b, .B]
  rw [Lg.str_native h64 x h, show (n + 1 - 1) / 1 = n by simp]
  congr 1
  apply List.map_congr_left
  intro i hi
  have hi : i < n := by simpa using hi
  rw [wordDigit, digit4_one, Nat.one_mul, Nat.add_zero, word_lt h64 _ hi, word_lt h64 _ hi]
  rfl

example : ∃ x : Lg 5 true, x.str ['b'] = .ok "1x0z1".toList ∧ x.at 1 = .z ∧ x.at 4 = .b1 := by
  obtain ⟨x, hx⟩ : ∃ x : Lg 5 true, Lg.ofString "'b1x0z1".toList = .ok x := ⟨_, rfl⟩
  refine ⟨x, ?_, ?_, ?_⟩
  all_goals
    have : (Lg.ofString "'b1x0z1".toList : Res (Lg 5 true)) = .ok x := hx
    cases this
    decide +kernel

/-- **C70, native 2-state.** -/
theorem C70_native_2state (h64 : n ≤ 64) (x : Bits n s) {b : Char} (hb : b = 'b' ∨ b = 'B') :
    x.str [b] = .ok ((List.range n).reverse.map fun i => if x.bv.getLsbD i then '1' else '0') := by
  have h : OutBase b 1 := by rcases hb with rfl | rfl; exacts [.b, .B]
  have hd : decimalFmt [b] = false := by
    rw [show [b] = [] ++ b :: [] from rfl, decimalFmt_letter h.notDigit (by simp), h.notDec]
  rw [Bits.str, dif_pos h64, hd, Bool.and_false, if_neg (by decide), toString2, parseFmt_letter h.notDigit,
    possibleSize_out h, res_map_ok, res_bind_ok, if_pos hb, res_bind_ok, padResult_full (by simp), minusText,
    Bool.false_and, if_neg (by decide), ← List.map_reverse]
  congr 1
  apply List.map_congr_left
  intro i hi
  rw [word_lt h64 _ (by simpa using hi)]

/-- **C74.** `str("h")` and `str("o")`: digit `k` from the right is the digit of bits
`st*k .. st*k+st-1`, x/z digits included; widths that are a multiple of the digit size, or
unsigned values with clean storage (whose missing bits read 0). -/
theorem C74_digits (h64 : n ≤ 64) (x : Lg n s) {b : Char} {st : Nat} (h : OutBase b st)
    (hd : st ∣ n ∨ (s = false ∧ x.Clean)) :
    x.str [b] = .ok ((List.range ((n + st - 1) / st)).reverse.map fun k => digit4 st fun j => x.at (st * k + j)) := by
  rw [Lg.str_native h64 x h]
  congr 1
  apply List.map_congr_left
  intro k hk
  have hst := h.pos.1
  have hk : k < (n + st - 1) / st := by simpa using hk
  apply digit4_congr
  intro j hj
  rcases hd with ⟨m, rfl⟩ | ⟨rfl, hc⟩
  · have hm : (st * m + st - 1) / st = m := by
      rw [show st * m + st - 1 = (st - 1) + st * m by omega, Nat.add_mul_div_left _ _ hst, Nat.div_eq_of_lt (by omega),
        Nat.zero_add]
    rw [hm] at hk
    have : st * k + j < st * m := by
      have := Nat.mul_le_mul_left st (show k + 1 ≤ m by omega)
      rw [Nat.mul_add] at this; omega
    rw [word_lt h64 _ this, word_lt h64 _ this]; rfl
  · rw [word_clean h64 hc.1, word_clean h64 hc.2]; rfl

example : ∃ x : Lg 12 false, Lg.ofString "'bxxxx0z1001x1".toList = .ok x ∧ x.str ['h'] = .ok "xZX".toList ∧
    x.str ['o'] = .ok "xX4X".toList := ⟨_, rfl, by decide +kernel, by decide +kernel⟩

/-- the number of a known digit -/
theorem charVal_digit4 {st : Nat} (h0 : 0 < st) (h4 : st ≤ 4) {f : Nat → V4} (hf : ∀ j, j < st → (f j).isKnown = true) :
    ∃ a, a < 2 ^ st ∧ charVal (digit4 st f) = a ∧ digit4 st f ∈ "0123456789abcdef".toList ∧
      ∀ j, j < st → f j = V4.mk (a.testBit j) false := by
  obtain ⟨a, ha⟩ := exists_bv (fun i => decide (f i = .b1)) st
  refine ⟨a.toNat, a.isLt, ?_⟩
  have hbit : ∀ j, j < st → f j = V4.mk (a.toNat.testBit j) false := by
    intro j hj
    have := ha j hj
    rw [BitVec.getLsbD] at this
    rw [this]
    have hk := hf j hj
    revert hk
    cases f j <;> decide
  rw [digit4_congr hbit]
  have hlt := a.isLt
  generalize a.toNat = v at *
  have h1 : ∀ v, v < 2 → charVal (digit4 1 fun j => V4.mk (v.testBit j) false) = v ∧
      (digit4 1 fun j => V4.mk (v.testBit j) false) ∈ "0123456789abcdef".toList := by decide +kernel
  have h2 : ∀ v, v < 4 → charVal (digit4 2 fun j => V4.mk (v.testBit j) false) = v ∧
      (digit4 2 fun j => V4.mk (v.testBit j) false) ∈ "0123456789abcdef".toList := by decide +kernel
  have h3 : ∀ v, v < 8 → charVal (digit4 3 fun j => V4.mk (v.testBit j) false) = v ∧
      (digit4 3 fun j => V4.mk (v.testBit j) false) ∈ "0123456789abcdef".toList := by decide +kernel
  have h16 : ∀ v, v < 16 → charVal (digit4 4 fun j => V4.mk (v.testBit j) false) = v ∧
      (digit4 4 fun j => V4.mk (v.testBit j) false) ∈ "0123456789abcdef".toList := by decide +kernel
  have : st = 1 ∨ st = 2 ∨ st = 3 ∨ st = 4 := by omega
  rcases this with rfl | rfl | rfl | rfl
  · exact ⟨(h1 v hlt).1, (h1 v hlt).2, hbit⟩
  · exact ⟨(h2 v hlt).1, (h2 v hlt).2, hbit⟩
  · exact ⟨(h3 v hlt).1, (h3 v hlt).2, hbit⟩
  · exact ⟨(h16 v hlt).1, (h16 v hlt).2, hbit⟩

/-- the number that `c` digits of known bits denote -/
theorem number_digits {st : Nat} (h0 : 0 < st) (h4 : st ≤ 4) (c : Nat) {f : Nat → V4} {g : Nat → Bool}
    (hf : ∀ i, f i = V4.mk (g i) false) (i : Nat) :
    (Nat.ofDigits (2 ^ st) (((List.range c).map fun k => digit4 st fun j => f (st * k + j)).map charVal)).testBit i =
      (decide (i < st * c) && g i) := by
  have hk : ∀ k, ∃ a, a < 2 ^ st ∧ charVal (digit4 st fun j => f (st * k + j)) = a ∧
      ∀ j, j < st → f (st * k + j) = V4.mk (a.testBit j) false := by
    intro k
    obtain ⟨a, h1, h2, -, h3⟩ := charVal_digit4 h0 h4 (f := fun j => f (st * k + j)) (fun j _ => by
      show (f (st * k + j)).isKnown = true
      rw [hf]; cases g (st * k + j) <;> rfl)
    exact ⟨a, h1, h2, h3⟩
  rw [List.map_map, testBit_ofDigits h0 _ (by
    intro y hy
    obtain ⟨k, -, rfl⟩ := List.mem_map.1 hy
    obtain ⟨a, h1, h2, -⟩ := hk k
    show charVal _ < _
    rw [h2]; exact h1), List.getElem?_map]
  by_cases hi : i < st * c
  · have hd : i / st < c := (Nat.div_lt_iff_lt_mul h0).2 (by rw [Nat.mul_comm]; exact hi)
    rw [List.getElem?_range hd, decide_eq_true hi, Bool.true_and]
    obtain ⟨a, h1, h2, h3⟩ := hk (i / st)
    show (charVal _).testBit _ = _
    rw [h2]
    have := h3 (i % st) (Nat.mod_lt _ h0)
    rw [Nat.div_add_mod, hf, V4.mk_inj] at this
    exact this.1.symm
  · have hd : ¬ i / st < c := by
      intro h
      have := (Nat.div_lt_iff_lt_mul h0).1 h
      rw [Nat.mul_comm] at this; omega
    rw [List.getElem?_eq_none (by simpa using hd), decide_eq_false hi]
    rfl

theorem Lg.Known.word {x : Lg n s} (h64 : n ≤ 64) (h : x.Known) : BitVec.ofInt 64 x.xz.nv.v = 0 := by
  apply BitVec.eq_of_getLsbD_eq
  intro i hi
  rw [word_clean h64 h.1]
  by_cases hn : i < n
  · have := h.2 i hn
    rw [Lg.at, isKnown_mk] at this
    simpa using this
  · rw [BitVec.getLsbD_of_ge _ _ (by omega)]; simp

/-- **C71, exact.** For a known value the digits denote the stored word, cut to the digits. -/
theorem C71_exact (h64 : n ≤ 64) (x : Lg n s) (hk : x.Known) {b : Char} {st : Nat} (h : OutBase b st) :
    ∃ t, x.str [b] = .ok t ∧ t.length = (n + st - 1) / st ∧ (∀ c ∈ t, c ∈ "0123456789abcdef".toList) ∧
      Nat.ofDigits (2 ^ st) (t.reverse.map charVal) =
        (BitVec.ofInt 64 x.value.nv.v).toNat % 2 ^ (st * ((n + st - 1) / st)) := by
  have hf : ∀ i, V4.mk ((BitVec.ofInt 64 x.value.nv.v).getLsbD i) ((BitVec.ofInt 64 x.xz.nv.v).getLsbD i) =
      V4.mk ((BitVec.ofInt 64 x.value.nv.v).getLsbD i) false := by
    intro i; rw [hk.word h64]; simp
  refine ⟨_, Lg.str_native h64 x h, by simp, ?_, ?_⟩
  · intro c hc
    obtain ⟨k, -, rfl⟩ := List.mem_map.1 hc
    obtain ⟨a, -, -, h3, -⟩ := charVal_digit4 h.pos.1 h.pos.2
      (f := fun j => V4.mk ((BitVec.ofInt 64 x.value.nv.v).getLsbD (st * k + j))
        ((BitVec.ofInt 64 x.xz.nv.v).getLsbD (st * k + j))) (fun j _ => by
      show V4.isKnown (V4.mk _ _) = true
      rw [hf]
      cases (BitVec.ofInt 64 x.value.nv.v).getLsbD (st * k + j) <;> rfl)
    exact h3
  · apply Nat.eq_of_testBit_eq
    intro i
    rw [← List.map_reverse, List.reverse_reverse, Nat.testBit_mod_two_pow]
    exact number_digits h.pos.1 h.pos.2 _ hf i

/-- **C71, partial.** `str("h")` and `str("o")` of a known native value have `ceil(n/4)` and
`ceil(n/3)` digits, most significant first, denoting the value. Not covered: negative
signed values whose width is not a multiple of the digit size, see `C71_refuted`. -/
theorem C71_digits_partial (h64 : n ≤ 64) (x : Lg n s) (hc : x.Clean) (hk : x.Known) {b : Char} {st : Nat} (h : OutBase b st)
    (hd : st ∣ n ∨ s = false ∨ 0 ≤ numOf s x.value.bv) :
    ∃ t, x.str [b] = .ok t ∧ t.length = (n + st - 1) / st ∧ (∀ c ∈ t, c ∈ "0123456789abcdef".toList) ∧
      Nat.ofDigits (2 ^ st) (t.reverse.map charVal) = x.value.bv.toNat := by
  obtain ⟨t, h1, h2, h3, h4⟩ := C71_exact h64 x hk h
  refine ⟨t, h1, h2, h3, ?_⟩
  rw [h4]
  have hst := h.pos.1
  have hle : n ≤ st * ((n + st - 1) / st) := by
    have := Nat.div_add_mod (n + st - 1) st
    have := Nat.mod_lt (n + st - 1) hst
    omega
  by_cases hdv : st ∣ n
  · obtain ⟨m, rfl⟩ := hdv
    have hm : (st * m + st - 1) / st = m := by
      rw [show st * m + st - 1 = (st - 1) + st * m by omega, Nat.add_mul_div_left _ _ hst, Nat.div_eq_of_lt (by omega),
        Nat.zero_add]
    rw [hm]
    apply Nat.eq_of_testBit_eq
    intro i
    rw [Nat.testBit_mod_two_pow]
    by_cases hi : i < st * m
    · rw [decide_eq_true hi, Bool.true_and]
      exact word_lt h64 x.value hi
    · rw [decide_eq_false hi, Bool.false_and]
      exact (Nat.testBit_lt_two_pow (lt_of_lt_of_le x.value.bv.isLt (Nat.pow_le_pow_right (by decide) (by omega)))).symm
  · have hnn : 0 ≤ numOf s x.value.bv := by
      rcases hd with hd | hd | hd
      · exact absurd hd hdv
      · subst hd; simp [numOf]
      · exact hd
    have hnum : numOf s x.value.bv = x.value.bv.toNat := by
      unfold numOf at *
      split_ifs at * with hs
      · rw [BitVec.toInt_eq_toNat_cond] at *
        have := x.value.bv.isLt
        split_ifs at * <;> omega
      · rfl
    rw [(Bits.clean_native h64 _).1 hc.1, hnum, BitVec.ofInt_natCast, BitVec.toNat_ofNat]
    have hlt := x.value.bv.isLt
    rw [Nat.mod_eq_of_lt (a := x.value.bv.toNat) (lt_of_lt_of_le hlt (Nat.pow_le_pow_right (by decide) h64)),
      Nat.mod_eq_of_lt (lt_of_lt_of_le hlt (Nat.pow_le_pow_right (by decide) hle))]

example : ∃ x : Lg 10 false, Lg.ofString "'d749".toList = .ok x ∧ x.Known ∧ x.str ['h'] = .ok "2ed".toList ∧
    x.str ['o'] = .ok "1355".toList := ⟨_, rfl, by decide +kernel, by decide +kernel, by decide +kernel⟩

/-- **C71, refuted.** A negative signed value whose width is not a multiple of the digit size
shows its sign extension in the top digit, so the digits denote another number. -/
theorem C71_refuted (h1 : 1 < n) (h64 : n < 64) (x : Lg n true) (hc : x.Clean) (hk : x.Known)
    (hneg : x.value.bv.msb = true) {b : Char} {st : Nat} (h : OutBase b st) (hd : ¬ st ∣ n) :
    ∃ t, x.str [b] = .ok t ∧ Nat.ofDigits (2 ^ st) (t.reverse.map charVal) ≠ x.value.bv.toNat := by
  obtain ⟨t, e1, -, -, e4⟩ := C71_exact (by omega) x hk h
  refine ⟨t, e1, fun he => ?_⟩
  have hst := h.pos.1
  have hlt : n < st * ((n + st - 1) / st) := by
    have a1 := Nat.div_add_mod (n + st - 1) st
    have a2 := Nat.mod_lt (n + st - 1) hst
    have : n ≠ st * ((n + st - 1) / st) := fun e => hd ⟨_, e⟩
    omega
  have hb : (x.value.bv.toNat).testBit n = false := Nat.testBit_lt_two_pow x.value.bv.isLt
  rw [← he, e4, Nat.testBit_mod_two_pow, decide_eq_true hlt, Bool.true_and] at hb
  have hb : (BitVec.ofInt 64 x.value.nv.v).getLsbD n = false := hb
  have hv := (Bits.clean_native (by omega) _).1 hc.1
  rw [numOf, if_pos (by simp; omega)] at hv
  have hlo := BitVec.le_toInt x.value.bv
  have hneg' : x.value.bv.toInt < 0 := by
    rw [BitVec.msb_eq_toInt] at hneg
    simpa using hneg
  rw [getLsbD_ibit, decide_eq_true h64, Bool.true_and, hv, ibit] at hb
  have hp : (2 : Int) ^ (n - 1) ≤ 2 ^ n := pow_le_pow_right₀ (by norm_num) (by omega)
  have hdiv : x.value.bv.toInt / 2 ^ n = -1 := by
    have hpos : (0 : Int) < 2 ^ n := by positivity
    rw [Int.ediv_eq_iff_of_pos hpos]
    constructor
    · omega
    · omega
  rw [hdiv] at hb
  revert hb; decide

example : ∃ x : Lg 5 true, Lg.ofInt (-1) = x ∧ x.Clean ∧ x.Known ∧ x.value.bv.msb = true ∧ x.str ['h'] = .ok "ff".toList :=
  ⟨_, rfl, by decide +kernel, by decide +kernel, by decide +kernel, by decide +kernel⟩

/-! ### 2-state octal and hexadecimal -/

theorem hexChar_eq {d : Nat} (h : d < 16) : digitChar d = "0123456789abcdef".toList.getD d '0' := by
  have : ∀ d, d < 16 → digitChar d = "0123456789abcdef".toList.getD d '0' := by decide
  exact this d h

theorem charVal_digitChar {d : Nat} (h : d < 16) : charVal (digitChar d) = d := by
  have : ∀ d, d < 16 → charVal (digitChar d) = d := by decide
  exact this d h

/-- **C72, exact.** `bit::str("h")`/`str("o")` print the digits of the stored word least
significant first, behind the padding zeros. -/
theorem C72_exact (h64 : n ≤ 64) (x : Bits n s) {b : Char} {st : Nat} (h : OutBase b st) (h1 : st ≠ 1) :
    x.str [b] = .ok (
      let w := (BitVec.ofInt 64 x.nv.v).toNat
      let D := if w = 0 then [0] else Nat.digits (2 ^ st) w
      List.replicate ((n + st - 1) / st - D.length) '0' ++ D.map fun d => "0123456789abcdef".toList.getD d '0') := by
  have hd : decimalFmt [b] = false := by
    rw [show [b] = [] ++ b :: [] from rfl, decimalFmt_letter h.notDigit (by simp), h.notDec]
  have hb : isPow2Base b = true ∧ ¬ (b = 'b' ∨ b = 'B') ∧ (b = 's' ∨ b = 'S') = False ∧
      ∀ v, formatPow2 b v = streamNum (2 ^ st) v.toNat := by
    cases h <;> first | exact absurd rfl h1 | exact ⟨rfl, by decide, by decide, fun v => rfl⟩
  have hst : st = 3 ∨ st = 4 := by cases h <;> simp at h1 ⊢
  have hsz : (n + st - 1) / st ≤ n + st - 1 := Nat.div_le_self _ _
  rw [Bits.str, dif_pos h64, hd, Bool.and_false, if_neg (by decide), toString2, parseFmt_letter h.notDigit,
    possibleSize_out h, res_map_ok, res_bind_ok, if_neg hb.2.1, if_pos hb.1, res_bind_ok, padResult_eq (by intro _; simp only; omega) (by simp only; omega), padText, hb.2.2.2]
  simp only [h.notDec, Bool.and_false, Bool.false_or, if_true, minusText, Bool.false_eq_true, if_false, Nat.add_zero]
  have hS : (decide (b = 's') || decide (b = 'S')) = false := by
    have := hb.2.2.1
    simp only [eq_iff_iff, iff_false, not_or] at this
    simp [this.1, this.2]
  rw [hS, if_neg (by decide)]
  generalize hw : (BitVec.ofInt 64 x.nv.v).toNat = w
  have hwl : w < 2 ^ 64 := by rw [← hw]; exact BitVec.isLt _
  have key : (streamNum (2 ^ st) w).reverse =
      (if w = 0 then [0] else Nat.digits (2 ^ st) w).map fun d => "0123456789abcdef".toList.getD d '0' := by
    rw [streamNum]
    by_cases h0 : w = 0
    · simp [h0]
    · rw [if_neg h0, if_neg h0, List.reverse_reverse, lsDigits_eq (by rcases hst with rfl | rfl <;> decide) _ _ (by
        rcases hst with rfl | rfl
        · exact lt_trans hwl (by decide)
        · exact lt_trans hwl (by decide))]
      apply List.map_congr_left
      intro d hdm
      apply hexChar_eq
      have := Nat.digits_lt_base (b := 2 ^ st) (by rcases hst with rfl | rfl <;> decide) hdm
      rcases hst with rfl | rfl <;> omega
  rw [key]
  simp

/-- **C72, partial.** Values of a single digit are printed right (padded to the width). Not
covered: every value with two or more different digits, see `C72_refuted`. -/
theorem C72_single_partial (hn : 0 < n) (h64 : n ≤ 64) (x : Bits n s) (hx : x.Clean) {b : Char} {st : Nat} (h : OutBase b st) (h1 : st ≠ 1)
    (hv : 0 ≤ numOf s x.bv ∧ numOf s x.bv < 2 ^ st) :
    ∃ t, x.str [b] = .ok t ∧ t.length = (n + st - 1) / st ∧
      ((Nat.ofDigits (2 ^ st) (t.reverse.map charVal) : Nat) : Int) = numOf s x.bv := by
  have hst : st = 3 ∨ st = 4 := by cases h <;> simp at h1 ⊢
  have hlt16 : (2 : Int) ^ st ≤ 16 := by rcases hst with rfl | rfl <;> norm_num
  obtain ⟨v, hve⟩ : ∃ v : Nat, numOf s x.bv = v := ⟨_, (Int.toNat_of_nonneg hv.1).symm⟩
  have hv16 : v < 16 := by omega
  have hvb : v < 2 ^ st := by
    have : (v : Int) < ((2 ^ st : Nat) : Int) := by rw [← hve]; push_cast; exact hv.2
    exact_mod_cast this
  have hw : (BitVec.ofInt 64 x.nv.v).toNat = v := by
    rw [(Bits.clean_native h64 x).1 hx, hve, BitVec.ofInt_natCast, BitVec.toNat_ofNat, Nat.mod_eq_of_lt (by omega)]
  have hD : (if v = 0 then [0] else Nat.digits (2 ^ st) v) = [v] := by
    by_cases h0 : v = 0
    · simp [h0]
    · rw [if_neg h0, Nat.digits_of_lt _ _ h0 hvb]
  have hc : 1 ≤ (n + st - 1) / st := by
    rw [Nat.le_div_iff_mul_le h.pos.1]; omega
  refine ⟨_, C72_exact h64 x h h1, ?_, ?_⟩
  · simp only [hw, hD]; simp; omega
  · simp only [hw, hD]
    rw [hve, List.map_singleton, List.reverse_append, List.reverse_singleton, List.reverse_replicate, List.singleton_append,
      List.map_cons, List.map_replicate, Nat.ofDigits_cons, ← hexChar_eq hv16, charVal_digitChar hv16,
      show charVal '0' = 0 from rfl]
    have : ∀ k, Nat.ofDigits (2 ^ st) (List.replicate k 0) = 0 := by
      intro k
      induction k with
      | zero => rfl
      | succ k ih => rw [List.replicate_succ, Nat.ofDigits_cons, ih]; rfl
    rw [this]; simp

example : ∃ x : Bits 9 false, Bits.ofInt 7 = x ∧ x.Clean ∧ x.str ['h'] = .ok "007".toList :=
  ⟨_, rfl, by decide +kernel, by decide +kernel⟩

/-- **C72, refuted.** At every width of at least two digits the value `2^st` prints as `0..01`,
which denotes 1. -/
theorem C72_refuted (h64 : n ≤ 64) {b : Char} {st : Nat} (h : OutBase b st) (h1 : st ≠ 1) (hn : st < n) :
    ∃ (x : Bits n false) (t : List Char), x.Clean ∧ x.bv.toNat = 2 ^ st ∧ x.str [b] = .ok t ∧
      Nat.ofDigits (2 ^ st) (t.reverse.map charVal) = 1 := by
  have hst : st = 3 ∨ st = 4 := by cases h <;> simp at h1 ⊢
  obtain ⟨x, hx, hb⟩ := Bits.exists_clean (s := false) (BitVec.ofNat n (2 ^ st))
  have hbv : x.bv.toNat = 2 ^ st := by
    rw [hb, BitVec.toNat_ofNat, Nat.mod_eq_of_lt (Nat.pow_lt_pow_right (by decide) hn)]
  refine ⟨x, _, hx, hbv, C72_exact h64 x h h1, ?_⟩
  have hw : (BitVec.ofInt 64 x.nv.v).toNat = 2 ^ st := by
    have hv := (Bits.clean_native h64 x).1 hx
    simp only [numOf, Bool.false_and, Bool.false_eq_true, if_false] at hv
    rw [hv, BitVec.ofInt_natCast, BitVec.toNat_ofNat, hbv, Nat.mod_eq_of_lt]
    exact Nat.pow_lt_pow_right (by decide) (by omega)
  have hD : (if 2 ^ st = 0 then [0] else Nat.digits (2 ^ st) (2 ^ st)) = [0, 1] := by
    rcases hst with rfl | rfl <;> simp
  simp only [hw, hD]
  rw [List.reverse_append, List.reverse_replicate, List.map_append, List.map_replicate, Nat.ofDigits_append]
  have : ∀ k, Nat.ofDigits (2 ^ st) (List.replicate k (charVal '0')) = 0 := by
    intro k
    induction k with
    | zero => rfl
    | succ k ih => rw [List.replicate_succ, Nat.ofDigits_cons, ih]; rfl
  rw [this]
  have e : (([0, 1].map fun d => "0123456789abcdef".toList.getD d '0').reverse.map charVal) = [1, 0] := by decide
  rw [e]
  simp [Nat.ofDigits_cons]

/-! ### decimal -/

/-- the shortest decimal numeral of a natural number -/
def numeral (v : Nat) : List Char :=
  if v = 0 then ['0'] else (Nat.digits 10 v).reverse.map fun d => "0123456789".toList.getD d '0'

/-- the decimal numeral of an integer -/
def numeralInt (v : Int) : List Char := if v < 0 then '-' :: numeral (-v).toNat else numeral v.toNat

theorem digits_map {v : Nat} : (Nat.digits 10 v).map digitChar = (Nat.digits 10 v).map fun d => "0123456789".toList.getD d '0' := by
  apply List.map_congr_left
  intro d hd
  have h := Nat.digits_lt_base (b := 10) (by decide) hd
  have : ∀ d, d < 10 → digitChar d = "0123456789".toList.getD d '0' := by decide
  exact this d h

theorem lsDecimal_eq {v : Nat} (h : v < 10 ^ 128) : (lsDecimal v).reverse = numeral v := by
  rw [lsDecimal, numeral]
  by_cases h0 : v = 0
  · simp [h0]
  · rw [if_neg h0, if_neg h0, lsDigits_eq (by decide) _ _ h, digits_map, List.map_reverse]

theorem parseFmt_0d {b : Char} (hb : b = 'd' ∨ b = 'D') {size : Nat} (h : size < 128) :
    parseFmt ['0', b] size = .ok ⟨b, decimalSize size, false⟩ := by
  have := parseFmt_num (ds := ['0']) (b := b) (by rcases hb with rfl | rfl <;> decide) (by decide) (by decide) (by decide) [] size
  have h0 : fmtNum ['0'] = 0 := by decide
  rw [show ['0', b] = ['0'] ++ b :: [] from rfl, this]
  simp only [h0, if_true]
  have : possibleSize b size = .ok (decimalSize size) := by
    rcases hb with rfl | rfl <;> simp [possibleSize, h, show ¬ size > 128 by omega]
  rw [this, res_map_ok]

/-- the number whose numeral is printed: the sign is split off first -/
theorem split_sign (hn : 0 < n) (h64 : n ≤ 64) {x : Bits n s} (hx : x.Clean)
    (hmin : s = true → n = 32 ∨ n = 64 → x.bv ≠ BitVec.intMin n) :
    (x.nv.v < 0 → s = true ∧ ∃ m, x.negate = .ok m ∧ (BitVec.ofInt 64 m.nv.v).toNat = (-numOf s x.bv).toNat ∧
      numOf s x.bv < 0) ∧
    (0 ≤ x.nv.v → (BitVec.ofInt 64 x.nv.v).toNat = (numOf s x.bv).toNat ∧ 0 ≤ numOf s x.bv) := by
  have hv := (Bits.clean_native h64 x).1 hx
  have hlt := x.bv.isLt
  have hp : 2 ^ n ≤ 2 ^ 64 := Nat.pow_le_pow_right (by decide) h64
  constructor
  · intro hneg
    have hs : (s && !decide (n ≤ 1)) = true := by
      by_contra hc
      rw [hv, numOf, if_neg hc] at hneg
      omega
    have hst : s = true := by revert hs; cases s <;> simp
    have h1 : ¬ n ≤ 1 := by revert hs; cases s <;> simp
    rw [numOf, if_pos hs] at hv ⊢
    have hlo := BitVec.le_toInt x.bv
    obtain ⟨m, hm, hc, hb⟩ := Bits.negate_native h64 hn x (by
      intro _ h16 he
      have hle := le_hw h64
      have hne : n = hw n := by
        by_contra hne
        have : (2 : Int) ^ (n - 1) < 2 ^ (hw n - 1) := pow_lt_pow_right₀ (by norm_num) (by omega)
        omega
      have h3264 : n = 32 ∨ n = 64 := by
        rcases hw_cases n with h | h | h | h | h <;> omega
      apply hmin hst h3264
      apply BitVec.eq_of_toInt_eq
      rw [BitVec.toInt_intMin_of_pos hn, ← hv, he, ← hne])
    refine ⟨hst, m, hm, ?_, by omega⟩
    have hmv := (Bits.clean_native h64 m).1 hc
    simp only [numOf, Bool.false_and, Bool.false_eq_true, if_false] at hmv
    rw [hmv, hb, BitVec.ofInt_natCast, BitVec.toNat_ofNat, BitVec.toNat_neg]
    have htl : x.bv.toInt < 0 := by omega
    rw [BitVec.toInt_eq_toNat_cond] at htl ⊢
    split_ifs at htl ⊢ with hc2
    · omega
    · have : 0 < x.bv.toNat := by omega
      rw [Nat.mod_eq_of_lt (by omega : 2 ^ n - x.bv.toNat < 2 ^ n), Nat.mod_eq_of_lt (by omega)]
      have e : (-((x.bv.toNat : Int) - ((2 ^ n : Nat) : Int))) = ((2 ^ n - x.bv.toNat : Nat) : Int) := by omega
      rw [e, Int.toNat_natCast]
  · intro hnn
    rw [hv] at hnn ⊢
    refine ⟨?_, hnn⟩
    have hub : numOf s x.bv < 2 ^ n := by
      unfold numOf
      split_ifs
      · have := BitVec.toInt_lt (x := x.bv)
        have : (2 : Int) ^ (n - 1) ≤ 2 ^ n := pow_le_pow_right₀ (by norm_num) (by omega)
        omega
      · exact_mod_cast hlt
    obtain ⟨v, hve⟩ : ∃ v : Nat, numOf s x.bv = v := ⟨_, (Int.toNat_of_nonneg hnn).symm⟩
    rw [hve, BitVec.ofInt_natCast, BitVec.toNat_ofNat, Int.toNat_natCast, Nat.mod_eq_of_lt]
    rw [hve] at hub
    have : v < 2 ^ n := by exact_mod_cast hub
    omega

/-- **C73, partial.** `str("0d")` of a known native value is the shortest decimal numeral of the
number, with a leading `-` when negative. Not covered: the most negative value of 32 and 64
bits, see `C73_refuted`. -/
theorem C73_decimal_partial (hn : 0 < n) (h64 : n ≤ 64) (x : Lg n s) (hc : x.Clean) (hk : x.Known) {b : Char} (hb : b = 'd' ∨ b = 'D')
    (hmin : s = true → n = 32 ∨ n = 64 → x.value.bv ≠ BitVec.intMin n) :
    x.str ['0', b] = .ok (numeralInt (numOf s x.value.bv)) ∧
    x.value.str ['0', b] = .ok (numeralInt (numOf s x.value.bv)) := by
  have hdec : isDec b = true := by rcases hb with rfl | rfl <;> rfl
  have hnb : ¬ ('0' ≤ b ∧ b ≤ '9') := by rcases hb with rfl | rfl <;> decide
  have hd : decimalFmt ['0', b] = true := by
    rw [show ['0', b] = ['0'] ++ b :: [] from rfl, decimalFmt_letter hnb (by decide), hdec]
  have hpf := parseFmt_0d hb (size := n) (by omega)
  have hbody : ∀ v : BitVec 64, body4 b n v 0 = lsDecimal v.toNat := by
    intro v
    rcases hb with rfl | rfl <;> rfl
  have hbody2 : ∀ (v : BitVec 64) (neg : Bool), toString2 ['0', b] n v neg = .ok (minusText neg b (lsDecimal v.toNat)) := by
    intro v neg
    rw [toString2, hpf, res_bind_ok]
    have e : (if b = 'b' ∨ b = 'B' then
        .ok ((List.range n).map fun i => if v.getLsbD i then '1' else '0')
      else if isPow2Base b then .ok (formatPow2 b v)
      else if b = 's' ∨ b = 'S' then str2Loop v n 64 0
      else if isDec b then .ok (lsDecimal v.toNat)
      else .ok [] : Res (List Char)) = .ok (lsDecimal v.toNat) := by
      rcases hb with rfl | rfl <;> rfl
    simp only
    rw [e, res_bind_ok, padResult_full (by simp)]
  have hbody4 : ∀ (v : BitVec 64) (neg : Bool), toString4 ['0', b] n v 0 neg = .ok (minusText neg b (lsDecimal v.toNat)) := by
    intro v neg
    rw [toString4, toString4_, hpf, res_bind_ok, if_pos rfl, hbody, padResult_full (by simp)]
  have hlt : ∀ v : BitVec 64, v.toNat < 10 ^ 128 := fun v => lt_trans v.isLt (by decide)
  obtain ⟨hsp, hsn⟩ := split_sign hn h64 hc.1 hmin
  rcases lt_or_ge x.value.nv.v 0 with hneg | hnn
  · obtain ⟨hs, m, hm, e1, e2⟩ := hsp hneg
    have hcond : (s && x.value.negative && decimalFmt ['0', b]) = true := by
      rw [hd, Bits.negative, dif_pos h64]; simpa using ⟨hs, hneg⟩
    constructor
    · rw [Lg.str, dif_pos h64, if_pos hcond, hm, res_bind_ok, hk.word h64, hbody4, minusText, hdec, if_pos (by decide),
        lsDecimal_eq (hlt _), e1, numeralInt, if_pos e2]
    · rw [Bits.str, dif_pos h64, if_pos hcond, hm, res_bind_ok, hbody2, minusText, hdec, if_pos (by decide),
        lsDecimal_eq (hlt _), e1, numeralInt, if_pos e2]
  · obtain ⟨e1, e2⟩ := hsn hnn
    have hcond : ¬ (s && x.value.negative && decimalFmt ['0', b]) = true := by
      rw [hd, Bits.negative, dif_pos h64]; simp; intro _; exact hnn
    constructor
    · rw [Lg.str, dif_pos h64, if_neg hcond, hk.word h64, hbody4, minusText, hdec, if_neg (by decide),
        lsDecimal_eq (hlt _), e1, numeralInt, if_neg (by omega)]
    · rw [Bits.str, dif_pos h64, if_neg hcond, hbody2, minusText, hdec, if_neg (by decide),
        lsDecimal_eq (hlt _), e1, numeralInt, if_neg (by omega)]

example : ∃ x : Lg 12 true, Lg.ofInt (-2048) = x ∧ x.Clean ∧ x.Known ∧ x.str ['0', 'd'] = .ok "-2048".toList ∧
    numeralInt (-2048) = "-2048".toList :=
  ⟨_, rfl, by decide +kernel, by decide +kernel, by decide +kernel, by decide +kernel⟩

/-- **C73, refuted.** Printing the most negative 32 or 64 bit value computes `~x + 1` in the
signed type: signed overflow. -/
theorem C73_refuted (hn : n = 32 ∨ n = 64) (x : Lg n true) (hc : x.Clean) (hx : x.value.bv = BitVec.intMin n) {b : Char}
    (hb : b = 'd' ∨ b = 'D') :
    x.str ['0', b] = .error .overflow ∧ x.value.str ['0', b] = .error .overflow := by
  have hdec : isDec b = true := by rcases hb with rfl | rfl <;> rfl
  have hnb : ¬ ('0' ≤ b ∧ b ≤ '9') := by rcases hb with rfl | rfl <;> decide
  have hd : decimalFmt ['0', b] = true := by
    rw [show ['0', b] = ['0'] ++ b :: [] from rfl, decimalFmt_letter hnb (by decide), hdec]
  have key : x.value.negate = .error .overflow ∧ x.value.negative = true ∧ n ≤ 64 := by
    rcases hn with rfl | rfl
    · have h64 : 32 ≤ 64 := by decide
      have hv : x.value.nv.v = -2 ^ 31 := by
        rw [(Bits.clean_native h64 _).1 hc.1, hx]; decide
      have hnv : x.value.nv = ⟨holderTy 32 true, -2 ^ 31⟩ := by
        rw [← hv, ← Bits.nv_ty x.value]
      refine ⟨?_, ?_, by decide⟩
      · rw [Bits.negate, dif_pos h64, hnv]; rfl
      · rw [Bits.negative, dif_pos h64, hv]; decide
    · have h64 : 64 ≤ 64 := by decide
      have hv : x.value.nv.v = -2 ^ 63 := by
        rw [(Bits.clean_native h64 _).1 hc.1, hx]; decide
      have hnv : x.value.nv = ⟨holderTy 64 true, -2 ^ 63⟩ := by
        rw [← hv, ← Bits.nv_ty x.value]
      refine ⟨?_, ?_, by decide⟩
      · rw [Bits.negate, dif_pos h64, hnv]; rfl
      · rw [Bits.negative, dif_pos h64, hv]; decide
  obtain ⟨k1, k2, h64⟩ := key
  constructor
  · rw [Lg.str, dif_pos h64, hd, k2, k1, if_pos (by decide)]; rfl
  · rw [Bits.str, dif_pos h64, hd, k2, k1, if_pos (by decide)]; rfl

/-! ### default construction and round trip -/

/-- **C77, partial.** Parsing `'b` followed by `str()` gives the object back, for native
unsigned objects whose x/z bits are all below position 32. Missing: objects with x or z from
position 32 on, which cannot be read back (`C77_refuted`), and signed objects (`C77_native_exact`).
-/
theorem C77_round_trip_partial (hn : 0 < n) (h64 : n ≤ 64) (x : Lg n false) (hc : x.Clean)
    (hx : ∀ i, i < n → (x.at i).isKnown = false → i < 32) :
    ∃ t, x.str ['b'] = .ok t ∧ Lg.ofString ('\'' :: 'b' :: t) = .ok x := by
  refine ⟨_, C70_native h64 x (Or.inl rfl), ?_⟩
  set t := (List.range n).reverse.map fun i => (x.at i).char with ht
  have hrev : t.reverse = (List.range n).map fun i => (x.at i).char := by
    rw [ht, ← List.map_reverse, List.reverse_reverse]
  have hu : ∀ c ∈ t, c ≠ '_' := by
    intro c hc'
    obtain ⟨i, -, rfl⟩ := List.mem_map.1 hc'
    cases x.at i <;> decide
  have hD : digitsOf t = (List.range n).map fun i => (x.at i).char := by rw [digitsOf_plain hu, hrev]
  obtain ⟨z, h1, -, h3, h4⟩ := C61_binary_partial (s := false) hn h64 (pre := []) (mid := []) (b := 'b') (body := t) (Or.inl rfl)
    ⟨by decide, by decide, by decide⟩ (by
      intro c hc'
      obtain ⟨i, -, rfl⟩ := List.mem_map.1 hc'
      cases x.at i <;> decide) (by rw [hD]; simp) (by
      intro i c hi hxz
      rw [hD, List.getElem?_map] at hi
      by_cases hin : i < n
      · rw [List.getElem?_range hin] at hi
        apply hx i hin
        have : (x.at i).char = c := by simpa using hi
        subst this
        revert hxz
        cases x.at i <;> decide
      · rw [List.getElem?_eq_none (by simpa using hin)] at hi
        simp at hi)
  have hat : ∀ i, i < n → z.at i = x.at i := by
    intro i hi
    rw [h3 i hi, hD, List.getElem?_map, List.getElem?_range hi, Option.map_some]
    cases x.at i <;> rfl
  have hzc := h4 rfl
  have e1 : z.value = x.value := Bits.Clean.ext hzc.1 hc.1 (by
    apply BitVec.eq_of_getLsbD_eq
    intro i hi
    exact (V4.mk_inj.1 (hat i hi)).1)
  have e2 : z.xz = x.xz := Bits.Clean.ext hzc.2 hc.2 (by
    apply BitVec.eq_of_getLsbD_eq
    intro i hi
    exact (V4.mk_inj.1 (hat i hi)).2)
  have : z = x := by cases z; cases x; simp only at e1 e2; rw [e1, e2]
  rw [← this]; exact h1

/-- the hypotheses are satisfiable, with unknown bits -/
example : ∃ x : Lg 40 false, x = ⟨Bits.ofInt 0x123456789A, Bits.ofInt 0x0F⟩ ∧ x.Clean ∧
    (∀ i, i < 40 → (x.at i).isKnown = false → i < 32) ∧ x.at 1 = .z ∧ x.at 2 = .x :=
  ⟨_, rfl, by decide +kernel, by decide +kernel, by decide +kernel, by decide +kernel⟩

/-- **C77, refuted.** Any native object with an unknown bit at a position `i ≥ 32` prints to text that the
parser cannot read back: `1u << i` is undefined. -/
theorem C77_refuted (h64 : n ≤ 64) (x : Lg n s) {i : Nat} (hi : i < n) (h32 : 32 ≤ i)
    (hu : (x.at i).isKnown = false) :
    ∃ t, x.str ['b'] = .ok t ∧ (Lg.ofString ('\'' :: 'b' :: t) : Res (Lg n s)) = .error .shift := by
  refine ⟨_, C70_native h64 x (Or.inl rfl), ?_⟩
  set t := (List.range n).reverse.map fun i => (x.at i).char with ht
  have hrev : t.reverse = (List.range n).map fun i => (x.at i).char := by
    rw [ht, ← List.map_reverse, List.reverse_reverse]
  have hun : ∀ c ∈ t, c ≠ '_' := by
    intro c hc'
    obtain ⟨i, -, rfl⟩ := List.mem_map.1 hc'
    cases x.at i <;> decide
  have hD : digitsOf t = (List.range n).map fun i => (x.at i).char := by rw [digitsOf_plain hun, hrev]
  refine C61_refuted h64 (pre := []) (mid := []) (b := 'b') (body := t) (Or.inl rfl)
    ⟨by decide, by decide, by decide⟩ (by
      intro c hc'
      obtain ⟨i, -, rfl⟩ := List.mem_map.1 hc'
      cases x.at i <;> decide) (by rw [hD]; simp) ⟨i, (x.at i).char, ?_, ?_, h32⟩
  · rw [hD, List.getElem?_map, List.getElem?_range hi, Option.map_some]
  · revert hu; cases x.at i <;> decide

end Verif
