import Verif.Props.FormatText
import Verif.Props.Parse

/-!
# Raw text: `str("s")` (C100)
-/

namespace Verif
variable {n m : Nat} {s t : Bool}

/-- the character of byte `i` of a bit vector -/
def byteChar (v : BitVec n) (i : Nat) : Char := Char.ofNat (v.toNat / 2 ^ (8 * i) % 256)

theorem byte_testBit (a k j : Nat) : (a / 2 ^ k % 256).testBit j = (decide (j < 8) && a.testBit (k + j)) := by
  rw [show (256 : Nat) = 2 ^ 8 from rfl, Nat.testBit_mod_two_pow, Nat.testBit_div_two_pow, Nat.add_comm]

/-- bytes of two vectors with the same bits there -/
theorem byteChar_congr {v : BitVec n} {w : BitVec m} {i k : Nat}
    (h : ∀ j, j < 8 → v.getLsbD (8 * i + j) = w.getLsbD (8 * k + j)) : byteChar v i = byteChar w k := by
  unfold byteChar
  congr 1
  apply Nat.eq_of_testBit_eq
  intro j
  rw [byte_testBit, byte_testBit]
  by_cases hj : j < 8
  · have := h j hj
    simp only [hj, decide_true, Bool.true_and]
    exact this
  · simp [hj]

theorem fmtChar_eq (size : Nat) (v : BitVec 64) : fmtChar size v = (List.range ((size + 7) / 8)).map (byteChar v) := by
  unfold fmtChar
  apply List.map_congr_left
  intro i _
  unfold byteChar
  congr 1
  rw [BitVec.toNat_and, BitVec.toNat_ushiftRight, show (0xFF#64).toNat = 2 ^ 8 - 1 from rfl, Nat.and_two_pow_sub_one_eq_mod,
    Nat.shiftRight_eq_div_pow]

theorem body4_s {b : Char} (hb : b = 's' ∨ b = 'S') (size : Nat) (v k : BitVec 64) :
    body4 b size v k = (List.range ((size + 7) / 8)).map (byteChar v) := by
  rw [← fmtChar_eq]
  rcases hb with rfl | rfl <;> rfl

theorem possibleSize_s {b : Char} (hb : b = 's' ∨ b = 'S') (size : Nat) : possibleSize b size = .ok ((size + 7) / 8) := by
  rcases hb with rfl | rfl <;> rfl

/-- **C100, native.** `str("s")` of an object of whole bytes shows its bytes as characters, the
most significant first; unknown bits show as 0 (x) and 1 (z). -/
theorem C100_native (h64 : n ≤ 64) (h8 : n % 8 = 0) (x : Lg n s) {b : Char} (hb : b = 's' ∨ b = 'S') :
    x.str [b] = .ok ((List.range (n / 8)).reverse.map (byteChar x.value.bv)) := by
  have hnd : ¬ ('0' ≤ b ∧ b ≤ '9') := by rcases hb with rfl | rfl <;> decide
  have hdec : isDec b = false := by rcases hb with rfl | rfl <;> rfl
  have hd : decimalFmt [b] = false := by
    rw [show [b] = [] ++ b :: [] from rfl, decimalFmt_letter hnd (by simp), hdec]
  rw [Lg.str, dif_pos h64, hd, Bool.and_false, if_neg (by decide), toString4, toString4_, parseFmt_letter hnd,
    possibleSize_s hb, res_map_ok, res_bind_ok, if_pos rfl]
  simp only
  rw [body4_s hb, padResult_full (by simp), minusText, Bool.false_and, if_neg (by decide), List.map_reverse,
    show (n + 7) / 8 = n / 8 by omega]
  congr 2
  apply List.map_congr_left
  intro i hi
  have hi := List.mem_range.1 hi
  apply byteChar_congr
  intro j hj
  exact word_lt h64 _ (by omega)

/-- **C100, wide, exact.** At a width that is a multiple of 64 the top limb is replaced by eight
blanks. -/
theorem C100_wide_exact (hn : ¬ n ≤ 64) (h8 : n % 8 = 0) (x : Lg n s) {b : Char} (hb : b = 's' ∨ b = 'S') :
    x.str [b] = .ok (if n % 64 = 0 then List.replicate 8 ' ' ++ (List.range (n / 8 - 8)).reverse.map (byteChar x.value.bv)
      else (List.range (n / 8)).reverse.map (byteChar x.value.bv)) := by
  have hnd : ¬ ('0' ≤ b ∧ b ≤ '9') := by rcases hb with rfl | rfl <;> decide
  have hdec : isDec b = false := by rcases hb with rfl | rfl <;> rfl
  have hno : ¬ (b = 'o' ∨ b = 'O') := by rcases hb with rfl | rfl <;> decide
  have hpad : (isDec b || decide (b = 's') || decide (b = 'S')) = true := by rcases hb with rfl | rfl <;> decide
  have hd : decimalFmt [b] = false := by
    rw [show [b] = [] ++ b :: [] from rfl, decimalFmt_letter hnd (by simp), hdec]
  have hchunk : ∀ size (v k : BitVec 64), toString4_ [b] size v k false false = .ok ((List.range ((size + 7) / 8)).map (byteChar v)) := by
    intro size v k
    rw [toString4_, parseFmt_letter hnd, possibleSize_s hb, res_map_ok, res_bind_ok, if_neg (by decide)]
    simp only
    rw [body4_s hb]
  have e := appendAll_range (fun i => (ptrGet (x.value.bg hn).vals i).bind fun v => (ptrGet (x.xz.bg hn).vals i).bind fun k =>
      toString4_ [b] 64 v k false false)
    (fun i k => byteChar ((x.value.bg hn).limb i) k) (B := 8) (by decide) (limbs n - 1) (by
      intro i hi
      rw [ptrGet_limb _ (by omega), ptrGet_limb _ (by omega), res_bind_ok, res_bind_ok, hchunk])
  have hbyte : ∀ k, 8 * k + 8 ≤ n → byteChar ((x.value.bg hn).limb (k / 8)) (k % 8) = byteChar x.value.bv k := by
    intro k hk
    apply byteChar_congr
    intro j hj
    rw [Bits.getLsbD_bv, Bits.raw_big hn, Big.raw, decide_eq_true (by omega), Bool.true_and,
      show (8 * k + j) / 64 = k / 8 by omega, show (8 * k + j) % 64 = 8 * (k % 8) + j by omega]
  rw [Lg.str, dif_neg hn, hd, Bool.and_false, if_neg (by decide), toStringBig4, parseFmt_letter hnd, possibleSize_s hb,
    res_map_ok, res_bind_ok]
  simp only
  rw [hdec, if_pos (by decide), if_neg hno, e, res_bind_ok]
  by_cases h0 : n % 64 = 0
  · have hl : (limbs n - 1) * 8 = n / 8 - 8 := by unfold limbs; rw [if_pos h0]; omega
    rw [if_neg (by simpa using h0), res_bind_ok, hl, padResult_eq (by intro _; simp; omega) (by simp), padText]
    simp only
    rw [if_pos True.intro, if_pos hpad, minusText, Bool.false_and, if_neg (by decide), if_neg (by decide), Nat.add_zero,
      List.length_reverse, List.length_map, List.length_range, if_pos h0, List.map_reverse,
      show (n + 7) / 8 - (n / 8 - 8) = 8 by omega]
    congr 3
    apply List.map_congr_left
    intro k hk
    have := List.mem_range.1 hk
    exact hbyte k (by omega)
  · have hl : limbs n - 1 = n / 64 := by unfold limbs; rw [if_neg h0]; omega
    have hcount : n / 8 = n / 64 * 8 + (n % 64 + 7) / 8 := by omega
    rw [if_pos h0, ptrGet_limb _ (by omega), ptrGet_limb _ (by omega), res_bind_ok, res_bind_ok, hchunk, res_map_ok, res_bind_ok, hl,
      padResult_full (by simp; omega), minusText, Bool.false_and, if_neg (by decide), if_neg h0, List.map_reverse]
    congr 2
    rw [hcount, List.range_add, List.map_append, List.map_map]
    congr 1
    · apply List.map_congr_left
      intro k hk
      have := List.mem_range.1 hk
      exact hbyte k (by omega)
    · apply List.map_congr_left
      intro k hk
      have := List.mem_range.1 hk
      simp only [Function.comp]
      rw [← hbyte _ (by omega), show (n / 64 * 8 + k) / 8 = n / 64 by omega, show (n / 64 * 8 + k) % 8 = k by omega]

/-- the characters of a vector that holds a text -/
theorem bytes_of_text {v : List Char} (hb : ∀ c ∈ v, c.toNat < 256) (hl : 8 * v.length = n) {z : BitVec n}
    (hz : ∀ i, i < n → z.getLsbD i = byteAt v i) : (List.range (n / 8)).reverse.map (byteChar z) = v := by
  have hl' : n / 8 = v.length := by omega
  rw [hl', List.map_reverse, List.reverse_eq_iff]
  apply List.ext_getElem
  · simp
  · intro i h1 h2
    have hi : i < v.length := by simpa using h1
    simp only [List.getElem_map, List.getElem_range]
    have hc : v.reverse[i]? = some v.reverse[i] := List.getElem?_eq_getElem h2
    have hlt := hb _ (List.mem_reverse.1 (List.getElem_mem h2))
    have : z.toNat / 2 ^ (8 * i) % 256 = (v.reverse[i]).toNat := by
      apply Nat.eq_of_testBit_eq
      intro j
      rw [byte_testBit]
      by_cases hj : j < 8
      · have := hz (8 * i + j) (by omega)
        rw [byteAt, show (8 * i + j) / 8 = i by omega, show (8 * i + j) % 8 = j by omega, hc] at this
        simp only [hj, decide_true, Bool.true_and]
        exact this
      · rw [Nat.testBit_eq_false_of_lt (lt_of_lt_of_le hlt (show 256 ≤ 2 ^ j from
          le_trans (show 256 ≤ 2 ^ 8 by decide) (Nat.pow_le_pow_right (by decide) (by omega))))]
        simp [hj]
    rw [byteChar, this, Char.ofNat_toNat]

/-- **C100, round trip, partial.** A text without a quote, of `n / 8` characters, given to an object of `n`
bits prints back with `str("s")`. Missing: widths that are multiples of 64 above 64
(`C100_wide_refuted`) and 2-state vectors (`C100_2state_refuted`). -/
theorem C100_round_trip_partial {v : List Char} (hq : ∀ c ∈ v, c ≠ '\'') (hb : ∀ c ∈ v, c.toNat < 256) (hv : v ≠ [])
    (hl : 8 * v.length = n) (h64 : n ≤ 64 ∨ n % 64 ≠ 0) {b : Char} (hs : b = 's' ∨ b = 'S') :
    ∃ z : Lg n s, Lg.ofString v = .ok z ∧ z.str [b] = .ok v := by
  have hpos : 0 < v.length := List.length_pos_iff.2 hv
  by_cases h : n ≤ 64
  · obtain ⟨z, h1, -, h3, -⟩ := C65_raw_partial (n := n) (s := s) (by omega) h hq
    exact ⟨z, h1, by rw [C100_native h (by omega) z hs, bytes_of_text hb hl h3]⟩
  · obtain ⟨z, h1, -, h3, -⟩ := C65_raw_wide (n := n) (s := s) h hq
    exact ⟨z, h1, by rw [C100_wide_exact h (by omega) z hs, if_neg (h64.resolve_left h), bytes_of_text hb hl h3]⟩

/-- **C100 is false at multiples of 64 above 64**: the text is shown with its first eight
characters blanked. -/
theorem C100_wide_refuted (hn : ¬ n ≤ 64) (h0 : n % 64 = 0) {v : List Char} (hq : ∀ c ∈ v, c ≠ '\'')
    (hb : ∀ c ∈ v, c.toNat < 256) (hl : 8 * v.length = n) {b : Char} (hs : b = 's' ∨ b = 'S') :
    ∃ z : Lg n s, Lg.ofString v = .ok z ∧ z.str [b] = .ok (List.replicate 8 ' ' ++ v.drop 8) := by
  obtain ⟨z, h1, -, h3, -⟩ := C65_raw_wide (n := n) (s := s) hn hq
  refine ⟨z, h1, ?_⟩
  have ht := bytes_of_text hb hl h3
  rw [C100_wide_exact hn (by omega) z hs, if_pos h0]
  congr 2
  have : v.drop 8 = ((List.range (n / 8)).reverse.map (byteChar z.value.bv)).drop 8 := by rw [ht]
  rw [this]
  conv_rhs => rw [show n / 8 = (n / 8 - 8) + 8 by omega, List.range_add, List.reverse_append, List.map_append,
    List.drop_left' (by simp)]

/-- **C100 is false for 2-state vectors**: of more than eight bits every one is undefined (the shift
amount is scaled twice), and one byte is shown as its decimal code, backwards. -/
theorem C100_2state_refuted (x : Bits n s) {b : Char} (hs : b = 's' ∨ b = 'S') :
    (8 < n → n ≤ 64 → x.str [b] = .error .shift) ∧ (¬ n ≤ 64 → s = true → x.str [b] = .error .shift) := by
  have hnd : ¬ ('0' ≤ b ∧ b ≤ '9') := by rcases hs with rfl | rfl <;> decide
  have hdec : isDec b = false := by rcases hs with rfl | rfl <;> rfl
  have hno : ¬ (b = 'o' ∨ b = 'O') := by rcases hs with rfl | rfl <;> decide
  have hnb : ¬ (b = 'b' ∨ b = 'B') := by rcases hs with rfl | rfl <;> decide
  have hnp : ¬ isPow2Base b = true := by rcases hs with rfl | rfl <;> decide
  have hd : decimalFmt [b] = false := by
    rw [show [b] = [] ++ b :: [] from rfl, decimalFmt_letter hnd (by simp), hdec]
  have hchunk : ∀ size (v : BitVec 64), 8 < size → toString2 [b] size v false = .error .shift := by
    intro size v h
    rw [toString2, parseFmt_letter hnd, possibleSize_s hs, res_map_ok, res_bind_ok]
    simp only
    rw [if_neg hnb, if_neg hnp, if_pos hs, str2Loop, if_pos (by omega), if_pos (by decide), str2Loop, if_pos (by omega),
      if_neg (by decide)]
    rfl
  constructor
  · intro h h64
    rw [Bits.str, dif_pos h64, hd, Bool.and_false, if_neg (by decide), hchunk _ _ h]
  · intro h hst
    subst hst
    have hl := limbs_ge_two h
    rw [Bits.str, dif_neg h, if_neg (by decide), hd, Bool.and_false, if_neg (by decide), toStringBig2, parseFmt_letter hnd,
      possibleSize_s hs, res_map_ok, res_bind_ok]
    simp only
    rw [hdec, if_pos (by decide), if_neg hno, show limbs n - 1 = (limbs n - 2) + 1 by omega, List.range_succ_eq_map, appendAll,
      ptrGet_limb _ (by omega), res_bind_ok, hchunk _ _ (by decide)]
    rfl

example : ∃ z : Lg 80 false, Lg.ofString "ten bytes!".toList = .ok z ∧ z.str ['s'] = .ok "ten bytes!".toList :=
  C100_round_trip_partial (by decide) (by decide) (by decide) (by decide) (Or.inr (by decide)) (Or.inl rfl)

/-- the letter `A` (code 65) in one byte -/
example : (Bits.ofInt 65 : Bits 8 false).str ['s'] = .ok "56".toList := by decide +kernel

end Verif
