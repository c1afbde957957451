import Verif.Props.Parse

/-!
# Base letters of literals (C172)

`get_input_base` (`src/util.cc` 9-27) takes the first non-digit after the quote for the base
letter. IEEE 1800-2017 5.7.1 also has a sign letter before the base letter and literals without
a base (`'0`, `'1`, `'x`, `'z`), which fill the vector. The library parses none of these: a sign
letter makes the rest of the literal raw text, an unknown letter denotes 0, and without a letter
the whole literal, with its size and the quote, is read in binary.
-/

namespace Verif

variable {n : Nat} {s : Bool}

/-- the pairs of base letters `parse_raw_str_` knows -/
def letterPairs : List (Char × Char) := [('b', 'B'), ('o', 'O'), ('d', 'D'), ('h', 'H'), ('s', 'S')]

/-- the base letters `parse_raw_str_` knows -/
def letters : List Char := ['b', 'B', 'o', 'O', 'd', 'D', 'h', 'H', 's', 'S']

/-- **C172, case.** Upper and lower case base letters denote the same object and fault alike. -/
theorem C172_case {p : Char × Char} (hp : p ∈ letterPairs) {pre mid pre' mid' : List Char}
    (h : LitOk pre mid p.1) (h' : LitOk pre' mid' p.2) (body : List Char) :
    (Lg.ofString (lit pre mid p.1 body) : Res (Lg n s)) = Lg.ofString (lit pre' mid' p.2 body) ∧
    (Bits.ofString (lit pre mid p.1 body) : Res (Bits n s)) = Bits.ofString (lit pre' mid' p.2 body) := by
  obtain ⟨a1, a2, a3, a4⟩ := C66_prefix h body n
  obtain ⟨b1, b2, b3, b4⟩ := C66_prefix h' body n
  have key : (∀ v, parseRaw v p.1 = parseRaw v p.2) ∧ (∀ v, parseXz v p.1 = parseXz v p.2) ∧
      getStride p.1 = getStride p.2 := by
    simp only [letterPairs, List.mem_cons, List.not_mem_nil, or_false] at hp
    rcases hp with rfl | rfl | rfl | rfl | rfl <;>
      exact ⟨fun v => by simp [parseRaw], fun v => by simp [parseXz], by decide⟩
  obtain ⟨k1, k2, k3⟩ := key
  have k1' : (fun v => parseRaw v p.1) = fun v => parseRaw v p.2 := funext k1
  have k2' : (fun v => parseXz v p.1) = fun v => parseXz v p.2 := funext k2
  rw [k1] at a1; rw [k2] at a2; rw [k1', k3] at a3; rw [k2', k3] at a4
  constructor
  · rw [Lg.ofString, Lg.ofString, a1, a2, a3, a4, b1, b2, b3, b4]
  · rw [Bits.ofString, Bits.ofString, a1, a3, b1, b3]

example : LitOk ['8'] [] 'h' ∧ LitOk ['8'] [] 'H' ∧ ('h', 'H') ∈ letterPairs ∧
    (Lg.ofString "8'hA5".toList : Res (Lg 8 false)) = Lg.ofString "8'HA5".toList :=
  ⟨⟨by decide, by decide, by decide⟩, ⟨by decide, by decide, by decide⟩, by decide, by rfl⟩

/-- **C172, the sign letter, exactly.** A literal with `s` or `S` after the quote is read as text:
the characters after that letter, base letter included, are stored byte by byte. -/
theorem C172_signed_exact (h1 : 1 < n) {pre mid : List Char} {b : Char} (hb : b = 's' ∨ b = 'S')
    (hl : LitOk pre mid b) (body : List Char) :
    ∃ z : Lg n s, Lg.ofString (lit pre mid b body) = .ok z ∧
      Bits.ofString (lit pre mid b body) = .ok z.value ∧
      (∀ i, i < n → z.value.bv.getLsbD i = byteAt body i) ∧ z.xz.bv = 0 := by
  have hraw : ∀ v, ∃ r, parseRaw v b = .ok r ∧ parseXz v b = .ok 0 ∧
      ∀ i, i < 64 → r.getLsbD i = byteAt v i := by
    intro v
    rcases hb with rfl | rfl
    · exact parse_raw v
    · obtain ⟨r, e1, e2, e3⟩ := parse_raw v
      exact ⟨r, by rw [← e1]; simp [parseRaw], by rw [← e2]; simp [parseXz], e3⟩
  obtain ⟨a1, a2, a3, a4⟩ := C66_prefix hl body n
  by_cases h64 : n ≤ 64
  · obtain ⟨r, hr, hk, e⟩ := hraw body
    rw [hr] at a1
    rw [hk] at a2
    refine ⟨⟨Bits.mkN h64 ⟨tU64, _⟩, Bits.mkN h64 ⟨tU64, _⟩⟩, by rw [Lg.ofString, dif_pos h64, a1, a2]; rfl,
      by rw [Bits.ofString, dif_pos h64, a1]; rfl, fun i hi => ?_, ?_⟩
    · show (Bits.mkN h64 _ : Bits n s).bv.getLsbD i = _
      rw [Bits.bv_mkN h64 (by omega), BitVec.ofInt_natCast, BitVec.getLsbD_ofNat, ← e i (by omega)]
      simp [hi, BitVec.getLsbD]
    · show (Bits.mkN h64 _ : Bits n false).bv = _
      rw [Bits.bv_mkN h64 (by omega)]; rfl
  · choose r hr hk e using hraw
    have hst : 64 / getStride b = 8 := by rcases hb with rfl | rfl <;> decide
    obtain ⟨z, z1, z2, z3, z4⟩ := wide_limbs (s := s) h64 (v := lit pre mid b body) (body := body) (b := b) a3 a4
      (by rcases hb with rfl | rfl <;> decide) (by rcases hb with rfl | rfl <;> decide)
      (fun k => r (chunk body 8 k)) (fun _ => 0) (fun k _ => by rw [hst]; exact hr _) (fun k _ => hk _)
    refine ⟨z, z1, z2, fun i hi => ?_, ?_⟩
    · rw [Bits.getLsbD_bv, decide_eq_true hi, Bool.true_and, z3, e _ _ (Nat.mod_lt _ (by decide)), byteAt, byteAt,
        chunk_reverse, List.getElem?_take, if_pos (by omega), List.getElem?_drop, decide_eq_true (div_lt_limbs hi),
        show i / 64 * 8 + i % 64 / 8 = i / 8 by omega, show i % 64 % 8 = i % 8 by omega, Bool.true_and]
    · apply BitVec.eq_of_getLsbD_eq
      intro i hi
      rw [Bits.getLsbD_bv, z4]; simp

/-- **C172 is false for signed literals** at every width above four: `'sh0` is not zero, its low
byte is the code of the character `0`. -/
theorem C172_signed_refuted (h4 : 4 < n) :
    ∃ z : Lg n s, Lg.ofString "'sh0".toList = .ok z ∧ z.value.bv.getLsbD 4 = true ∧ z.xz.bv = 0 := by
  obtain ⟨z, z1, -, z3, z4⟩ := C172_signed_exact (n := n) (s := s) (by omega) (pre := []) (mid := [])
    (Or.inl rfl) ⟨by decide, by decide, by decide⟩ ['h', '0']
  exact ⟨z, z1, by rw [z3 4 h4]; decide, z4⟩

/-- **C172, other letters, exactly.** A letter that is none of `b o d h s`, in either case, denotes
the value 0 without x/z, whatever follows it: nothing is reported. -/
theorem C172_unknown_exact (hn : 0 < n) {pre mid : List Char} {b : Char} (hb : b ∉ letters)
    (hl : LitOk pre mid b) (body : List Char) :
    ∃ z : Lg n s, Lg.ofString (lit pre mid b body) = .ok z ∧
      Bits.ofString (lit pre mid b body) = .ok z.value ∧ z.value.bv = 0 ∧ z.xz.bv = 0 := by
  simp only [letters, List.mem_cons, List.not_mem_nil, or_false] at hb
  push Not at hb
  obtain ⟨g1, g2, g3, g4, g5, g6, g7, g8, g9, g10⟩ := hb
  have hr : ∀ v, parseRaw v b = .ok 0 := fun v => by
    simp [parseRaw, g1, g2, g3, g4, g5, g6, g7, g8, g9, g10]
  have hk : ∀ v, parseXz v b = .ok 0 := fun v => by
    simp [parseXz, g1, g2, g3, g4, g7, g8]
  obtain ⟨a1, a2, a3, a4⟩ := C66_prefix hl body n
  by_cases h64 : n ≤ 64
  · rw [hr] at a1
    rw [hk] at a2
    have hz : ∀ t, (Bits.mkN h64 ⟨tU64, ((0 : BitVec 64).toNat : Int)⟩ : Bits n t).bv = 0 := by
      intro t
      apply BitVec.eq_of_getLsbD_eq
      intro i hi
      rw [Bits.getLsbD_bv, raw_limb hn h64 0 (Or.inr (by simp))]
      simp
    exact ⟨⟨Bits.mkN h64 ⟨tU64, _⟩, Bits.mkN h64 ⟨tU64, _⟩⟩, by rw [Lg.ofString, dif_pos h64, a1, a2]; rfl,
      by rw [Bits.ofString, dif_pos h64, a1]; rfl, hz _, hz _⟩
  · obtain ⟨z, z1, z2, z3, z4⟩ := wide_limbs (s := s) h64 (v := lit pre mid b body) (body := body) (b := b) a3 a4
      (hr _) (hk _) (fun _ => 0) (fun _ => 0) (fun _ _ => hr _) (fun _ _ => hk _)
    refine ⟨z, z1, z2, ?_, ?_⟩
    · apply BitVec.eq_of_getLsbD_eq
      intro i hi
      rw [Bits.getLsbD_bv, z3]; simp
    · apply BitVec.eq_of_getLsbD_eq
      intro i hi
      rw [Bits.getLsbD_bv, z4]; simp

/-- **C172 is false for `'x` and `'z`** at every width: these fill the vector with x and z, but the
library makes both the known value 0. The letter `x`, which `get_stride` lists beside `h`, is no
hexadecimal base either: all of `'xF` is 0. -/
theorem C172_unknown_refuted (hn : 0 < n) (body : List Char) {b : Char} (hb : b ∈ ['x', 'X', 'z', 'Z']) :
    ∃ z : Lg n s, Lg.ofString ('\'' :: b :: body) = .ok z ∧ ∀ i, i < n → z.at i = .b0 := by
  have hl : b ∉ letters := by revert b; decide
  have ho : LitOk [] [] b := ⟨by simp, by simp, by revert b; decide⟩
  obtain ⟨z, z1, -, z3, z4⟩ := C172_unknown_exact (n := n) (s := s) hn hl ho body
  refine ⟨z, z1, fun i hi => ?_⟩
  rw [Lg.at, z3, z4]
  simp [V4.mk]

example : 'x' ∉ letters ∧ LitOk ['8'] [] 'x' ∧ getStride 'x' = getStride 'h' :=
  ⟨by decide, ⟨by decide, by decide, by decide⟩, by decide⟩

/-- no base letter: base `b`, and nothing is skipped -/
theorem getInputBase_unbased {pre mid : List Char} (hp : ∀ c ∈ pre, c ≠ '\'')
    (hm : ∀ c ∈ mid, '0' ≤ c ∧ c ≤ '9') : getInputBase (pre ++ '\'' :: mid) = ('b', 0) := by
  have h1 : (pre ++ '\'' :: mid).findIdx? (· == '\'') = some pre.length := by
    rw [List.findIdx?_append]
    have : pre.findIdx? (· == '\'') = none := by
      rw [List.findIdx?_eq_none_iff]
      intro c hc
      simpa using hp c hc
    rw [this]
    simp [List.findIdx?_cons]
  have h2 : findNonDigit mid = none := by
    rw [findNonDigit, List.findIdx?_eq_none_iff]
    intro c hc
    simpa using hm c hc
  have h3 : (pre ++ '\'' :: mid).drop (pre.length + 1) = mid := by
    rw [← List.drop_drop, List.drop_left]; rfl
  rw [getInputBase, h1]
  simp only
  rw [h3, h2]

/-- a character of an unbased literal: a digit or the quote -/
def DigitOrQuote (c : Char) : Prop := ('0' ≤ c ∧ c ≤ '9') ∨ c = '\''

theorem DigitOrQuote.plain {c : Char} (h : DigitOrQuote c) : c ≠ '_' ∧ c ≠ 'x' ∧ c ≠ 'z' := by
  refine ⟨?_, ?_, ?_⟩ <;> rintro rfl <;> revert h <;> unfold DigitOrQuote <;> decide

/-- bit `i` of an unbased literal: is character `i` from the right a `1`? -/
def oneAt (v : List Char) (i : Nat) : Bool := v.reverse[i]? == some '1'

theorem parse_unbased (v : List Char) (hv : ∀ c ∈ v, DigitOrQuote c) (hl : v.length ≤ 64) :
    ∃ r, parseRaw v 'b' = .ok r ∧ parseXz v 'b' = .ok 0 ∧ ∀ i, i < 64 → r.getLsbD i = oneAt v i := by
  have hd : digitsOf v = v.reverse := digitsOf_plain fun c hc => (hv c hc).plain.1
  obtain ⟨r, hr, er⟩ := parse_pos 1 (by decide) binDigit (by decide) v
    (fun c _ => by unfold digVal binDigit; split_ifs <;> decide) (Or.inr ⟨by decide, by rw [hd]; simpa using hl⟩)
  obtain ⟨k, hk, ek⟩ := parse_xzBin v (by
    intro i c hc hxz
    rw [hd] at hc
    have hm : c ∈ v := by simpa using List.mem_of_getElem? hc
    have := (hv c hm).plain
    rcases hxz with h | h
    · exact absurd h this.2.1
    · exact absurd h this.2.2)
  refine ⟨r, by rw [← hr]; simp [parseRaw], ?_, fun i hi => ?_⟩
  · rw [hk]
    congr 1
    apply BitVec.eq_of_getLsbD_eq
    intro i hi
    rw [ek i hi, hd, posBit]
    split
    · rename_i c hc
      have hm : c ∈ v := by simpa using List.mem_of_getElem? hc
      have := (hv c hm).plain
      rw [if_neg (by simp [this.2.1, this.2.2])]
      simp
    · simp
  · rw [er i hi, hd, posBit, oneAt, Nat.div_one]
    split
    · rename_i c hc
      rw [hc]
      have hm : c ∈ v := by simpa using List.mem_of_getElem? hc
      have hz := (hv c hm).plain.2.2
      unfold digVal binDigit
      by_cases h1 : c = '1'
      · subst h1; simp [Nat.mod_one]
      · simp [h1, hz]
    · rename_i hc
      rw [hc]; rfl

/-- **C172, literals without a base letter, exactly.** The whole literal is read in binary: bit `i`
is set exactly if character `i` from the right is a `1`, the quote and the size included. At native
widths a literal of up to 64 characters; at wide ones any. -/
theorem C172_unbased_exact (h1 : 1 < n) {pre mid : List Char} (hp : ∀ c ∈ pre, '0' ≤ c ∧ c ≤ '9')
    (hm : ∀ c ∈ mid, '0' ≤ c ∧ c ≤ '9') (hlen : n ≤ 64 → pre.length + mid.length < 64) :
    ∃ z : Lg n s, Lg.ofString (pre ++ '\'' :: mid) = .ok z ∧
      Bits.ofString (pre ++ '\'' :: mid) = .ok z.value ∧
      (∀ i, i < n → z.value.bv.getLsbD i = oneAt (pre ++ '\'' :: mid) i) ∧ z.xz.bv = 0 := by
  have hb := getInputBase_unbased (pre := pre) (mid := mid)
    (fun c hc => by rintro rfl; exact absurd (hp _ hc) (by decide)) hm
  have hv : ∀ c ∈ pre ++ '\'' :: mid, DigitOrQuote c := by
    intro c hc
    rw [List.mem_append, List.mem_cons] at hc
    rcases hc with hc | hc | hc
    · exact Or.inl (hp c hc)
    · exact Or.inr hc
    · exact Or.inl (hm c hc)
  have hlen' : n ≤ 64 → (pre ++ '\'' :: mid).length ≤ 64 := by
    intro h; have := hlen h; simp only [List.length_append, List.length_cons]; omega
  generalize pre ++ '\'' :: mid = v at hb hv hlen'
  by_cases h64 : n ≤ 64
  · obtain ⟨r, hr, hk, e⟩ := parse_unbased v hv (hlen' h64)
    have p1 : parseRawStr v = .ok r := by rw [parseRawStr, hb]; simp only [List.drop_zero]; exact hr
    have p2 : parseXzStr v = .ok 0 := by rw [parseXzStr, hb]; simp only [List.drop_zero]; exact hk
    refine ⟨⟨Bits.mkN h64 ⟨tU64, _⟩, Bits.mkN h64 ⟨tU64, _⟩⟩, by rw [Lg.ofString, dif_pos h64, p1, p2]; rfl,
      by rw [Bits.ofString, dif_pos h64, p1]; rfl, fun i hi => ?_, ?_⟩
    · show (Bits.mkN h64 _ : Bits n s).bv.getLsbD i = _
      rw [Bits.bv_mkN h64 (by omega), BitVec.ofInt_natCast, BitVec.getLsbD_ofNat, ← e i (by omega)]
      simp [hi, BitVec.getLsbD]
    · show (Bits.mkN h64 _ : Bits n false).bv = _
      rw [Bits.bv_mkN h64 (by omega)]; rfl
  · have hc : ∀ k, ∃ r, parseRaw (chunk v 64 k) 'b' = .ok r ∧ parseXz (chunk v 64 k) 'b' = .ok 0 ∧
        ∀ i, i < 64 → r.getLsbD i = oneAt (chunk v 64 k) i := fun k =>
      parse_unbased _ (fun c hc => hv c (mem_chunk hc)) (length_chunk v 64 k)
    choose r hr hk e using hc
    obtain ⟨z, z1, z2, z3, z4⟩ := wide_limbs (s := s) h64 (v := v) (body := v) (b := 'b')
      (by rw [parseRawBig, hb]; simp only [List.drop_zero]) (by rw [parseXzBig, hb]; simp only [List.drop_zero])
      (by decide) (by decide) r (fun _ => 0) (fun k _ => hr k) (fun k _ => hk k)
    refine ⟨z, z1, z2, fun i hi => ?_, ?_⟩
    · rw [Bits.getLsbD_bv, decide_eq_true hi, Bool.true_and, z3, e _ _ (Nat.mod_lt _ (by decide)), oneAt, oneAt,
        chunk_reverse, List.getElem?_take, if_pos (Nat.mod_lt _ (by decide)), List.getElem?_drop,
        decide_eq_true (div_lt_limbs hi), show i / 64 * 64 + i % 64 = i by omega, Bool.true_and]
    · apply BitVec.eq_of_getLsbD_eq
      intro i hi
      rw [Bits.getLsbD_bv, z4]; simp

/-- **C172 is false for `'1`** at every width above one: it is the number 1, not all ones. -/
theorem C172_unbased_refuted (h1 : 1 < n) :
    ∃ z : Lg n s, Lg.ofString "'1".toList = .ok z ∧ z.xz.bv = 0 ∧
      ∀ i, i < n → z.value.bv.getLsbD i = decide (i = 0) := by
  obtain ⟨z, z1, -, z3, z4⟩ := C172_unbased_exact (n := n) (s := s) h1 (pre := []) (mid := ['1'])
    (by simp) (by decide) (by simp)
  refine ⟨z, z1, z4, fun i hi => ?_⟩
  rw [z3 i hi]
  rcases i with _ | _ | i
  · decide
  · decide
  · simp [oneAt]

/-- **C172: the size prefix becomes part of the number**: `16'1` is 9 at every width above three. -/
theorem C172_size_refuted (h1 : 3 < n) :
    ∃ z : Lg n s, Lg.ofString "16'1".toList = .ok z ∧ z.xz.bv = 0 ∧
      ∀ i, i < n → z.value.bv.getLsbD i = decide (i = 0 ∨ i = 3) := by
  obtain ⟨z, z1, -, z3, z4⟩ := C172_unbased_exact (n := n) (s := s) (by omega) (pre := ['1', '6']) (mid := ['1'])
    (by decide) (by decide) (by simp)
  refine ⟨z, z1, z4, fun i hi => ?_⟩
  rw [z3 i hi]
  rcases i with _ | _ | _ | _ | i
  · decide
  · decide
  · decide
  · decide
  · simp [oneAt]

end Verif
