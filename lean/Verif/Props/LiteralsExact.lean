import Verif.Props.RoundTrip

/-!
# Which literals are read, and what they denote (C61, C62, C63, C69)

Exact companions of the literal theorems: for every text over the characters of its base, with
underscores anywhere and of any length, whether the constructor is defined and every bit it sets.
-/

namespace Verif

variable {n : Nat} {s : Bool}

/-! ## one word -/

/-- no character of the text is shifted by 64 or more: digits, and an underscore as far as it is
shifted like a digit -/
def Room (st : Nat) (body : List Char) : Prop :=
  (digitsOf body).length * st < 64 ∨ (((digitsOf body).length - 1) * st < 64 ∧ body.head? ≠ some '_')

instance (st : Nat) (body : List Char) : Decidable (Room st body) := by unfold Room; infer_instance

theorem parse_room (st : Nat) (hst : 0 < st) (d : Char → Option (BitVec 64)) (hu : digVal d '_' = 0) (body : List Char)
    (hd : ∀ c ∈ body, (digVal d c).toNat < 2 ^ st) (hf : Room st body) :
    ∃ r, (body.reverse.foldlM (fun s c => parsePos st (d c) c s) (0, 0)).map (·.1) = .ok r ∧
      ∀ i, i < 64 → r.getLsbD i = posBit st (digVal d) (digitsOf body) i := by
  obtain ⟨r, hr, hb⟩ := parsePos_fold hst d hu body.reverse (fun c hc => hd c (by simpa using hc)) 0 0 (by
    intro L1 c L2 hL hs
    rw [Nat.zero_add]
    have hle := digits_split_le hL
    rcases hf with hf | ⟨hf, hh⟩
    · exact lt_of_le_of_lt (Nat.mul_le_mul_right st hle) hf
    · have hlt : (L1.filter (· ≠ '_')).length < (digitsOf body).length := by
        rcases Nat.lt_or_ge (L1.filter (· ≠ '_')).length (digitsOf body).length with h | h
        · exact h
        · exact absurd (digits_split_eq hL (by omega)) hh
      exact lt_of_le_of_lt (Nat.mul_le_mul_right st (by omega)) hf)
  refine ⟨r, by rw [hr, res_map_ok], fun i hi => ?_⟩
  rw [hb i hi, digitsOf_reverse]
  simp

/-- without room the shift is undefined -/
theorem parse_noRoom (st : Nat) (d : Char → Option (BitVec 64)) (hd : ∀ c, (d c).isSome = true) (body : List Char)
    (hf : ¬ Room st body) : (body.reverse.foldlM (fun s c => parsePos st (d c) c s) (0, 0)).map (·.1) = .error .shift := by
  have key : ∃ L1 c L2, body.reverse = L1 ++ c :: L2 ∧ 64 ≤ (L1.filter (· ≠ '_')).length * st := by
    unfold Room at hf
    push Not at hf
    obtain ⟨h1, h2⟩ := hf
    rcases Nat.lt_or_ge (((digitsOf body).length - 1) * st) 64 with h | h
    · have hh := h2 h
      cases body with
      | nil => simp at hh
      | cons a t =>
        simp only [List.head?_cons, Option.some.injEq] at hh
        subst hh
        refine ⟨t.reverse, '_', [], by rw [List.reverse_cons], ?_⟩
        rw [digitsOf_reverse, List.reverse_cons, List.filter_append] at h1
        simpa using h1
    · have hpos : 0 < (digitsOf body).length := by
        rcases Nat.eq_zero_or_pos (digitsOf body).length with h0 | h0
        · rw [h0] at h; simp at h
        · exact h0
      have e := List.getElem?_eq_getElem (l := digitsOf body) (i := (digitsOf body).length - 1) (by omega)
      obtain ⟨L1, L2, e1, e2⟩ := split_filter (p := (· ≠ '_')) (L := body.reverse) (by rw [← digitsOf_reverse]; exact e)
      exact ⟨L1, _, L2, e1, by rw [e2]; exact h⟩
  obtain ⟨L1, c, L2, e, h⟩ := key
  rw [e, parsePos_fault d L1 c L2 0 0 (hd c) (by rw [Nat.zero_add]; exact h)]
  rfl

theorem hexDigit_some (c : Char) : (hexDigit c).isSome = true := by
  unfold hexDigit; split_ifs <;> rfl

theorem octDigit_some (c : Char) : (octDigit c).isSome = true := by
  unfold octDigit; split_ifs <;> rfl

/-- an octal or hexadecimal word: its bits when there is room, undefined otherwise -/
theorem limb_room {b : Char} {st : Nat} {cs body : List Char} (hr : Radix b st cs) (hst : st ≠ 1) (hc : ∀ c ∈ body, c ∈ cs) :
    (Room st body → ∃ r k, parseRaw body b = .ok r ∧ parseXz body b = .ok k ∧
      ∀ i, i < 64 → V4.mk (r.getLsbD i) (k.getLsbD i) = litAt st body i) ∧
    (¬ Room st body → parseRaw body b = .error .shift) := by
  have oct : ∀ b, b = 'o' ∨ b = 'O' → (∀ c ∈ body, c ∈ octChars) → (Room 3 body → ∃ r k, parseRaw body b = .ok r ∧ parseXz body b = .ok k ∧
      ∀ i, i < 64 → V4.mk (r.getLsbD i) (k.getLsbD i) = litAt 3 body i) ∧
      (¬ Room 3 body → parseRaw body b = .error .shift) := by
    intro b hb hc
    constructor
    · intro hl
      obtain ⟨r, hr, er⟩ := parse_room 3 (by decide) octDigit (by decide) body
        (fun c h => by
          have : ∀ c ∈ octChars, (digVal octDigit c).toNat < 2 ^ 3 := by decide
          exact this c (hc c h)) hl
      obtain ⟨k, hk, ek⟩ := parse_room 3 (by decide) (xzDigit 7) (by decide) body
        (fun c h => by
          have : ∀ c ∈ octChars, (digVal (xzDigit 7) c).toNat < 2 ^ 3 := by decide
          exact this c (hc c h)) hl
      refine ⟨r, k, ?_, ?_, fun i hi => ?_⟩
      · rw [← hr]; rcases hb with rfl | rfl <;> rfl
      · rw [← hk]; rcases hb with rfl | rfl <;> rfl
      · rw [er i hi, ek i hi]
        refine litAt_of_pos (by decide) (fun c h j hj => ?_) i
        have : ∀ c ∈ octChars, c ≠ '_' → ∀ j, j < 3 →
            V4.mk ((digVal octDigit c).getLsbD j) ((digVal (xzDigit 7) c).getLsbD j) = charBit c j := by
          decide +kernel
        exact this c (hc c (mem_digitsOf h).1) (mem_digitsOf h).2 j hj
    · intro h
      rw [← parse_noRoom 3 octDigit octDigit_some body h]
      rcases hb with rfl | rfl <;> rfl
  have hex : ∀ b, b = 'h' ∨ b = 'H' → (∀ c ∈ body, c ∈ hexChars) → (Room 4 body → ∃ r k, parseRaw body b = .ok r ∧ parseXz body b = .ok k ∧
      ∀ i, i < 64 → V4.mk (r.getLsbD i) (k.getLsbD i) = litAt 4 body i) ∧
      (¬ Room 4 body → parseRaw body b = .error .shift) := by
    intro b hb hc
    constructor
    · intro hl
      refine limb_ok (.hex hb hc ?_)
      rcases hl with h | ⟨h, h'⟩
      · exact Or.inl h
      · rcases Nat.lt_or_ge (digitsOf body).length 16 with h2 | h2
        · exact Or.inl (by omega)
        · exact Or.inr ⟨by omega, h'⟩
    · intro h
      rw [← parse_noRoom 4 hexDigit hexDigit_some body h]
      rcases hb with rfl | rfl <;> rfl
  cases hr with
  | b => exact absurd rfl hst
  | B => exact absurd rfl hst
  | o => exact oct _ (Or.inl rfl) hc
  | O => exact oct _ (Or.inr rfl) hc
  | h => exact hex _ (Or.inl rfl) hc
  | H => exact hex _ (Or.inr rfl) hc

theorem native_room (h1 : 1 < n) (h64 : n ≤ 64) {pre mid body : List Char} {b : Char} {st : Nat} {cs : List Char}
    (hr : Radix b st cs) (hst : st ≠ 1) (hl : LitOk pre mid b) (hc : ∀ c ∈ body, c ∈ cs) :
    (Room st body → ∃ z : Lg n s, Lg.ofString (lit pre mid b body) = .ok z ∧ Bits.ofString (lit pre mid b body) = .ok z.value ∧
      ∀ i, i < n → z.at i = litAt st body i) ∧
    (¬ Room st body → (Lg.ofString (lit pre mid b body) : Res (Lg n s)) = .error .shift ∧
      (Bits.ofString (lit pre mid b body) : Res (Bits n s)) = .error .shift) := by
  obtain ⟨p1, p2, -, -⟩ := C66_prefix hl body n
  obtain ⟨q1, q2⟩ := limb_room hr hst hc
  constructor
  · intro h
    obtain ⟨r, k, hr', hk', e⟩ := q1 h
    refine ⟨⟨Bits.mkN h64 ⟨tU64, r.toNat⟩, Bits.mkN h64 ⟨tU64, k.toNat⟩⟩, ?_, ?_, fun i hi => ?_⟩
    · rw [Lg.ofString, dif_pos h64, p1, p2, hr', hk']; rfl
    · rw [Bits.ofString, dif_pos h64, p1, hr']; rfl
    · have := le_hw h64
      rw [Lg.at_of_raw hi, ← e i (by omega)]
      exact mk_at h64 h1 r k (by omega)
  · intro h
    constructor
    · rw [Lg.ofString, dif_pos h64, p1, q2 h]; rfl
    · rw [Bits.ofString, dif_pos h64, p1, q2 h]; rfl

/-- **C62, exactly.** A native hexadecimal literal of digits `0` to `9`, `A` to `F`, x, z and
underscores, of any length: with at most sixteen digits, and no leading underscore before sixteen,
every bit of the object is that of its digit; otherwise the constructor shifts a 64-bit word by 64
or more. -/
theorem C62_hex_exact (h1 : 1 < n) (h64 : n ≤ 64) {pre mid body : List Char} {b : Char} (hb : b = 'h' ∨ b = 'H')
    (hl : LitOk pre mid b) (hc : ∀ c ∈ body, c ∈ hexChars) :
    ((digitsOf body).length < 16 ∨ ((digitsOf body).length = 16 ∧ body.head? ≠ some '_') →
      ∃ z : Lg n s, Lg.ofString (lit pre mid b body) = .ok z ∧ Bits.ofString (lit pre mid b body) = .ok z.value ∧
        ∀ i, i < n → z.at i = litAt 4 body i) ∧
    (¬ ((digitsOf body).length < 16 ∨ ((digitsOf body).length = 16 ∧ body.head? ≠ some '_')) →
      (Lg.ofString (lit pre mid b body) : Res (Lg n s)) = .error .shift ∧
        (Bits.ofString (lit pre mid b body) : Res (Bits n s)) = .error .shift) := by
  have e : ((digitsOf body).length < 16 ∨ ((digitsOf body).length = 16 ∧ body.head? ≠ some '_')) ↔ Room 4 body := by
    unfold Room
    by_cases hh : body.head? = some '_'
    · simp only [hh, ne_eq, not_true_eq_false, and_false, or_false]; omega
    · simp only [hh, ne_eq, not_false_eq_true, and_true]; omega
  rw [e]
  rcases hb with rfl | rfl
  · exact native_room h1 h64 .h (by decide) hl hc
  · exact native_room h1 h64 .H (by decide) hl hc

-- sixteen digits with an inner underscore are read, seventeen digits are not, leading zeros included
example : (∃ z : Lg 64 false, Lg.ofString "64'h8000_000000000001".toList = .ok z ∧ z.at 63 = .b1 ∧ z.at 0 = .b1) ∧
    (Bits.ofString "8'h00000000000000001".toList : Res (Bits 8 false)) = .error .shift :=
  ⟨⟨_, rfl, by decide +kernel, by decide +kernel⟩, by decide +kernel⟩

/-- **C63, exactly.** A native octal literal of digits, x, z and underscores, of any length: with at
most 22 digits, and no leading underscore before 22, every bit of the object is that of its digit;
otherwise the constructor shifts a 64-bit word by 64 or more. -/
theorem C63_octal_exact (h1 : 1 < n) (h64 : n ≤ 64) {pre mid body : List Char} {b : Char} (hb : b = 'o' ∨ b = 'O')
    (hl : LitOk pre mid b) (hc : ∀ c ∈ body, c ∈ octChars) :
    ((digitsOf body).length < 22 ∨ ((digitsOf body).length = 22 ∧ body.head? ≠ some '_') →
      ∃ z : Lg n s, Lg.ofString (lit pre mid b body) = .ok z ∧ Bits.ofString (lit pre mid b body) = .ok z.value ∧
        ∀ i, i < n → z.at i = litAt 3 body i) ∧
    (¬ ((digitsOf body).length < 22 ∨ ((digitsOf body).length = 22 ∧ body.head? ≠ some '_')) →
      (Lg.ofString (lit pre mid b body) : Res (Lg n s)) = .error .shift ∧
        (Bits.ofString (lit pre mid b body) : Res (Bits n s)) = .error .shift) := by
  have e : ((digitsOf body).length < 22 ∨ ((digitsOf body).length = 22 ∧ body.head? ≠ some '_')) ↔ Room 3 body := by
    unfold Room
    by_cases hh : body.head? = some '_'
    · simp only [hh, ne_eq, not_true_eq_false, and_false, or_false]; omega
    · simp only [hh, ne_eq, not_false_eq_true, and_true]; omega
  rw [e]
  rcases hb with rfl | rfl
  · exact native_room h1 h64 .o (by decide) hl hc
  · exact native_room h1 h64 .O (by decide) hl hc

-- 22 digits in two groups are read, and undefined after a leading underscore
example : (∃ z : Lg 64 false, Lg.ofString "64'o1000000000_000000000007".toList = .ok z ∧ z.at 63 = .b1 ∧ z.at 2 = .b1) ∧
    (Bits.ofString "64'o_1000000000000000000007".toList : Res (Bits 64 false)) = .error .shift :=
  ⟨⟨_, rfl, by decide +kernel, by decide +kernel⟩, by decide +kernel⟩

/-! ## binary -/

/-- **C61, exactly.** A native binary literal over `0 1 x z _`, of any length: if no `1` or `z` is at
position 64 or above and no x or z is at position 32 or above, every bit of the object is that of
its digit; otherwise the constructor of `logic` shifts by the width of the word or more. -/
theorem C61_binary_exact (h1 : 1 < n) (h64 : n ≤ 64) {pre mid body : List Char} {b : Char} (hb : b = 'b' ∨ b = 'B')
    (hl : LitOk pre mid b) (hc : ∀ c ∈ body, c ∈ binChars) :
    ((∀ i c, (digitsOf body)[i]? = some c → (c = '1' → i < 64) ∧ (c = 'x' ∨ c = 'z' → i < 32)) →
      ∃ z : Lg n s, Lg.ofString (lit pre mid b body) = .ok z ∧ Bits.ofString (lit pre mid b body) = .ok z.value ∧
        ∀ i, i < n → z.at i = litAt 1 body i) ∧
    (¬ (∀ i c, (digitsOf body)[i]? = some c → (c = '1' → i < 64) ∧ (c = 'x' ∨ c = 'z' → i < 32)) →
      (Lg.ofString (lit pre mid b body) : Res (Lg n s)) = .error .shift) := by
  obtain ⟨p1, p2, -, -⟩ := C66_prefix hl body n
  have eraw : parseRaw body b = (body.reverse.foldlM (fun s c => parsePos 1 (binDigit c) c s) (0, 0)).map (·.1) := by
    rcases hb with rfl | rfl <;> rfl
  have exz : parseXz body b = parseXz body 'b' := by rcases hb with rfl | rfl <;> rfl
  constructor
  · intro h
    obtain ⟨r, hr, hbit⟩ := parsePos_fold (st := 1) (by decide) binDigit (by decide) body.reverse
      (fun c hc' => by
        have : ∀ c ∈ binChars, (digVal binDigit c).toNat < 2 ^ 1 := by decide
        exact this c (hc c (by simpa using hc'))) 0 0 (by
      intro L1 c L2 hL hs
      rw [Nat.zero_add, Nat.mul_one]
      have hcu : c = '1' ∨ c = 'z' := by
        by_contra hn; rw [binDigit, if_neg hn] at hs; cases hs
      have hne : c ≠ '_' := by rcases hcu with rfl | rfl <;> decide
      have hi : (digitsOf body)[(L1.filter (· ≠ '_')).length]? = some c := by
        rw [digitsOf_reverse, hL, List.filter_append, List.filter_cons_of_pos (by simpa using hne),
          List.getElem?_append_right (le_refl _)]
        simp
      have := h _ c hi
      rcases hcu with rfl | rfl
      · exact this.1 rfl
      · have := this.2 (Or.inr rfl); omega)
    obtain ⟨k, hk, ek⟩ := parse_xzBin body fun i c hi hx => (h i c hi).2 hx
    have hr' : parseRaw body b = .ok r := by rw [eraw, hr, res_map_ok]
    have hk' : parseXz body b = .ok k := by rw [exz, hk]
    refine ⟨⟨Bits.mkN h64 ⟨tU64, r.toNat⟩, Bits.mkN h64 ⟨tU64, k.toNat⟩⟩, ?_, ?_, fun i hi => ?_⟩
    · rw [Lg.ofString, dif_pos h64, p1, p2, hr', hk']; rfl
    · rw [Bits.ofString, dif_pos h64, p1, hr']; rfl
    · have := le_hw h64
      have er : r.getLsbD i = posBit 1 (digVal binDigit) (digitsOf body) i := by
        rw [hbit i (by omega), digitsOf_reverse]; simp
      rw [Lg.at_of_raw hi]
      refine (mk_at h64 h1 r k (by omega)).trans ?_
      rw [er, ek i (by omega)]
      refine litAt_of_pos (by decide) (fun c h j hj => ?_) i
      have : ∀ c ∈ binChars, c ≠ '_' → ∀ j, j < 1 →
          V4.mk ((digVal binDigit c).getLsbD j) ((if c = 'x' ∨ c = 'z' then (1 : BitVec 64) else 0).getLsbD j) = charBit c j := by
        decide
      exact this c (hc c (mem_digitsOf h).1) (mem_digitsOf h).2 j hj
  · intro h
    push Not at h
    obtain ⟨i, c, hi, hbad⟩ := h
    have hraw : (∃ r, parseRaw body b = .ok r) ∨ parseRaw body b = .error .shift := by
      by_cases hall : ∀ L1 c L2, body.reverse = L1 ++ c :: L2 → (binDigit c).isSome = true → (0 + (L1.filter (· ≠ '_')).length) * 1 < 64
      · obtain ⟨r, hr, -⟩ := parsePos_fold (st := 1) (by decide) binDigit (by decide) body.reverse
          (fun c hc' => by
            have : ∀ c ∈ binChars, (digVal binDigit c).toNat < 2 ^ 1 := by decide
            exact this c (hc c (by simpa using hc'))) 0 0 hall
        exact Or.inl ⟨r, by rw [eraw, hr, res_map_ok]⟩
      · push Not at hall
        obtain ⟨L1, c, L2, e1, e2, e3⟩ := hall
        right
        rw [eraw, e1, parsePos_fault binDigit L1 c L2 0 0 e2 e3]; rfl
    rcases hraw with ⟨r, hr⟩ | hr
    · have hx : (c = 'x' ∨ c = 'z') ∧ 32 ≤ i := by
        by_cases hx : (c = 'x' ∨ c = 'z') ∧ 32 ≤ i
        · exact hx
        exfalso
        have h1' : c = '1' ∧ 64 ≤ i := by
          by_cases e : c = '1' ∧ 64 ≤ i
          · exact e
          · exact absurd (hbad (fun h => by by_contra h'; exact e ⟨h, by omega⟩)) (fun h => hx ⟨h.1, h.2⟩)
        obtain ⟨L1, L2, e1, e2⟩ := split_filter (p := (· ≠ '_')) (L := body.reverse) (by rw [← digitsOf_reverse]; exact hi)
        rw [eraw, e1, parsePos_fault binDigit L1 c L2 0 0 (by rw [h1'.1]; decide) (by rw [Nat.zero_add, Nat.mul_one, e2]; exact h1'.2)] at hr
        cases hr
      rw [Lg.ofString, dif_pos h64, p1, p2, hr, xz_fault hb hi hx.1 hx.2]; rfl
    · rw [Lg.ofString, dif_pos h64, p1, hr]; rfl

set_option maxRecDepth 8192 in
-- seventy digits, the ones at 0 and 63 and the x at 31 are read; a one at 64 is not
example : (∃ z : Lg 64 false, Lg.ofString ("'b000000".toList ++ '1' :: List.replicate 31 '0' ++ 'x' :: List.replicate 30 '0' ++ ['1']) = .ok z ∧
      z.at 63 = .b1 ∧ z.at 31 = .x ∧ z.at 0 = .b1) ∧
    (Lg.ofString ("'b1".toList ++ List.replicate 64 '0') : Res (Lg 8 false)) = .error .shift :=
  ⟨⟨_, rfl, by decide +kernel, by decide +kernel, by decide +kernel⟩, by decide +kernel⟩

/-! ## wide -/

/-- the part of the text that limb `k` is read from: `B` characters, underscores included, counted
from the right -/
def part (body : List Char) (B k : Nat) : List Char := ((body.reverse.drop (k * B)).take B).reverse

theorem parts_fit {body : List Char} {b : Char} {st : Nat} {cs : List Char} (hr : Radix b st cs)
    (hc : ∀ c ∈ body, c ∈ cs) (k : Nat)
    (hx : st = 1 → ∀ i c, (digitsOf (chunk body (64 / st) k))[i]? = some c → c = 'x' ∨ c = 'z' → i < 32) :
    LimbOk b st (chunk body (64 / st) k) := by
  have hc' : ∀ c ∈ chunk body (64 / st) k, c ∈ cs := fun c h => hc c (mem_chunk h)
  have hle : (digitsOf (chunk body (64 / st) k)).length ≤ (chunk body (64 / st) k).length := by
    rw [digitsOf, List.length_reverse]; exact List.length_filter_le _ _
  have hlen := le_trans hle (length_chunk body (64 / st) k)
  have hhex : st = 4 → Fits64 4 (chunk body (64 / st) k) := by
    rintro rfl
    rcases Nat.lt_or_ge (digitsOf (chunk body (64 / 4) k)).length 16 with h | h
    · exact Or.inl (by omega)
    · refine Or.inr ⟨by omega, ?_⟩
      intro he
      have hl2 := length_chunk body (64 / 4) k
      have : (digitsOf (chunk body (64 / 4) k)).length < (chunk body (64 / 4) k).length := by
        rw [digitsOf, List.length_reverse]
        refine List.length_filter_lt_length_iff_exists.2 ⟨'_', List.mem_of_mem_head? (by rw [he]; rfl), by decide⟩
      omega
  cases hr with
  | b => exact .bin (Or.inl rfl) hc' hlen (hx rfl)
  | B => exact .bin (Or.inr rfl) hc' hlen (hx rfl)
  | o => exact .oct (Or.inl rfl) hc' hlen
  | O => exact .oct (Or.inr rfl) hc' hlen
  | h => exact .hex (Or.inl rfl) hc' (hhex rfl)
  | H => exact .hex (Or.inr rfl) hc' (hhex rfl)

/-- **C67, C68 and C69, exactly.** A wide binary, octal or hexadecimal literal with underscores
anywhere: limb `k` is read from the `k`-th group of 64, 21 or 16 characters from the right, its bits
being those of the digits of that group. Only a binary x or z at position 32 or above of its group
makes the constructor undefined. -/
theorem C69_exact (h : ¬ n ≤ 64) {pre mid body : List Char} {b : Char} {st : Nat} {cs : List Char}
    (hr : Radix b st cs) (hl : LitOk pre mid b) (hc : ∀ c ∈ body, c ∈ cs) :
    ((st = 1 → ∀ k i c, k < limbs n → (digitsOf (part body 64 k))[i]? = some c → c = 'x' ∨ c = 'z' → i < 32) →
      ∃ z : Lg n s, Lg.ofString (lit pre mid b body) = .ok z ∧ Bits.ofString (lit pre mid b body) = .ok z.value ∧
        ∀ i, i < n → z.at i = litAt st (part body (64 / st) (i / 64)) (i % 64)) ∧
    (¬ (st = 1 → ∀ k i c, k < limbs n → (digitsOf (part body 64 k))[i]? = some c → c = 'x' ∨ c = 'z' → i < 32) →
      (Lg.ofString (lit pre mid b body) : Res (Lg n s)) = .error .shift) := by
  constructor
  · intro hx
    obtain ⟨z, h1, h2, h3⟩ := wide_lit (s := s) h hr hl fun k hk => parts_fit hr hc k (by
      rintro rfl i c hi hxz
      exact hx rfl k i c hk hi hxz)
    refine ⟨z, h1, h2, fun i hi => ?_⟩
    rw [Lg.at_of_raw hi, h3 i (lt_of_lt_of_le hi (le_limbs n))]
    rfl
  · intro hx
    push Not at hx
    obtain ⟨rfl, k0, i0, c0, hk0, hi0, hc0, hge⟩ := hx
    have hb : b = 'b' ∨ b = 'B' := by cases hr <;> decide
    have hcs : cs = binChars := by cases hr <;> rfl
    subst hcs
    obtain ⟨-, -, p3, p4⟩ := C66_prefix hl body n
    have hs : 64 / getStride b = 64 := by rcases hb with rfl | rfl <;> rfl
    rw [hs] at p3 p4
    have hlen : ∀ k, (digitsOf (chunk body 64 k)).length ≤ 64 := by
      intro k
      refine le_trans ?_ (length_chunk body 64 k)
      rw [digitsOf, List.length_reverse]; exact List.length_filter_le _ _
    have hraw : ∀ k, ∃ r, parseRaw (chunk body 64 k) b = .ok r := by
      intro k
      obtain ⟨r, hr, -⟩ := parse_pos 1 (by decide) binDigit (by decide) (chunk body 64 k)
        (fun c h => by
          have : ∀ c ∈ binChars, (digVal binDigit c).toNat < 2 ^ 1 := by decide
          exact this c (hc c (mem_chunk h))) (Or.inr ⟨by decide, by have := hlen k; omega⟩)
      exact ⟨r, by rw [← hr]; rcases hb with rfl | rfl <;> rfl⟩
    choose f hf using hraw
    have hxz : ∀ k, (∃ r, parseXz (chunk body 64 k) b = .ok r) ∨ parseXz (chunk body 64 k) b = .error .shift := by
      intro k
      by_cases hk : ∀ i c, (digitsOf (chunk body 64 k))[i]? = some c → c = 'x' ∨ c = 'z' → i < 32
      · obtain ⟨r, hr, -⟩ := parse_xzBin (chunk body 64 k) hk
        exact Or.inl ⟨r, by rw [← hr]; rcases hb with rfl | rfl <;> rfl⟩
      · right
        push Not at hk
        obtain ⟨i, c, h1, h2, h3⟩ := hk
        exact xz_fault hb h1 h2 h3
    have hbad : ∃ k, k < limbs n ∧ parseXz (chunk body 64 k) b = .error .shift := ⟨k0, hk0, xz_fault hb hi0 hc0 hge⟩
    have hb2 : batchLoop (parseXz · b) body 64 (limbs n) body.length body.length = .error .shift := by
      classical
      obtain ⟨k1, k2⟩ := Nat.find_spec hbad
      have hmin : ∀ k, k < Nat.find hbad → ∃ r, parseXz (chunk body 64 k) b = .ok r := by
        intro k hk
        rcases hxz k with h | h
        · exact h
        · exact absurd ⟨by omega, h⟩ (Nat.find_min hbad hk)
      have := batchLoop_error (parseXz · b) (by rcases hb with rfl | rfl <;> rfl) body (b := 64) (by decide)
        (fun k => if h : k < Nat.find hbad then (hmin k h).choose else 0) .shift (limbs n) 0 (Nat.find hbad) k1
        (fun k hk => by
          rw [Nat.zero_add]
          show parseXz _ b = _
          rw [dif_pos hk]
          exact (hmin k hk).choose_spec) (by rw [Nat.zero_add]; exact k2)
      simpa using this
    rw [Lg.ofString, dif_neg h, p3, p4, batch_start (parseRaw · b) (by rcases hb with rfl | rfl <;> rfl) body (by decide) f _
      (fun k _ => hf k), hb2]
    rfl

-- an underscore among sixteen characters leaves four bits of the limb clear
example : ∃ z : Lg 100 false, Lg.ofString "100'hF_FFFFFFFF_FFFFFFFF".toList = .ok z ∧
    z.at 59 = .b1 ∧ z.at 60 = .b0 ∧ z.at 63 = .b0 ∧ z.at 64 = .b1 ∧ z.at 67 = .b1 ∧ z.at 68 = .b1 :=
  ⟨_, rfl, by decide +kernel, by decide +kernel, by decide +kernel, by decide +kernel, by decide +kernel, by decide +kernel⟩

end Verif
