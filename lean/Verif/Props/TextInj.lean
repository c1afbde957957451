import Verif.Props.RoundTrip
import Verif.Props.XSound

/-!
# Texts identify objects (C164), and reading followed by printing (C165)
-/

namespace Verif

variable {n : Nat} {s : Bool}

theorem V4.char_inj {u v : V4} (h : u.char = v.char) : u = v := by
  revert h; cases u <;> cases v <;> decide

theorem binText_inj {f g : Nat → V4} : binText n f = binText n g ↔ ∀ i, i < n → f i = g i := by
  constructor
  · intro h i hi
    have := congrArg (fun t => (digitsOf t)[i]?) h
    simp only [binText_get, if_pos hi] at this
    exact V4.char_inj (Option.some.inj this)
  · intro h
    refine List.map_congr_left fun i hi => ?_
    rw [h i (by simpa using hi)]

theorem native_str_text (h : n ≤ 64) (x : Lg n s) : x.str ['b'] = .ok (binText n x.at) := C70_native h x (Or.inl rfl)

/-- **C164, binary, bit by bit.** Two objects have the same binary text if and only if they have the same bits, but at wide
multiples of 64 the top 64 bits do not count. -/
theorem C164_binary_exact (x y : Lg n s) :
    x.str ['b'] = y.str ['b'] ↔ ∀ i, i < n → (64 < n ∧ n % 64 = 0 → i < n - 64) → x.at i = y.at i := by
  by_cases h : n ≤ 64
  · rw [native_str_text h, native_str_text h, Except.ok.injEq, binText_inj]
    exact ⟨fun H i hi _ => H i hi, fun H i hi => H i hi fun h' => absurd h'.1 (by omega)⟩
  · rw [wide_str_text h, wide_str_text h, Except.ok.injEq, binText_inj]
    constructor
    · intro H i hi h'
      have := H i hi
      by_cases h0 : n % 64 = 0
      · have := h' ⟨by omega, h0⟩
        have h2 := H i hi
        rwa [shown, shown, if_neg (by omega), if_neg (by omega)] at h2
      · rwa [shown, shown, if_neg (by omega), if_neg (by omega)] at this
    · intro H i hi
      rw [shown, shown]
      split_ifs with hs
      · rfl
      · exact H i hi (by omega)

/-- **C164, binary.** Different canonical objects have different binary texts, at exactly the widths that are native or no
multiple of 64. -/
theorem C164_binary_iff : (∀ x y : Lg n s, x.Clean → y.Clean → x.str ['b'] = y.str ['b'] → x = y) ↔ n ≤ 64 ∨ n % 64 ≠ 0 := by
  constructor
  · intro H
    by_contra hcon
    obtain ⟨x, cx, hx⟩ := Lg.exists_at (n := n) (s := s) fun i => if i = n - 1 then .b1 else .b0
    obtain ⟨y, cy, hy⟩ := Lg.exists_at (n := n) (s := s) fun _ => .b0
    have e := H x y cx cy ((C164_binary_exact x y).2 fun i hi h' => by
      rw [hx i hi, hy i hi, if_neg (by have := h' (by omega); omega)])
    have h1 := hx (n - 1) (by omega)
    rw [e, hy (n - 1) (by omega), if_pos rfl] at h1
    cases h1
  · intro h x y cx cy e
    exact Lg.clean_ext cx cy fun i hi => (C164_binary_exact x y).1 e i hi fun h' => by omega

theorem Lg.known_ext {x y : Lg n s} (cx : x.Clean) (cy : y.Clean) (kx : x.Known) (ky : y.Known) (h : x.value.bv = y.value.bv) :
    x = y :=
  Lg.clean_ext cx cy fun i hi => by rw [kx.at hi, ky.at hi, h]

/-- **C164, octal and hexadecimal, native.** Different canonical known objects have different texts, of either sign.
Missing: objects with unknown bits (`C164_unknown_refuted`). -/
theorem C164_digits_partial (h64 : n ≤ 64) (x y : Lg n s) (cx : x.Clean) (cy : y.Clean) (kx : x.Known) (ky : y.Known)
    {b : Char} {st : Nat} (h : OutBase b st) (e : x.str [b] = y.str [b]) : x = y := by
  obtain ⟨t, ht, -, -, vt⟩ := C71_exact h64 x kx h
  obtain ⟨u, hu, -, -, vu⟩ := C71_exact h64 y ky h
  rw [ht, hu, Except.ok.injEq] at e
  subst e
  rw [vt] at vu
  have hst := h.pos.1
  have hle : n ≤ st * ((n + st - 1) / st) := by
    have := Nat.div_add_mod (n + st - 1) st
    have := Nat.mod_lt (n + st - 1) hst
    omega
  refine Lg.known_ext cx cy kx ky (BitVec.eq_of_toNat_eq (Nat.eq_of_testBit_eq fun i => ?_))
  by_cases hi : i < n
  · have := congrArg (fun v => v.testBit i) vu
    simp only [Nat.testBit_mod_two_pow, decide_eq_true (lt_of_lt_of_le hi hle), Bool.true_and] at this
    have e1 := word_lt h64 x.value hi
    have e2 := word_lt h64 y.value hi
    exact e1.symm.trans (this.trans e2)
  · rw [Nat.testBit_lt_two_pow (lt_of_lt_of_le x.value.bv.isLt (Nat.pow_le_pow_right (by decide) (by omega))),
      Nat.testBit_lt_two_pow (lt_of_lt_of_le y.value.bv.isLt (Nat.pow_le_pow_right (by decide) (by omega)))]

theorem numeral_no_sign {v : Nat} : '-' ∉ numeral v := by
  unfold numeral
  split_ifs
  · decide
  · intro h
    obtain ⟨d, hd, e⟩ := List.mem_map.1 h
    have hlt := Nat.digits_lt_base (b := 10) (by decide) (List.mem_reverse.1 hd)
    have : ∀ d, d < 10 → "0123456789".toList.getD d '0' ≠ '-' := by decide
    exact this d hlt e

theorem numeralInt_inj {a b : Int} (h : numeralInt a = numeralInt b) : a = b := by
  unfold numeralInt at h
  split_ifs at h with ha hb hb
  · have := numeral_inj (List.cons_inj_right _ |>.1 h); omega
  · exact absurd (h ▸ List.mem_cons_self) (numeral_no_sign (v := b.toNat))
  · exact absurd (h ▸ List.mem_cons_self) (numeral_no_sign (v := a.toNat))
  · have := numeral_inj h; omega

theorem digit4_known {st : Nat} {f : Nat → V4} (h0 : 0 < st) (hf : ∀ j, j < st → (f j).isKnown = true) :
    digit4 st f = "0123456789abcdef".toList.getD (Nat.ofDigits 2 ((List.range st).map fun j => if f j = .b1 then 1 else 0)) '0' := by
  rw [digit4, if_neg, if_neg, if_neg, if_neg]
  · rintro ⟨j, hj, e⟩; have := hf j hj; rw [e] at this; exact absurd this (by decide)
  · rintro ⟨j, hj, e⟩; have := hf j hj; rw [e] at this; exact absurd this (by decide)
  · intro H; have := hf 0 h0; rw [H 0 h0] at this; exact absurd this (by decide)
  · intro H; have := hf 0 h0; rw [H 0 h0] at this; exact absurd this (by decide)

/-- a digit of known bits determines them -/
theorem digit4_known_inj {st : Nat} {f g : Nat → V4} (h0 : 0 < st) (h4 : st ≤ 4) (hf : ∀ j, j < st → (f j).isKnown = true)
    (hg : ∀ j, j < st → (g j).isKnown = true) (e : digit4 st f = digit4 st g) : ∀ j, j < st → f j = g j := by
  rw [digit4_known h0 hf, digit4_known h0 hg] at e
  have inj : ∀ a, a < 16 → ∀ b, b < 16 → "0123456789abcdef".toList.getD a '0' = "0123456789abcdef".toList.getD b '0' → a = b := by
    decide
  have lt : ∀ f : Nat → V4, Nat.ofDigits 2 ((List.range st).map fun j => if f j = .b1 then 1 else 0) < 16 := by
    intro f
    refine lt_of_lt_of_le (Nat.ofDigits_lt_base_pow_length (b := 2) (by decide) ?_) ?_
    · intro d hd
      obtain ⟨j, -, rfl⟩ := List.mem_map.1 hd
      split_ifs <;> decide
    · rw [List.length_map, List.length_range]
      exact Nat.pow_le_pow_right (by decide) h4 |>.trans (by decide)
  have e2 := inj _ (lt f) _ (lt g) e
  have e3 := Nat.ofDigits_inj_of_len_eq (b := 2) (by decide) (by simp) (by
    intro d hd; obtain ⟨j, -, rfl⟩ := List.mem_map.1 hd; split_ifs <;> decide) (by
    intro d hd; obtain ⟨j, -, rfl⟩ := List.mem_map.1 hd; split_ifs <;> decide) e2
  intro j hj
  have e4 := List.map_inj_left.1 e3 j (by simpa using hj)
  have kf := hf j hj
  have kg := hg j hj
  revert e4 kf kg
  cases f j <;> cases g j <;> decide

/-- **C164, hexadecimal, wide.** The same for known objects whose width is no multiple of 64 (`C164_hex_wide_refuted`). -/
theorem C164_hex_wide_partial (h64 : ¬ n ≤ 64) (h0 : n % 64 ≠ 0) (x y : Lg n s) (cx : x.Clean) (cy : y.Clean) (kx : x.Known)
    (ky : y.Known) {b : Char} (hb : OutBase b 4) (e : x.str [b] = y.str [b]) : x = y := by
  rw [C76_hex_partial h64 h0 x cx hb (by decide), C76_hex_partial h64 h0 y cy hb (by decide), Except.ok.injEq] at e
  have e1 := List.map_inj_left.1 e
  refine Lg.clean_ext cx cy fun i hi => ?_
  have known : ∀ z : Lg n s, z.Known → ∀ i, (z.at i).isKnown = true := by
    intro z hz i
    rw [Lg.at, isKnown_mk, hz.bv_xz]; simp
  have := digit4_known_inj (by decide) (by decide) (fun j _ => known x kx _) (fun j _ => known y ky _)
    (e1 (i / 4) (by simp; omega)) (i % 4) (by omega)
  simpa only [show 4 * (i / 4) + i % 4 = i by omega] using this

/-- **C164, refuted at wide multiples of 64**: 0 and the top bit have the same hexadecimal text. -/
theorem C164_hex_wide_refuted (h64 : ¬ n ≤ 64) (h0 : n % 64 = 0) :
    ∃ x y : Lg n s, x.Clean ∧ y.Clean ∧ x.at (n - 1) = .b0 ∧ y.at (n - 1) = .b1 ∧ x.str ['h'] = y.str ['h'] := by
  obtain ⟨x, cx, hx⟩ := Lg.exists_at (n := n) (s := s) fun _ => .b0
  obtain ⟨y, cy, hy⟩ := Lg.exists_at (n := n) (s := s) fun i => if i = n - 1 then .b1 else .b0
  refine ⟨x, y, cx, cy, hx _ (by omega), by rw [hy _ (by omega), if_pos rfl], ?_⟩
  exact C76_hex_refuted h64 h0 x y cx cy (fun i hi => by rw [hx i (by omega), hy i (by omega), if_neg (by omega)]) .hl (by decide)

/-- **C164, decimal, native.** Different canonical known objects have different decimal texts. Missing: the least number of 32 and
64 bits, which has no text (C73), and objects with unknown bits (`C164_unknown_refuted`). -/
theorem C164_decimal_partial (hn : 0 < n) (h64 : n ≤ 64) (x y : Lg n s) (cx : x.Clean) (cy : y.Clean) (kx : x.Known) (ky : y.Known)
    {b : Char} (hb : b = 'd' ∨ b = 'D') (hx : s = true → n = 32 ∨ n = 64 → x.value.bv ≠ BitVec.intMin n)
    (hy : s = true → n = 32 ∨ n = 64 → y.value.bv ≠ BitVec.intMin n)
    (e : x.str ['0', b] = y.str ['0', b]) : x = y := by
  rw [(C73_decimal_partial hn h64 x cx kx hb hx).1, (C73_decimal_partial hn h64 y cy ky hb hy).1, Except.ok.injEq] at e
  have := numeralInt_inj e
  refine Lg.known_ext cx cy kx ky ?_
  unfold numOf at this
  split_ifs at this
  · exact BitVec.eq_of_toInt_eq this
  · exact BitVec.eq_of_toNat_eq (by exact_mod_cast this)

/-- **C164, refuted for unknown bits.** In every width of two bits or more there are different canonical objects with the same
hexadecimal text: bit 0 is x in both, bit 1 is 0 in one and 1 in the other. -/
theorem C164_unknown_refuted (h2 : 2 ≤ n) :
    ∃ x y : Lg n false, x.Clean ∧ y.Clean ∧ x.at 1 = .b0 ∧ y.at 1 = .b1 ∧ ∃ t, x.str ['h'] = .ok t ∧ y.str ['h'] = .ok t := by
  obtain ⟨x, cx, hx⟩ := Lg.exists_at (n := n) (s := false) fun i => if i = 0 then .x else .b0
  obtain ⟨y, cy, hy⟩ := Lg.exists_at (n := n) (s := false) fun i => if i = 0 then .x else if i = 1 then .b1 else .b0
  have x0 := hx 0 (by omega)
  have y0 := hy 0 (by omega)
  have x1 := hx 1 (by omega)
  have y1 := hy 1 (by omega)
  simp at x0 y0 x1 y1
  have hd : ∀ k, (digit4 4 fun j => x.at (4 * k + j)) = digit4 4 fun j => y.at (4 * k + j) := by
    intro k
    by_cases hk : k = 0
    · subst hk
      have key : ∀ z : Lg n false, z.at 0 = .x → z.at 1 ≠ .x → (digit4 4 fun j => z.at (4 * 0 + j)) = 'X' := by
        intro z h0 h1
        rw [digit4, if_neg, if_neg, if_pos ⟨0, by decide, h0⟩]
        · intro H; have := H 0 (by decide); rw [show 4 * 0 + 0 = 0 from rfl, h0] at this; cases this
        · intro H; exact h1 (H 1 (by decide))
      rw [key x x0 (by rw [x1]; decide), key y y0 (by rw [y1]; decide)]
    · congr 1
      funext j
      by_cases hi : 4 * k + j < n
      · rw [hx _ hi, hy _ hi, if_neg (by omega), if_neg (by omega), if_neg (by omega)]
      · simp [Lg.at, BitVec.getLsbD_of_ge _ _ (show n ≤ 4 * k + j by omega)]
  refine ⟨x, y, cx, cy, x1, y1, ?_⟩
  by_cases h64 : n ≤ 64
  · rw [C74_digits h64 x .hl (Or.inr ⟨rfl, cx⟩), C74_digits h64 y .hl (Or.inr ⟨rfl, cy⟩)]
    simp only [hd]
    exact ⟨_, rfl, rfl⟩
  · rw [C76_hex_exact h64 x cx .hl (by decide), C76_hex_exact h64 y cy .hl (by decide)]
    simp only [hd]
    exact ⟨_, rfl, rfl⟩

/-- the texts of two different known numbers, and of two objects with unknown bits -/
example : ((Lg.ofInt (-3) : Lg 7 true).str ['h'] = .ok "fd".toList) ∧ ((Lg.ofInt (-4) : Lg 7 true).str ['h'] = .ok "fc".toList) ∧
    (Lg.mk (Bits.ofInt 0) (Bits.ofInt 1) : Lg 7 false).str ['h'] = .ok "0X".toList ∧
    (Lg.mk (Bits.ofInt 2) (Bits.ofInt 1) : Lg 7 false).str ['h'] = .ok "0X".toList := by decide +kernel

/-! ## C165: reading, then printing -/

/-- **C165, native, exactly.** A binary text of `n` digits is printed as it was read if and only if it has no x or z at
position 32 or above; otherwise it cannot be read. -/
theorem C165_native_iff (hn : 0 < n) (h : n ≤ 64) (f : Nat → V4) :
    (∃ z : Lg n s, Lg.ofString ('\'' :: 'b' :: binText n f) = .ok z ∧ z.str ['b'] = .ok (binText n f)) ↔
      ∀ i, i < n → (f i).isKnown = false → i < 32 := by
  have hiff := C61_binary_iff (s := s) hn h (pre := []) (mid := []) (Or.inl rfl) ⟨by decide, by decide, by decide⟩
    (body := binText n f) (fun c hc => (binText_mem hc).1) (by rw [binText_digits]; simp)
  have hat : ∀ i, i < n → (match (digitsOf (binText n f))[i]? with
        | some '1' => V4.b1 | some 'x' => .x | some 'z' => .z | _ => .b0) = f i := by
    intro i hi
    rw [binText_get, if_pos hi]
    cases f i <;> rfl
  have hx : (∀ i c, (digitsOf (binText n f))[i]? = some c → c = 'x' ∨ c = 'z' → i < 32) ↔
      ∀ i, i < n → (f i).isKnown = false → i < 32 := by
    constructor
    · intro H i hi hu
      refine H i (f i).char (by rw [binText_get, if_pos hi]) ?_
      revert hu; cases f i <;> decide
    · intro H i c hc hxz
      rw [binText_get] at hc
      split_ifs at hc with hi
      exact H i hi (unknown_char (by rw [Option.some.inj hc]; exact hxz))
  rw [← hx, ← hiff]
  constructor
  · rintro ⟨z, hz, ht⟩
    rw [native_str_text h, Except.ok.injEq, binText_inj] at ht
    exact ⟨z, hz, fun i hi => (ht i hi).trans (hat i hi).symm⟩
  · rintro ⟨z, hz, ht⟩
    refine ⟨z, hz, ?_⟩
    rw [native_str_text h, Except.ok.injEq, binText_inj]
    intro i hi
    exact (ht i hi).trans (hat i hi)

/-- **C165, wide, exactly.** No x or z may be in the upper half of a 64-bit chunk, and at multiples of 64 the first 64 digits have
to be 0. -/
theorem C165_wide_iff (h : ¬ n ≤ 64) (f : Nat → V4) :
    (∃ z : Lg n s, Lg.ofString ('\'' :: 'b' :: binText n f) = .ok z ∧ z.str ['b'] = .ok (binText n f)) ↔
      (∀ i, i < n → (f i).isKnown = false → i % 64 < 32) ∧ (n % 64 = 0 → ∀ i, n - 64 ≤ i → i < n → f i = .b0) := by
  constructor
  · rintro ⟨z, hz, ht⟩
    have hx : ∀ i, i < n → (f i).isKnown = false → i % 64 < 32 := by
      intro i hi hu
      by_contra hcon
      rw [wide_bin_fault h f hi hu (by omega)] at hz
      cases hz
    refine ⟨hx, fun h0 i h1 h2 => ?_⟩
    rw [wide_str_text h, Except.ok.injEq, binText_inj] at ht
    have := ht i h2
    rw [shown, if_pos ⟨h0, h1⟩] at this
    exact this.symm
  · rintro ⟨hx, h0⟩
    obtain ⟨z, hz, -, -, hr⟩ := wide_bin_parse (s := s) h f hx
    refine ⟨z, hz, ?_⟩
    rw [wide_str_text h, Except.ok.injEq, binText_inj]
    intro i hi
    rw [shown]
    split_ifs with hs
    · exact (h0 hs.1 i hs.2 hi).symm
    · exact hr i hi

/-- **C165, refuted**: in every width above 32 there is a binary text that cannot be printed after reading. -/
theorem C165_refuted (h : 32 < n) :
    ∃ f : Nat → V4, ¬ ∃ z : Lg n s, Lg.ofString ('\'' :: 'b' :: binText n f) = .ok z ∧ z.str ['b'] = .ok (binText n f) := by
  refine ⟨fun i => if i = 32 then .x else .b0, ?_⟩
  by_cases h64 : n ≤ 64
  · rw [C165_native_iff (by omega) h64]
    intro H
    exact absurd (H 32 h rfl) (by decide)
  · rw [C165_wide_iff h64]
    intro H
    exact absurd (H.1 32 h rfl) (by decide)

/-- **C165, partial.** Texts without x and z, and texts of at most 32 digits: native, and wide widths that are no multiple of
64. Missing: the other texts; which of them are printed as written is `C165_native_iff` and `C165_wide_iff`, that not all are
`C165_refuted`. -/
theorem C165_partial (hn : 0 < n) (f : Nat → V4) (hf : n ≤ 32 ∨ ∀ i, i < n → (f i).isKnown = true) (h0 : n ≤ 64 ∨ n % 64 ≠ 0) :
    ∃ z : Lg n s, Lg.ofString ('\'' :: 'b' :: binText n f) = .ok z ∧ z.str ['b'] = .ok (binText n f) := by
  have hk : ∀ i, i < n → (f i).isKnown = false → n ≤ 32 := by
    intro i hi hu
    rcases hf with hf | hf
    · exact hf
    · rw [hf i hi] at hu; cases hu
  by_cases h64 : n ≤ 64
  · exact (C165_native_iff hn h64 f).2 fun i hi hu => by have := hk i hi hu; omega
  · exact (C165_wide_iff h64 f).2 ⟨fun i hi hu => by have := hk i hi hu; omega, fun h => by omega⟩

example : ((Lg.ofString "'b1x0z01".toList : Res (Lg 6 true)).bind fun z => z.str ['b']) = .ok "1x0z01".toList := by decide +kernel

end Verif
