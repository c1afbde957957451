import Verif.Props.FormatWide
import Verif.Props.Exactly
import Verif.Props.ExprI
import Verif.Show

/-!
# Reading back what was printed (C77, C138, C139, C140, C141)

`str(fmt)` followed by the string constructor with the matching base letter.
-/

namespace Verif

variable {n : Nat} {s : Bool}

theorem Lg.clean_ext {x y : Lg n s} (hx : x.Clean) (hy : y.Clean) (h : ∀ i, i < n → x.at i = y.at i) : x = y := by
  have e1 : x.value = y.value := Bits.Clean.ext hx.1 hy.1 (by
    apply BitVec.eq_of_getLsbD_eq
    intro i hi
    exact (V4.mk_inj.1 (h i hi)).1)
  have e2 : x.xz = y.xz := Bits.Clean.ext hx.2 hy.2 (by
    apply BitVec.eq_of_getLsbD_eq
    intro i hi
    exact (V4.mk_inj.1 (h i hi)).2)
  cases x; cases y; simp only at e1 e2; rw [e1, e2]

theorem Bits.clean_wide_iff (h : ¬ n ≤ 64) (x : Bits n s) : x.Clean ↔ ∀ i, n ≤ i → x.raw i = false := by
  rw [Bits.clean_big h, Big.clean_iff]
  constructor <;> intro H i hi
  · rw [Bits.raw_big h, H i hi]
  · rw [← Bits.raw_big h, H i hi]

/-! ## binary -/

/-- the binary text of `n` bits, most significant first -/
def binText (n : Nat) (f : Nat → V4) : List Char := (List.range n).reverse.map fun i => (f i).char

theorem binText_mem {f : Nat → V4} {c : Char} (h : c ∈ binText n f) : c ∈ binChars ∧ c ≠ '_' := by
  obtain ⟨i, -, rfl⟩ := List.mem_map.1 h
  cases f i <;> decide

theorem binText_digits (f : Nat → V4) : digitsOf (binText n f) = (List.range n).map fun i => (f i).char := by
  rw [digitsOf_plain fun c h => (binText_mem h).2, binText, ← List.map_reverse, List.reverse_reverse]

theorem binText_get (f : Nat → V4) (i : Nat) :
    (digitsOf (binText n f))[i]? = if i < n then some (f i).char else none := by
  rw [binText_digits, List.getElem?_map]
  by_cases h : i < n
  · rw [List.getElem?_range h, if_pos h]; rfl
  · rw [List.getElem?_eq_none (by simpa using h), if_neg h]; rfl

theorem binText_litAt (f : Nat → V4) (i : Nat) : litAt 1 (binText n f) i = if i < n then f i else .b0 := by
  rw [litAt, Nat.div_one, binText_get]
  split_ifs
  · rw [Nat.mod_one]; show charBit (f i).char 0 = _; cases f i <;> decide
  · rfl

theorem unknown_char {v : V4} (h : v.char = 'x' ∨ v.char = 'z') : v.isKnown = false := by
  revert h; cases v <;> decide

/-- a wide object read from `n` binary digits -/
theorem wide_bin_parse (h : ¬ n ≤ 64) (f : Nat → V4) (hx : ∀ i, i < n → (f i).isKnown = false → i % 64 < 32) :
    ∃ z : Lg n s, Lg.ofString ('\'' :: 'b' :: binText n f) = .ok z ∧
      Bits.ofString ('\'' :: 'b' :: binText n f) = .ok z.value ∧ z.Clean ∧ ∀ i, i < n → z.at i = f i := by
  obtain ⟨z, h1, h2, h3⟩ := wide_plain (s := s) h (pre := []) (mid := []) Radix.b ⟨by decide, by decide, by decide⟩
    (body := binText n f) (fun c hc => (binText_mem hc).1) (fun c hc => (binText_mem hc).2) (by
      intro _ i c hi hxz
      rw [binText_get] at hi
      split_ifs at hi with hin
      exact hx i hin (unknown_char (by rw [Option.some.inj hi]; exact hxz)))
  have h4 : ∀ i, i < limbs n * 64 → V4.mk (z.value.raw i) (z.xz.raw i) = if i < n then f i else .b0 := by
    intro i hi
    rw [h3 i hi, if_pos (by simp; omega), binText_litAt, show i / 64 * (64 / 1 * 1) + i % 64 = i by omega]
  have h5 : ∀ i, n ≤ i → z.value.raw i = false ∧ z.xz.raw i = false := by
    intro i hi
    by_cases hl : i < limbs n * 64
    · have := h4 i hl
      rw [if_neg (by omega)] at this
      exact V4.mk_eq_b0 this
    · constructor <;> rw [Bits.raw_big h] <;> exact Big.raw_of_ge _ (by omega)
  refine ⟨z, h1, h2, ⟨(Bits.clean_wide_iff h _).2 fun i hi => (h5 i hi).1,
    (Bits.clean_wide_iff h _).2 fun i hi => (h5 i hi).2⟩, fun i hi => ?_⟩
  rw [Lg.at_of_raw hi, h4 i (lt_of_lt_of_le hi (le_limbs n)), if_pos hi]

theorem wide_bin_fault (h : ¬ n ≤ 64) (f : Nat → V4) {i : Nat} (hi : i < n) (hu : (f i).isKnown = false) (h32 : 32 ≤ i % 64) :
    (Lg.ofString ('\'' :: 'b' :: binText n f) : Res (Lg n s)) = .error .shift := by
  refine C69_refuted h (pre := []) (mid := []) (Or.inl rfl) ⟨by decide, by decide, by decide⟩
    (fun c hc => (binText_mem hc).1) (fun c hc => (binText_mem hc).2)
    ⟨i, (f i).char, lt_of_lt_of_le hi (le_limbs n), by rw [binText_get, if_pos hi], ?_, h32⟩
  revert hu; cases f i <;> decide

/-- what `str("b")` shows of a wide object: the top limb of a width that is a multiple of 64 as
zeros -/
def shown (x : Lg n s) (i : Nat) : V4 := if n % 64 = 0 ∧ n - 64 ≤ i then .b0 else x.at i

theorem wide_str_text (h : ¬ n ≤ 64) (x : Lg n s) : x.str ['b'] = .ok (binText n (shown x)) := by
  rw [C70_wide_exact h x (Or.inl rfl)]
  congr 1
  by_cases h0 : n % 64 = 0
  · obtain ⟨m, rfl⟩ : ∃ m, n = m + 64 := ⟨n - 64, by omega⟩
    rw [if_pos h0, binText, List.range_add, List.reverse_append, List.map_append]
    congr 1
    · apply List.ext_getElem
      · simp
      · intro i h1 h2
        simp only [List.getElem_replicate, List.getElem_map, List.getElem_reverse, List.getElem_range]
        rw [shown, if_pos ⟨h0, by omega⟩]; rfl
    · rw [Nat.add_sub_cancel]
      apply List.map_congr_left
      intro i hi
      have : i < m := by simpa using hi
      rw [shown, if_neg (by omega)]
  · rw [if_neg h0, binText]
    apply List.map_congr_left
    intro i _
    rw [shown, if_neg (by omega)]

/-- **C138, exactly.** A canonical wide object is read back from its binary text if and only if
no bit in the upper half of a limb is x or z and, when the width is a multiple of 64, the top
64 bits are zero. -/
theorem C138_wide_exact (h : ¬ n ≤ 64) (x : Lg n s) (hx : x.Clean) :
    (∃ t, x.str ['b'] = .ok t ∧ Lg.ofString ('\'' :: 'b' :: t) = .ok x) ↔
      (∀ i, i < n → (x.at i).isKnown = false → i % 64 < 32) ∧
      (n % 64 = 0 → ∀ i, n - 64 ≤ i → i < n → x.at i = .b0) := by
  constructor
  · rintro ⟨t, ht, hz⟩
    rw [wide_str_text h] at ht
    obtain rfl := Except.ok.inj ht
    by_cases H : ∀ i, i < n → (shown x i).isKnown = false → i % 64 < 32
    · obtain ⟨z, h1, -, -, h4⟩ := wide_bin_parse (s := s) h (shown x) H
      rw [h1] at hz
      obtain rfl := Except.ok.inj hz
      refine ⟨fun i hi hu => H i hi (by rw [← h4 i hi]; exact hu), fun h0 i hi hin => ?_⟩
      rw [h4 i hin, shown, if_pos ⟨h0, hi⟩]
    · push Not at H
      obtain ⟨i, hi, hu, h32⟩ := H
      rw [wide_bin_fault h _ hi hu h32] at hz
      cases hz
  · rintro ⟨h1, h2⟩
    have hs : ∀ i, i < n → shown x i = x.at i := by
      intro i hi
      rw [shown]
      split_ifs with hc
      · exact (h2 hc.1 i hc.2 hi).symm
      · rfl
    refine ⟨_, wide_str_text h x, ?_⟩
    obtain ⟨z, e1, -, e3, e4⟩ := wide_bin_parse (s := s) h (shown x) (fun i hi hu => h1 i hi (by rw [← hs i hi]; exact hu))
    rw [e1, Lg.clean_ext e3 hx fun i hi => by rw [e4 i hi, hs i hi]]

/-- **C138, partial.** Covers known objects whose width is not a multiple of 64. Missing: the other
objects; which of them are read back is `C138_wide_exact`, that not all are `C138_refuted`. -/
theorem C138_known_partial (h : ¬ n ≤ 64) (h0 : n % 64 ≠ 0) (x : Lg n s) (hx : x.Clean) (hk : x.Known) :
    ∃ t, x.str ['b'] = .ok t ∧ Lg.ofString ('\'' :: 'b' :: t) = .ok x :=
  (C138_wide_exact h x hx).2 ⟨fun i hi hu => absurd hu (by rw [hk.2 i hi]; decide), fun h => absurd h h0⟩

/-- **C138, refuted.** In every wide width there is an object whose binary text cannot be read:
bit 32 is x. At every multiple of 64 there is a known one that is read back as another. -/
theorem C138_refuted (h : ¬ n ≤ 64) :
    (∃ (x : Lg n s) (t : List Char), x.Clean ∧ x.at 32 = .x ∧ x.str ['b'] = .ok t ∧
      (Lg.ofString ('\'' :: 'b' :: t) : Res (Lg n s)) = .error .shift) ∧
    (n % 64 = 0 → ∃ (x z : Lg n s) (t : List Char), x.Clean ∧ x.Known ∧ x.str ['b'] = .ok t ∧
      Lg.ofString ('\'' :: 'b' :: t) = .ok z ∧ x.at (n - 1) = .b1 ∧ z.at (n - 1) = .b0) := by
  have hz : ∀ i, (0 : BitVec n).getLsbD i = false := fun i => by simp
  constructor
  · obtain ⟨a, ca, ba⟩ := Bits.exists_clean (s := s) (0 : BitVec n)
    obtain ⟨b, cb, bb⟩ := Bits.exists_clean (s := false) (BitVec.twoPow n 32)
    have h32 : (⟨a, b⟩ : Lg n s).at 32 = .x := by
      rw [Lg.at, ba, bb, hz, BitVec.getLsbD_twoPow]; simp [show 32 < n by omega, V4.mk]
    refine ⟨⟨a, b⟩, _, ⟨ca, cb⟩, h32, wide_str_text h _, ?_⟩
    refine wide_bin_fault h _ (i := 32) (by omega) ?_ (by decide)
    rw [shown, if_neg (by omega), h32]; rfl
  · intro h0
    obtain ⟨a, ca, ba⟩ := Bits.exists_clean (s := s) (BitVec.twoPow n (n - 1))
    obtain ⟨b, cb, bb⟩ := Bits.exists_clean (s := false) (0 : BitVec n)
    have hk : (⟨a, b⟩ : Lg n s).Known := ⟨cb, fun i hi => by rw [Lg.at, bb, hz]; cases a.bv.getLsbD i <;> rfl⟩
    obtain ⟨z, h1, -, -, h4⟩ := wide_bin_parse (s := s) h (shown ⟨a, b⟩) (fun i hi hu => by
      rw [shown] at hu
      split_ifs at hu
      · cases hu
      · rw [hk.2 i hi] at hu; cases hu)
    refine ⟨⟨a, b⟩, z, _, ⟨ca, cb⟩, hk, wide_str_text h _, h1, ?_, ?_⟩
    · rw [Lg.at, ba, bb, hz, BitVec.getLsbD_twoPow]; simp [show 0 < n by omega, V4.mk]
    · rw [h4 _ (by omega), shown, if_pos ⟨h0, by omega⟩]

-- a 100-bit object with an x at position 70 and a z at position 3 meets the condition
example : ∃ x : Lg 100 false, x.Clean ∧ x.at 70 = .x ∧ x.at 3 = .z ∧
    (∀ i, i < 100 → (x.at i).isKnown = false → i % 64 < 32) := by
  obtain ⟨z, h1⟩ : ∃ z : Lg 100 false, Lg.ofString ('\'' :: 'b' :: binText 100 fun i => if i = 70 then .x else if i = 3 then .z else .b1) = .ok z :=
    ⟨_, rfl⟩
  obtain ⟨w, e1, -, e3, e4⟩ := wide_bin_parse (n := 100) (s := false) (by decide) (fun i => if i = 70 then .x else if i = 3 then .z else .b1)
    (by decide)
  refine ⟨w, e3, by rw [e4 _ (by decide)]; rfl, by rw [e4 _ (by decide)]; rfl, fun i hi => ?_⟩
  rw [e4 i hi]
  revert i; decide

/-- **C138, wide 2-state, exactly.** `bit::str("b")` writes every limb in reverse, so a wide
signed `bit` is read back if and only if every limb is its own mirror image (and, when the width
is a multiple of 64, the top one is zero). -/
theorem C138_2state_exact (h : ¬ n ≤ 64) (x : Bits n true) (hx : x.Clean) :
    (∃ t, x.str ['b'] = .ok t ∧ Bits.ofString ('\'' :: 'b' :: t) = .ok x) ↔
      ∀ i, i < n → x.bv.getLsbD i =
        if i < n - n % 64 then
          (if n % 64 = 0 ∧ n - 64 ≤ i then false else x.bv.getLsbD (64 * (i / 64) + 63 - i % 64))
        else x.bv.getLsbD (2 * n - n % 64 - 1 - i) := by
  obtain ⟨t, ht, hl, hc⟩ := C70_2state_exact h x (Or.inl rfl)
  set g : Nat → Bool := fun i => if i < n - n % 64 then
          (if n % 64 = 0 ∧ n - 64 ≤ i then false else x.bv.getLsbD (64 * (i / 64) + 63 - i % 64))
        else x.bv.getLsbD (2 * n - n % 64 - 1 - i) with hg
  have htext : t = binText n fun i => V4.ofBool (g i) := by
    rw [← List.reverse_inj]
    have hr : (binText n fun i => V4.ofBool (g i)).reverse = (List.range n).map fun i => (V4.ofBool (g i)).char := by
      rw [binText, ← List.map_reverse, List.reverse_reverse]
    rw [hr]
    apply List.ext_getElem?
    intro i
    by_cases hi : i < n
    · rw [hc i hi, List.getElem?_map, List.getElem?_range hi, Option.map_some]
      congr 1
      simp only [hg]
      split_ifs <;> first | rfl | (rename_i h'; rw [h']; rfl) | skip
      all_goals simp_all [V4.ofBool, V4.char]
    · rw [List.getElem?_eq_none (by simpa [hl] using hi), List.getElem?_eq_none (by simpa using hi)]
  obtain ⟨z, -, h2, h3, h4⟩ := wide_bin_parse (s := true) h (fun i => V4.ofBool (g i))
    (fun i _ hu => by cases hgi : g i <;> rw [hgi] at hu <;> cases hu)
  have hzb : ∀ i, i < n → z.value.bv.getLsbD i = g i := by
    intro i hi
    have := h4 i hi
    rw [Lg.at] at this
    revert this
    cases g i <;> cases z.value.bv.getLsbD i <;> cases z.xz.bv.getLsbD i <;> decide
  constructor
  · rintro ⟨t', ht', hz⟩ i hi
    rw [ht] at ht'
    obtain rfl := Except.ok.inj ht'
    rw [htext, h2] at hz
    have e := Except.ok.inj hz
    have := hzb i hi
    rw [e] at this
    exact this
  · intro H
    refine ⟨t, ht, ?_⟩
    rw [htext, h2, Bits.Clean.ext h3.1 hx]
    apply BitVec.eq_of_getLsbD_eq
    intro i hi
    rw [hzb i hi, H i hi]

/-! ## native signed objects -/

/-- a signed object made from a number below `2^n` is canonical iff the number has no sign bit or
the object fills its C++ type -/
theorem signed_clean_iff (h : n ≤ 64) (h1 : 1 < n) (r : BitVec 64) (hr : r.toNat < 2 ^ n) :
    (Bits.mkN h ⟨tU64, r.toNat⟩ : Bits n true).Clean ↔ Full n ∨ r.getLsbD (n - 1) = false := by
  have hc := C92_clean_iff (s := true) h h1 ⟨tU64, r.toNat⟩
  rw [Bits.assignInt] at hc
  rw [hc]
  have e1 : BitVec.ofInt n (r.toNat : Int) = BitVec.ofNat n r.toNat := by rw [BitVec.ofInt_natCast]
  have em : (BitVec.ofNat n r.toNat).msb = r.getLsbD (n - 1) := by
    rw [BitVec.msb_eq_getLsbD_last, BitVec.getLsbD_ofNat]
    simp [show 0 < n by omega, BitVec.getLsbD]
  have en : numOf true (BitVec.ofNat n r.toNat) = (BitVec.ofNat n r.toNat).toInt := by simp [numOf]; omega
  have hle := le_hw h
  show (2 ^ hw n : Int) ∣ (r.toNat : Int) - numOf true (BitVec.ofInt n (r.toNat : Int)) ↔ _
  rw [e1, en, BitVec.toInt_eq_msb_cond, em, BitVec.toNat_ofNat, Nat.mod_eq_of_lt hr]
  have hfull : Full n ↔ hw n = n := by
    exact Bits.full_iff (by omega) h
  cases hm : r.getLsbD (n - 1)
  · simp
  · rw [hfull]
    simp only [if_pos, Bool.true_eq_false, or_false]
    rw [show (r.toNat : Int) - ((r.toNat : Int) - (2 ^ n : Nat)) = ((2 ^ n : Nat) : Int) by omega]
    constructor
    · intro hd
      have : 2 ^ hw n ∣ 2 ^ n := by exact_mod_cast hd
      have := (Nat.pow_dvd_pow_iff_le_right (by decide)).1 this
      omega
    · intro e; rw [e]; norm_cast

/-- the object read from a native literal, given what the two loops return -/
theorem native_read (h : n ≤ 64) {b : Char} (hb : ¬ ('0' ≤ b ∧ b ≤ '9')) {body : List Char} {r k : BitVec 64}
    (hr : parseRaw body b = .ok r) (hk : parseXz body b = .ok k) :
    (Lg.ofString ('\'' :: b :: body) : Res (Lg n s)) = .ok ⟨Bits.mkN h ⟨tU64, r.toNat⟩, Bits.mkN h ⟨tU64, k.toNat⟩⟩ := by
  obtain ⟨p1, p2, -, -⟩ := C66_prefix (pre := []) (mid := []) ⟨by decide, by decide, hb⟩ body n
  have e : '\'' :: b :: body = lit [] [] b body := rfl
  rw [Lg.ofString, dif_pos h, e, p1, p2, hr, hk]; rfl

theorem toNat_lt_of_bits {r : BitVec 64} (h : ∀ i, n ≤ i → r.getLsbD i = false) : r.toNat < 2 ^ n := by
  apply Nat.lt_pow_two_of_testBit
  intro i hi
  rw [BitVec.testBit_toNat]; exact h i hi

/-- the bits of an object made from two words, `1 < n` -/
theorem mk_at (h : n ≤ 64) (h1 : 1 < n) (r k : BitVec 64) {i : Nat} (hi : i < hw n) :
    V4.mk ((Bits.mkN h ⟨tU64, r.toNat⟩ : Bits n s).raw i) ((Bits.mkN h ⟨tU64, k.toNat⟩ : Bits n false).raw i) =
      V4.mk (r.getLsbD i) (k.getLsbD i) := by
  rw [raw_limb (by omega) h r (Or.inl h1), raw_limb (by omega) h k (Or.inl h1), decide_eq_true hi]
  simp

/-- **C77, exactly.** A canonical native object of either sign is read back from its binary text
if and only if no bit at position 32 or above is x or z and, for a signed object whose width is
not that of a C++ type, the top value bit is clear. -/
theorem C77_native_exact (hn : 0 < n) (h : n ≤ 64) (x : Lg n s) (hx : x.Clean) :
    (∃ t, x.str ['b'] = .ok t ∧ Lg.ofString ('\'' :: 'b' :: t) = .ok x) ↔
      (∀ i, i < n → (x.at i).isKnown = false → i < 32) ∧ (s = false ∨ Full n ∨ x.value.bv.msb = false) := by
  have htext : x.str ['b'] = .ok (binText n x.at) := C70_native h x (Or.inl rfl)
  by_cases hu : ∀ i, i < n → (x.at i).isKnown = false → i < 32
  swap
  · constructor
    · rintro ⟨t, ht, hz⟩
      push Not at hu
      obtain ⟨i, hi, hk, h32⟩ := hu
      obtain ⟨t', ht', hz'⟩ := C77_refuted h x hi h32 hk
      rw [ht] at ht'
      obtain rfl := Except.ok.inj ht'
      rw [hz'] at hz; cases hz
    · rintro ⟨hu', -⟩; exact absurd hu' hu
  obtain ⟨r, k, hr, hk, e⟩ := limb_ok (b := 'b') (body := binText n x.at) (.bin (Or.inl rfl) (fun c hc => (binText_mem hc).1)
    (by rw [binText_digits]; simpa using h) (by
      intro i c hi hxz
      rw [binText_get] at hi
      split_ifs at hi with hin
      exact hu i hin (unknown_char (by rw [Option.some.inj hi]; exact hxz))))
  have e' : ∀ i, i < 64 → V4.mk (r.getLsbD i) (k.getLsbD i) = if i < n then x.at i else .b0 := by
    intro i hi; rw [e i hi, binText_litAt]
  have hz : ∀ i, n ≤ i → r.getLsbD i = false ∧ k.getLsbD i = false := by
    intro i hi
    by_cases h' : i < 64
    · exact V4.mk_eq_b0 (by rw [e' i h', if_neg (by omega)])
    · exact ⟨BitVec.getLsbD_of_ge _ _ (by omega), BitVec.getLsbD_of_ge _ _ (by omega)⟩
  have hread := native_read (s := s) h (by decide) hr hk
  have key : (∃ t, x.str ['b'] = .ok t ∧ Lg.ofString ('\'' :: 'b' :: t) = .ok x) ↔
      (⟨Bits.mkN h ⟨tU64, r.toNat⟩, Bits.mkN h ⟨tU64, k.toNat⟩⟩ : Lg n s) = x := by
    constructor
    · rintro ⟨t, ht, hz⟩
      rw [htext] at ht
      obtain rfl := Except.ok.inj ht
      rw [hread] at hz
      exact Except.ok.inj hz
    · intro hxx
      exact ⟨_, htext, by rw [hread, hxx]⟩
  have hat : ∀ i, i < n → (⟨Bits.mkN h ⟨tU64, r.toNat⟩, Bits.mkN h ⟨tU64, k.toNat⟩⟩ : Lg n s).at i = x.at i := by
    intro i hi
    have e2 := e' i (by omega)
    rw [if_pos hi] at e2
    rw [Lg.at_of_raw hi]
    show V4.mk (Bits.raw (Bits.mkN h _) i) (Bits.raw (Bits.mkN h _) i) = _
    have hfit : ∀ v : BitVec 64, (∀ i, n ≤ i → v.getLsbD i = false) → 1 < n ∨ ∀ i, 1 ≤ i → i < 64 → v.getLsbD i = false := by
      intro v hv
      rcases Nat.lt_or_ge 1 n with h1 | h1
      · exact Or.inl h1
      · exact Or.inr fun i hi _ => hv i (by omega)
    rw [raw_limb hn h r (hfit r fun i hi => (hz i hi).1), raw_limb hn h k (hfit k fun i hi => (hz i hi).2), ← e2]
    simp [show i < hw n from lt_of_lt_of_le hi (le_hw h)]
  have hck : (Bits.mkN h ⟨tU64, k.toNat⟩ : Bits n false).Clean := by
    rcases Nat.lt_or_ge 1 n with h1 | h1
    · rw [Bits.clean_unsigned_iff]
      intro i hi
      rw [raw_limb hn h k (Or.inl h1), (hz i hi).2]; simp
    · exact Bits.clean_one h1 hn _
  have hmsb : r.getLsbD (n - 1) = x.value.bv.msb := by
    have e2 := e' (n - 1) (by omega)
    rw [if_pos (by omega), Lg.at, V4.mk_inj] at e2
    rw [e2.1, BitVec.msb_eq_getLsbD_last]
  have hcr : (Bits.mkN h ⟨tU64, r.toNat⟩ : Bits n s).Clean ↔ (s = false ∨ Full n ∨ x.value.bv.msb = false) := by
    rcases Nat.lt_or_ge 1 n with h1 | h1
    · cases s
      · simp only [true_or, iff_true]
        rw [Bits.clean_unsigned_iff]
        intro i hi
        rw [raw_limb hn h r (Or.inl h1), (hz i hi).1]; simp
      · rw [signed_clean_iff h h1 r (toNat_lt_of_bits fun i hi => (hz i hi).1), hmsb]; simp
    · exact iff_of_true (Bits.clean_one h1 hn _) (Or.inr (Or.inl (Or.inl (by omega))))
  rw [key, and_iff_right hu, ← hcr]
  constructor
  · intro hxx
    have := hx.1
    rw [← hxx] at this
    exact this
  · intro hc
    exact Lg.clean_ext ⟨hc, hck⟩ hx hat

-- the 12-bit -1 is not read back as itself, the 16-bit -1 is
example : (Bits.ofInt (-1) : Bits 12 true).Clean ∧ (Bits.ofInt (-1) : Bits 12 true).bv.msb = true ∧ ¬ Full 12 ∧
    (Lg.ofString "'b111111111111".toList : Res (Lg 12 true)) ≠ .ok ⟨Bits.ofInt (-1), Bits.zero⟩ ∧
    (Lg.ofString "'b1111111111111111".toList : Res (Lg 16 true)) = .ok ⟨Bits.ofInt (-1), Bits.zero⟩ := by
  decide +kernel

/-! ## hexadecimal and octal: how the parser reads a digit -/

/-- the digit that the hexadecimal parser takes a character for: `a` to `f` are read as 0 to 5 -/
def readAs (c : Char) : Char :=
  if c = 'a' then '0' else if c = 'b' then '1' else if c = 'c' then '2' else if c = 'd' then '3'
  else if c = 'e' then '4' else if c = 'f' then '5' else c

theorem lower_mem {c : Char} (h : 'a' ≤ c ∧ c ≤ 'f') : c ∈ ['a', 'b', 'c', 'd', 'e', 'f'] := by
  obtain ⟨h1, h2⟩ := h
  have e1 : 97 ≤ c.toNat := h1
  have e2 : c.toNat ≤ 102 := h2
  have hc : c = Char.ofNat c.toNat := (Char.ofNat_toNat c).symm
  generalize c.toNat = m at *
  subst hc
  interval_cases m <;> decide

theorem readAs_of {c : Char} (h : c ∉ ['a', 'b', 'c', 'd', 'e', 'f']) : readAs c = c := by
  simp only [List.mem_cons, List.not_mem_nil, or_false, not_or] at h
  rw [readAs, if_neg h.1, if_neg h.2.1, if_neg h.2.2.1, if_neg h.2.2.2.1, if_neg h.2.2.2.2.1, if_neg h.2.2.2.2.2]

theorem readAs_same (c : Char) : hexDigit (readAs c) = hexDigit c ∧ xzDigit 15 (readAs c) = xzDigit 15 c ∧
    (readAs c = '_' ↔ c = '_') := by
  by_cases h : c ∈ ['a', 'b', 'c', 'd', 'e', 'f']
  · have : ∀ c ∈ ['a', 'b', 'c', 'd', 'e', 'f'], hexDigit (readAs c) = hexDigit c ∧ xzDigit 15 (readAs c) = xzDigit 15 c ∧
      (readAs c = '_' ↔ c = '_') := by decide +kernel
    exact this c h
  · rw [readAs_of h]; exact ⟨rfl, rfl, Iff.rfl⟩

theorem foldlM_read {d : Char → Option (BitVec 64)} (hd : ∀ c, d (readAs c) = d c) (L : List Char) (st : BitVec 64 × Nat) :
    (L.map readAs).foldlM (fun st c => parsePos 4 (d c) c st) st = L.foldlM (fun st c => parsePos 4 (d c) c st) st := by
  rw [List.foldlM_map]
  congr 1
  funext st c
  have hc := (readAs_same c).2.2
  simp only [parsePos, hd, ne_eq, hc]

theorem parse_read {b : Char} (hb : b = 'h' ∨ b = 'H') (body : List Char) :
    parseRaw (body.map readAs) b = parseRaw body b ∧ parseXz (body.map readAs) b = parseXz body b := by
  have e1 : ∀ v, parseRaw v b = (v.reverse.foldlM (fun st c => parsePos 4 (hexDigit c) c st) (0, 0)).map (·.1) := by
    intro v; rcases hb with rfl | rfl <;> rfl
  have e2 : ∀ v, parseXz v b = (v.reverse.foldlM (fun st c => parsePos 4 (xzDigit 15 c) c st) (0, 0)).map (·.1) := by
    intro v; rcases hb with rfl | rfl <;> rfl
  rw [e1, e1, e2, e2, ← List.map_reverse, foldlM_read fun c => (readAs_same c).1, foldlM_read fun c => (readAs_same c).2.1]
  exact ⟨rfl, rfl⟩

theorem batchLoop_read {p : List Char → Res (BitVec 64)} (hp : ∀ v, p (v.map readAs) = p v) (v : List Char) (B k r e : Nat) :
    batchLoop p (v.map readAs) B k r e = batchLoop p v B k r e := by
  induction k generalizing r e with
  | zero => rfl
  | succ k ih =>
    simp only [batchLoop, ih, ← List.map_drop, ← List.map_take, hp]

/-- **C62, C67 and C69, exactly, hexadecimal.** Every hexadecimal literal, of any characters, is
read as the literal with the lower case digits `a` to `f` replaced by `0` to `5`. -/
theorem C62_lower_exact {pre mid : List Char} {b : Char} (hb : b = 'h' ∨ b = 'H') (hl : LitOk pre mid b) (body : List Char) :
    (Lg.ofString (lit pre mid b body) : Res (Lg n s)) = Lg.ofString (lit pre mid b (body.map readAs)) ∧
    (Bits.ofString (lit pre mid b body) : Res (Bits n s)) = Bits.ofString (lit pre mid b (body.map readAs)) := by
  obtain ⟨p1, p2, p3, p4⟩ := C66_prefix hl body n
  obtain ⟨q1, q2, q3, q4⟩ := C66_prefix hl (body.map readAs) n
  have r1 := parse_read hb
  have e3 := batchLoop_read (p := (parseRaw · b)) (fun v => (r1 v).1) body (64 / getStride b) (limbs n) body.length body.length
  have e4 := batchLoop_read (p := (parseXz · b)) (fun v => (r1 v).2) body (64 / getStride b) (limbs n) body.length body.length
  rw [(r1 body).1] at q1
  rw [(r1 body).2] at q2
  rw [List.length_map, e3] at q3
  rw [List.length_map, e4] at q4
  constructor
  · rw [Lg.ofString, Lg.ofString, p1, p2, p3, p4, q1, q2, q3, q4]
  · rw [Bits.ofString, Bits.ofString, p1, p3, q1, q3]

example : (Lg.ofString "16'hf_aXc".toList : Res (Lg 16 false)) = Lg.ofString "16'h5_0X2".toList :=
  (C62_lower_exact (pre := ['1', '6']) (mid := []) (Or.inl rfl) ⟨by decide, by decide, by decide⟩ "f_aXc".toList).1

/-! ### the text -/

/-- the text of `n` bits in digits of `st` bits, most significant first -/
def digText (n st : Nat) (f : Nat → V4) : List Char :=
  (List.range ((n + st - 1) / st)).reverse.map fun k => digit4 st fun j => f (st * k + j)

/-- the bits of a digit, below `m`, are all x, all z, or all known -/
def SameDigit (m : Nat) (f : Nat → V4) : Prop :=
  (∀ j, j < m → f j = .x) ∨ (∀ j, j < m → f j = .z) ∨ ∀ j, j < m → (f j).isKnown = true

/-- the digit is one of 10 to 15, printed as a letter -/
def Letter (f : Nat → V4) : Prop := f 3 = .b1 ∧ (f 2 = .b1 ∨ f 1 = .b1)

instance (m : Nat) (f : Nat → V4) : Decidable (SameDigit m f) := by unfold SameDigit; infer_instance
instance (f : Nat → V4) : Decidable (Letter f) := by unfold Letter; infer_instance

/-- the four values, for finite case distinctions -/
def allV4 : List V4 := [.b0, .b1, .x, .z]

theorem mem_allV4 (v : V4) : v ∈ allV4 := by cases v <;> decide

/-- the function with the first values of a list -/
def ofL (l : List V4) (j : Nat) : V4 := l.getD j .b0

/-- how a hexadecimal digit is read back -/
def HexCase (m : Nat) (f : Nat → V4) : Prop :=
  readAs (digit4 4 f) ∈ hexChars ∧ readAs (digit4 4 f) ≠ '_' ∧
    ((∀ j, j < m → charBit (readAs (digit4 4 f)) j = f j) ↔ SameDigit m f ∧ ¬ Letter f)

/-- how an octal digit is read back -/
def OctCase (m : Nat) (f : Nat → V4) : Prop :=
  digit4 3 f ∈ octChars ∧ digit4 3 f ≠ '_' ∧ ((∀ j, j < m → charBit (digit4 3 f) j = f j) ↔ SameDigit m f)

instance (m : Nat) (f : Nat → V4) : Decidable (HexCase m f) := by unfold HexCase; infer_instance
instance (m : Nat) (f : Nat → V4) : Decidable (OctCase m f) := by unfold OctCase; infer_instance

theorem digit_hex_read (f : Nat → V4) {m : Nat} (h0 : 0 < m) (h4 : m ≤ 4) (hz : ∀ j, m ≤ j → j < 4 → f j = .b0) :
    readAs (digit4 4 f) ∈ hexChars ∧ readAs (digit4 4 f) ≠ '_' ∧
    ((∀ j, j < m → charBit (readAs (digit4 4 f)) j = f j) ↔ SameDigit m f ∧ ¬ Letter f) := by
  have e : digit4 4 f = digit4 4 (ofL [f 0, f 1, f 2, f 3]) := digit4_congr fun j hj => by
    interval_cases j <;> rfl
  have key : ∀ m, m < 5 → 0 < m → ∀ a ∈ allV4, ∀ b ∈ allV4, ∀ c ∈ allV4, ∀ d ∈ allV4,
      (∀ j, j < 4 → m ≤ j → ofL [a, b, c, d] j = .b0) → HexCase m (ofL [a, b, c, d]) := by decide +kernel
  have hf : ∀ j, j < 4 → ofL [f 0, f 1, f 2, f 3] j = f j := by intro j hj; interval_cases j <;> rfl
  obtain ⟨k1, k2, k3⟩ := key m (by omega) h0 (f 0) (mem_allV4 _) (f 1) (mem_allV4 _) (f 2) (mem_allV4 _) (f 3)
    (mem_allV4 _) (fun j h2 h1 => by rw [hf j h2]; exact hz j h1 h2)
  rw [← e] at k1 k2 k3
  refine ⟨k1, k2, ?_⟩
  have c1 : (∀ j, j < m → charBit (readAs (digit4 4 f)) j = ofL [f 0, f 1, f 2, f 3] j) ↔
      ∀ j, j < m → charBit (readAs (digit4 4 f)) j = f j :=
    forall_congr' fun j => forall_congr' fun hj => by rw [hf j (by omega)]
  have c2 : SameDigit m (ofL [f 0, f 1, f 2, f 3]) ↔ SameDigit m f := by
    refine or_congr ?_ (or_congr ?_ ?_) <;>
      exact forall_congr' fun j => forall_congr' fun hj => by rw [hf j (by omega)]
  have c3 : Letter (ofL [f 0, f 1, f 2, f 3]) ↔ Letter f := Iff.rfl
  rw [← c1, k3, c2, c3]

theorem digit_oct_read (f : Nat → V4) {m : Nat} (h0 : 0 < m) (h3 : m ≤ 3) (hz : ∀ j, m ≤ j → j < 3 → f j = .b0) :
    digit4 3 f ∈ octChars ∧ digit4 3 f ≠ '_' ∧
    ((∀ j, j < m → charBit (digit4 3 f) j = f j) ↔ SameDigit m f) := by
  have e : digit4 3 f = digit4 3 (ofL [f 0, f 1, f 2]) := digit4_congr fun j hj => by
    interval_cases j <;> rfl
  have key : ∀ m, m < 4 → 0 < m → ∀ a ∈ allV4, ∀ b ∈ allV4, ∀ c ∈ allV4, (∀ j, j < 3 → m ≤ j → ofL [a, b, c] j = .b0) →
      OctCase m (ofL [a, b, c]) := by decide +kernel
  have hf : ∀ j, j < 3 → ofL [f 0, f 1, f 2] j = f j := by intro j hj; interval_cases j <;> rfl
  obtain ⟨k1, k2, k3⟩ := key m (by omega) h0 (f 0) (mem_allV4 _) (f 1) (mem_allV4 _) (f 2) (mem_allV4 _) (fun j h2 h1 => by rw [hf j h2]; exact hz j h1 h2)
  rw [← e] at k1 k2 k3
  refine ⟨k1, k2, ?_⟩
  have c1 : (∀ j, j < m → charBit (digit4 3 f) j = ofL [f 0, f 1, f 2] j) ↔ ∀ j, j < m → charBit (digit4 3 f) j = f j :=
    forall_congr' fun j => forall_congr' fun hj => by rw [hf j (by omega)]
  have c2 : SameDigit m (ofL [f 0, f 1, f 2]) ↔ SameDigit m f := by
    refine or_congr ?_ (or_congr ?_ ?_) <;>
      exact forall_congr' fun j => forall_congr' fun hj => by rw [hf j (by omega)]
  rw [← c1, k3, c2]

/-- bit `i` of the text, with each digit read by `rd` -/
theorem digText_litAt {st : Nat} (f : Nat → V4) (rd : Char → Char)
    (hrd : ∀ k, rd (digit4 st fun j => f (st * k + j)) ≠ '_') (i : Nat) :
    litAt st ((digText n st f).map rd) i = if i / st < (n + st - 1) / st then
      charBit (rd (digit4 st fun j => f (st * (i / st) + j))) (i % st) else .b0 := by
  have hu : ∀ c ∈ (digText n st f).map rd, c ≠ '_' := by
    intro c hc
    obtain ⟨d, hd, rfl⟩ := List.mem_map.1 hc
    obtain ⟨k, -, rfl⟩ := List.mem_map.1 hd
    exact hrd k
  rw [litAt, digitsOf_plain hu, digText, List.map_map, ← List.map_reverse, List.reverse_reverse, List.getElem?_map]
  split_ifs with h
  · rw [List.getElem?_range h]; rfl
  · rw [List.getElem?_eq_none (by simpa using h)]; rfl

theorem lt_digits {st : Nat} (hst : 0 < st) (k : Nat) : k < (n + st - 1) / st ↔ st * k < n := by
  rw [Nat.lt_div_iff_mul_lt hst, Nat.mul_comm]
  omega

/-- the text is read as the object's bits below `w` iff every digit is read as its bits below `w` -/
theorem text_same {st w : Nat} (hst : 0 < st) (f : Nat → V4) (hf : ∀ i, n ≤ i → f i = .b0) (hw : n ≤ w) (rd : Char → Char)
    (hrd : ∀ k, rd (digit4 st fun j => f (st * k + j)) ≠ '_') :
    (∀ i, i < w → litAt st ((digText n st f).map rd) i = f i) ↔
      ∀ k, st * k < n → ∀ j, j < min st (w - st * k) →
        charBit (rd (digit4 st fun j => f (st * k + j))) j = f (st * k + j) := by
  constructor
  · intro H k hk j hj
    have h := H (st * k + j) (by omega)
    have e1 : (st * k + j) / st = k := by
      rw [Nat.mul_add_div hst, Nat.div_eq_of_lt (by omega), Nat.add_zero]
    have e2 : (st * k + j) % st = j := by rw [Nat.mul_add_mod, Nat.mod_eq_of_lt (by omega)]
    rw [digText_litAt f rd hrd, e1, e2, if_pos ((lt_digits hst k).2 hk)] at h
    exact h
  · intro H i hi
    have hd := Nat.div_add_mod i st
    have hm := Nat.mod_lt i hst
    rw [digText_litAt f rd hrd]
    split_ifs with h
    · have := H (i / st) ((lt_digits hst _).1 h) (i % st) (by omega)
      rw [this, hd]
    · rw [lt_digits hst] at h
      rw [hf i (by omega)]

/-- an unsigned native object of more than one bit made from two words is `x` iff the words agree with `x` within
the C++ type -/
theorem native_eq_iff (h : n ≤ 64) (h1 : 1 < n) (x : Lg n false) (hx : x.Clean) (r k : BitVec 64) (g : Nat → V4)
    (hg : ∀ i, i < 64 → V4.mk (r.getLsbD i) (k.getLsbD i) = g i) :
    (⟨Bits.mkN h ⟨tU64, r.toNat⟩, Bits.mkN h ⟨tU64, k.toNat⟩⟩ : Lg n false) = x ↔ ∀ i, i < hw n → g i = x.at i := by
  have h64 : hw n ≤ 64 := by rw [hw]; split_ifs <;> omega
  have hle := le_hw h
  constructor
  · intro e i hi
    rw [← hg i (by omega), ← mk_at (s := false) h h1 r k hi]
    subst e
    by_cases hin : i < n
    · rw [Lg.at_of_raw hin]
    · rw [(Bits.clean_unsigned_iff _).1 hx.1 i (by omega), (Bits.clean_unsigned_iff _).1 hx.2 i (by omega), Lg.at_ge _ (by omega)]
      rfl
  · intro H
    have hz : ∀ i, n ≤ i → (Bits.mkN h ⟨tU64, r.toNat⟩ : Bits n false).raw i = false ∧
        (Bits.mkN h ⟨tU64, k.toNat⟩ : Bits n false).raw i = false := by
      intro i hi
      by_cases hin : i < hw n
      · exact V4.mk_eq_b0 (by rw [mk_at h h1 r k hin, hg i (by omega), H i hin, Lg.at_ge _ hi])
      · rw [raw_limb (by omega) h r (Or.inl h1), raw_limb (by omega) h k (Or.inl h1), decide_eq_false hin]
        exact ⟨rfl, rfl⟩
    refine Lg.clean_ext ⟨(Bits.clean_unsigned_iff _).2 fun i hi => (hz i hi).1,
      (Bits.clean_unsigned_iff _).2 fun i hi => (hz i hi).2⟩ hx fun i hi => ?_
    rw [Lg.at_of_raw hi]
    show V4.mk (Bits.raw (Bits.mkN h _) i) (Bits.raw (Bits.mkN h _) i) = _
    rw [mk_at h h1 r k (by omega), hg i (by omega), H i (by omega)]

theorem one_bit_cases (x : Lg 1 s) : x = ⟨Bits.ofInt 0, Bits.ofInt 0⟩ ∨ x = ⟨Bits.ofInt 1, Bits.ofInt 0⟩ ∨
    x = ⟨Bits.ofInt 0, Bits.ofInt 1⟩ ∨ x = ⟨Bits.ofInt 1, Bits.ofInt 1⟩ := by
  have one : ∀ {s : Bool} (b : Bits 1 s), b = Bits.ofInt 0 ∨ b = Bits.ofInt 1 := by
    intro s b
    have hc := fun c : Bits 1 s => Bits.clean_one (by decide) (by decide) c
    rcases Bits.bv_one_cases b with ⟨-, h⟩ | ⟨-, h⟩
    · exact Or.inl (Bits.Clean.ext (hc _) (hc _) (by rw [h]; cases s <;> decide))
    · exact Or.inr (Bits.Clean.ext (hc _) (hc _) (by rw [h]; cases s <;> decide))
  obtain ⟨v, k⟩ := x
  rcases one v with rfl | rfl <;> rcases one k with rfl | rfl <;> simp

theorem hexText_mem {f : Nat → V4} {c : Char} (h : c ∈ (digText n 4 f).map readAs) : c ∈ hexChars ∧ c ≠ '_' := by
  obtain ⟨d, hd, rfl⟩ := List.mem_map.1 h
  obtain ⟨k, -, rfl⟩ := List.mem_map.1 hd
  obtain ⟨h1, h2, -⟩ := digit_hex_read (fun j => f (4 * k + j)) (m := 4) (by decide) (by decide) (by omega)
  exact ⟨h1, h2⟩

theorem octText_mem {f : Nat → V4} {c : Char} (h : c ∈ digText n 3 f) : c ∈ octChars ∧ c ≠ '_' := by
  obtain ⟨k, -, rfl⟩ := List.mem_map.1 h
  obtain ⟨h1, h2, -⟩ := digit_oct_read (fun j => f (3 * k + j)) (m := 3) (by decide) (by decide) (by omega)
  exact ⟨h1, h2⟩

theorem digText_length (f : Nat → V4) (st : Nat) : (digText n st f).length = (n + st - 1) / st := by
  rw [digText, List.length_map, List.length_reverse, List.length_range]

/-- **C139, native, exactly.** A canonical unsigned native object is read back from its
hexadecimal text if and only if every digit (as far as the C++ type has bits for it) is all x,
all z or all known, and none is one of 10 to 15. -/
theorem C139_native_exact (hn : 0 < n) (h : n ≤ 64) (x : Lg n false) (hx : x.Clean) :
    (∃ t, x.str ['h'] = .ok t ∧ Lg.ofString ('\'' :: 'h' :: t) = .ok x) ↔
      ∀ k, 4 * k < n → SameDigit (min 4 (hw n - 4 * k)) (fun j => x.at (4 * k + j)) ∧ ¬ Letter fun j => x.at (4 * k + j) := by
  rcases Nat.lt_or_ge 1 n with h1 | h1
  swap
  · obtain rfl : n = 1 := by omega
    have hk : ∀ k, 4 * k < 1 → k = 0 := by omega
    rcases one_bit_cases x with rfl | rfl | rfl | rfl <;>
      exact iff_of_true ⟨_, rfl, by decide +kernel⟩ fun k hk' => by rw [hk k hk']; decide +kernel
  have htext : x.str ['h'] = .ok (digText n 4 x.at) := C74_digits h x OutBase.hl (Or.inr ⟨rfl, hx⟩)
  obtain ⟨r, k, hr, hk, e⟩ := limb_ok (b := 'h') (body := (digText n 4 x.at).map readAs) (.hex (Or.inl rfl)
    (fun c hc => (hexText_mem hc).1) (by
      have hl : (digitsOf ((digText n 4 x.at).map readAs)).length = (n + 3) / 4 := by
        rw [digitsOf_plain fun c hc => (hexText_mem hc).2, List.length_reverse, List.length_map, digText_length]; omega
      rcases Nat.lt_or_ge ((n + 3) / 4) 16 with h' | h'
      · exact Or.inl (by omega)
      · refine Or.inr ⟨by omega, fun he => ?_⟩
        exact (hexText_mem (List.mem_of_mem_head? (by rw [he]; rfl))).2 rfl))
  rw [(parse_read (Or.inl rfl) _).1] at hr
  rw [(parse_read (Or.inl rfl) _).2] at hk
  have hread := native_read (s := false) h (by decide) hr hk
  have key : (∃ t, x.str ['h'] = .ok t ∧ Lg.ofString ('\'' :: 'h' :: t) = .ok x) ↔
      (⟨Bits.mkN h ⟨tU64, r.toNat⟩, Bits.mkN h ⟨tU64, k.toNat⟩⟩ : Lg n false) = x := by
    constructor
    · rintro ⟨t, ht, hz⟩
      rw [htext] at ht
      obtain rfl := Except.ok.inj ht
      rw [hread] at hz
      exact Except.ok.inj hz
    · intro hxx
      exact ⟨_, htext, by rw [hread, hxx]⟩
  have hle := le_hw h
  rw [key, native_eq_iff h h1 x hx r k _ e, text_same (by decide) x.at (fun i hi => Lg.at_ge x hi) hle readAs
    fun k => (digit_hex_read (fun j => x.at (4 * k + j)) (m := 4) (by decide) (by decide) (by omega)).2.1]
  refine forall_congr' fun k => forall_congr' fun hk => ?_
  exact (digit_hex_read (fun j => x.at (4 * k + j)) (m := min 4 (hw n - 4 * k)) (by omega) (by omega)
    fun j h1 h2 => Lg.at_ge x (by omega)).2.2

theorem wide_hex_text (h : ¬ n ≤ 64) (x : Lg n s) (hx : x.Clean) : x.str ['h'] = .ok (digText n 4 (shown x)) := by
  rw [C76_hex_exact h x hx OutBase.hl (by decide)]
  congr 1
  by_cases h0 : n % 64 = 0
  · have e : (n + 4 - 1) / 4 = (n - 64) / 4 + 16 := by omega
    rw [if_pos h0, digText, e, List.range_add, List.reverse_append, List.map_append]
    congr 1
    · apply List.ext_getElem
      · simp
      · intro i h1 h2
        simp only [List.getElem_replicate, List.getElem_map, List.getElem_reverse, List.getElem_range]
        have : digit4 4 (fun j => shown x (4 * ((n - 64) / 4 + (((List.range 16).map ((n - 64) / 4 + ·)).length - 1 - i)) + j)) =
            digit4 4 fun _ => .b0 := digit4_congr fun j _ => by
          rw [shown, if_pos ⟨h0, by omega⟩]
        rw [this]; rfl
    · apply List.map_congr_left
      intro k hk
      have : k < (n - 64) / 4 := by simpa using hk
      exact digit4_congr fun j hj => by rw [shown, if_neg (by omega)]
  · rw [if_neg h0, digText]
    apply List.map_congr_left
    intro k _
    exact digit4_congr fun j hj => by rw [shown, if_neg (by omega)]

/-- **C139, wide, exactly.** A canonical wide object of either sign is read back from its
hexadecimal text if and only if every digit is all x, all z or all known, none is one of 10 to
15 and, when the width is a multiple of 64, the top 64 bits are zero. -/
theorem C139_wide_exact (h : ¬ n ≤ 64) (x : Lg n s) (hx : x.Clean) :
    (∃ t, x.str ['h'] = .ok t ∧ Lg.ofString ('\'' :: 'h' :: t) = .ok x) ↔
      (∀ k, 4 * k < n → SameDigit 4 (fun j => x.at (4 * k + j)) ∧ ¬ Letter fun j => x.at (4 * k + j)) ∧
      (n % 64 = 0 → ∀ i, n - 64 ≤ i → i < n → x.at i = .b0) := by
  have hge : ∀ i, n ≤ i → shown x i = .b0 := by
    intro i hi
    rw [shown]
    split_ifs
    · rfl
    · exact Lg.at_ge x hi
  obtain ⟨z, h1, -, h3⟩ := wide_plain (s := s) h (pre := []) (mid := []) Radix.h ⟨by decide, by decide, by decide⟩
    (body := (digText n 4 (shown x)).map readAs) (fun c hc => (hexText_mem hc).1) (fun c hc => (hexText_mem hc).2) (by omega)
  rw [← (C62_lower_exact (pre := []) (mid := []) (Or.inl rfl) ⟨by decide, by decide, by decide⟩ _).1] at h1
  have h4 : ∀ i, i < limbs n * 64 → V4.mk (z.value.raw i) (z.xz.raw i) = litAt 4 ((digText n 4 (shown x)).map readAs) i := by
    intro i hi
    rw [h3 i hi, if_pos (by omega), show i / 64 * (64 / 4 * 4) + i % 64 = i by omega]
  have hl := le_limbs n
  have hl4 : ∀ k, 4 * k < n → min 4 (limbs n * 64 - 4 * k) = 4 := by omega
  have key : (∃ t, x.str ['h'] = .ok t ∧ Lg.ofString ('\'' :: 'h' :: t) = .ok x) ↔ z = x := by
    constructor
    · rintro ⟨t, ht, hz⟩
      rw [wide_hex_text h x hx] at ht
      obtain rfl := Except.ok.inj ht
      rw [show '\'' :: 'h' :: digText n 4 (shown x) = lit [] [] 'h' (digText n 4 (shown x)) from rfl, h1] at hz
      exact Except.ok.inj hz
    · rintro rfl
      exact ⟨_, wide_hex_text h _ hx, h1⟩
  have key2 : z = x ↔ ∀ i, i < limbs n * 64 → litAt 4 ((digText n 4 (shown x)).map readAs) i = x.at i := by
    constructor
    · rintro rfl i hi
      rw [← h4 i hi]
      by_cases hin : i < n
      · rw [Lg.at_of_raw hin]
      · rw [(Bits.clean_wide_iff h _).1 hx.1 i (by omega), (Bits.clean_wide_iff h _).1 hx.2 i (by omega), Lg.at_ge _ (by omega)]
        rfl
    · intro H
      have hz : ∀ i, n ≤ i → z.value.raw i = false ∧ z.xz.raw i = false := by
        intro i hi
        by_cases hin : i < limbs n * 64
        · exact V4.mk_eq_b0 (by rw [h4 i hin, H i hin, Lg.at_ge _ hi])
        · constructor <;> rw [Bits.raw_big h] <;> exact Big.raw_of_ge _ (by omega)
      refine Lg.clean_ext ⟨(Bits.clean_wide_iff h _).2 fun i hi => (hz i hi).1,
        (Bits.clean_wide_iff h _).2 fun i hi => (hz i hi).2⟩ hx fun i hi => ?_
      rw [Lg.at_of_raw hi, h4 i (by omega), H i (by omega)]
  have hrd : ∀ k, readAs (digit4 4 fun j => shown x (4 * k + j)) ≠ '_' := fun k =>
    (digit_hex_read (fun j => shown x (4 * k + j)) (m := 4) (by decide) (by decide) (by omega)).2.1
  have hsame : (∀ i, i < n → shown x i = x.at i) ↔ (n % 64 = 0 → ∀ i, n - 64 ≤ i → i < n → x.at i = .b0) := by
    constructor
    · intro H h0 i h1 h2
      rw [← H i h2, shown, if_pos ⟨h0, h1⟩]
    · intro H i hi
      rw [shown]
      split_ifs with hc
      · exact (H hc.1 i hc.2 hi).symm
      · rfl
  have fromShown : (∀ i, i < n → shown x i = x.at i) → ∀ i, shown x i = x.at i := by
    intro H i
    by_cases hi : i < n
    · exact H i hi
    · rw [hge i (by omega), Lg.at_ge x (by omega)]
  rw [key, key2, ← hsame]
  -- the digits of the top limb of a multiple of 64 are read as zeros
  have hzero : n % 64 = 0 → ∀ i, n - 64 ≤ i → litAt 4 ((digText n 4 (shown x)).map readAs) i = .b0 := by
    intro h0 i hi
    rw [digText_litAt (shown x) readAs hrd]
    split_ifs
    · have : digit4 4 (fun j => shown x (4 * (i / 4) + j)) = digit4 4 fun _ => .b0 := digit4_congr fun j _ => by
        rw [shown, if_pos ⟨h0, by omega⟩]
      rw [this]
      have : ∀ j, j < 4 → charBit (readAs (digit4 4 fun _ => .b0)) j = .b0 := by decide +kernel
      exact this _ (Nat.mod_lt _ (by decide))
    · rfl
  have digits : (∀ i, shown x i = x.at i) →
      ((∀ i, i < limbs n * 64 → litAt 4 ((digText n 4 (shown x)).map readAs) i = x.at i) ↔
        ∀ k, 4 * k < n → SameDigit 4 (fun j => x.at (4 * k + j)) ∧ ¬ Letter fun j => x.at (4 * k + j)) := by
    intro H
    have hfun : shown x = x.at := funext H
    rw [hfun] at hrd ⊢
    rw [text_same (by decide) x.at (fun i hi => Lg.at_ge x hi) hl readAs hrd]
    refine forall_congr' fun k => forall_congr' fun hk => ?_
    rw [hl4 k hk]
    exact (digit_hex_read (fun j => x.at (4 * k + j)) (m := 4) (by omega) (by omega) (by omega)).2.2
  constructor
  · intro H
    have hs : ∀ i, i < n → shown x i = x.at i := hsame.2 fun h0 i h1 h2 => by
      rw [← H i (by omega), hzero h0 i h1]
    exact ⟨(digits (fromShown hs)).1 H, hs⟩
  · rintro ⟨H, hs⟩
    exact (digits (fromShown hs)).2 H

/-- **C139, partial.** Covers known objects without digits above 9: native unsigned ones, and
wide ones whose width is not a multiple of 64. Missing: the other objects; which of them are read
back is `C139_native_exact`, `C139_wide_exact` and `C139_signed_exact`, that not all are `C139_refuted`. -/
theorem C139_known_partial (hn : 0 < n) (x : Lg n s) (hx : x.Clean) (hk : x.Known)
    (hw : n ≤ 64 ∧ s = false ∨ 64 < n ∧ n % 64 ≠ 0)
    (hd : ∀ k, ¬ (x.at (4 * k + 3) = .b1 ∧ (x.at (4 * k + 2) = .b1 ∨ x.at (4 * k + 1) = .b1))) :
    ∃ t, x.str ['h'] = .ok t ∧ Lg.ofString ('\'' :: 'h' :: t) = .ok x := by
  have hk' : ∀ i, (x.at i).isKnown = true := by
    intro i
    by_cases hi : i < n
    · exact hk.2 i hi
    · rw [Lg.at_ge x (by omega)]; rfl
  rcases hw with ⟨h, rfl⟩ | ⟨h, h0⟩
  · exact (C139_native_exact hn h x hx).2 fun k _ => ⟨Or.inr (Or.inr fun j _ => hk' _), hd k⟩
  · exact (C139_wide_exact (by omega) x hx).2 ⟨fun k _ => ⟨Or.inr (Or.inr fun j _ => hk' _), hd k⟩, fun h => absurd h h0⟩

/-- **C139, refuted.** In every width of four bits or more the number 10 is printed as a text that
is read as another object. -/
theorem C139_refuted (hn : 4 ≤ n) :
    ∃ x : Lg n false, x.Clean ∧ x.Known ∧ x.value.bv = BitVec.ofNat n 10 ∧
      ¬ ∃ t, x.str ['h'] = .ok t ∧ Lg.ofString ('\'' :: 'h' :: t) = .ok x := by
  obtain ⟨a, ca, ba⟩ := Bits.exists_clean (s := false) (BitVec.ofNat n 10)
  obtain ⟨b, cb, bb⟩ := Bits.exists_clean (s := false) (0 : BitVec n)
  have hat : ∀ i, i < n → (⟨a, b⟩ : Lg n false).at i = V4.ofBool (Nat.testBit 10 i) := by
    intro i hi
    rw [Lg.at, ba, bb, BitVec.getLsbD_ofNat, decide_eq_true hi]
    cases Nat.testBit 10 i <;> simp [V4.mk, V4.ofBool]
  have hl : Letter fun j => (⟨a, b⟩ : Lg n false).at (4 * 0 + j) := by
    refine ⟨?_, Or.inr ?_⟩
    · show (⟨a, b⟩ : Lg n false).at 3 = _
      rw [hat 3 (by omega)]; decide
    · show (⟨a, b⟩ : Lg n false).at 1 = _
      rw [hat 1 (by omega)]; decide
  refine ⟨⟨a, b⟩, ⟨ca, cb⟩, ⟨cb, fun i hi => ?_⟩, ba, ?_⟩
  · rw [hat i hi]; cases Nat.testBit 10 i <;> rfl
  · intro H
    by_cases h : n ≤ 64
    · exact ((C139_native_exact (by omega) h _ ⟨ca, cb⟩).1 H 0 (by omega)).2 hl
    · exact (((C139_wide_exact h _ ⟨ca, cb⟩).1 H).1 0 (by omega)).2 hl

-- 0x1z9x of 16 bits is read back
example : ∃ x : Lg 16 false, x = ⟨Bits.ofInt 0x1F90, Bits.ofInt 0x0F0F⟩ ∧ x.str ['h'] = .ok "1z9x".toList ∧
    Lg.ofString "'h1z9x".toList = .ok x := ⟨_, rfl, by decide +kernel, by decide +kernel⟩

/-! ## octal -/

/-- octal digits of a 64-bit word: 22 of them, of which the first has one bit -/
theorem limb_oct {body : List Char} (hc : ∀ c ∈ body, c ∈ octChars) (hl : body.length ≤ 22) :
    ∃ r k, parseRaw body 'o' = .ok r ∧ parseXz body 'o' = .ok k ∧
      ∀ i, i < 64 → V4.mk (r.getLsbD i) (k.getLsbD i) = litAt 3 body i := by
  have step : ∀ d : Char → Option (BitVec 64), digVal d '_' = 0 → (∀ c ∈ octChars, (digVal d c).toNat < 2 ^ 3) →
      ∃ r, (body.reverse.foldlM (fun s c => parsePos 3 (d c) c s) (0, 0)).map (·.1) = .ok r ∧
        ∀ i, i < 64 → r.getLsbD i = posBit 3 (digVal d) (digitsOf body) i := by
    intro d h0 hd
    obtain ⟨r, hr, hb⟩ := parsePos_fold (st := 3) (by decide) d h0 body.reverse (fun c hm => hd c (hc c (by simpa using hm))) 0 0 (by
      intro L1 c L2 hL _
      have h1 : L1.length + 1 ≤ body.length := by
        have := congrArg List.length hL
        simp at this
        omega
      have h2 := List.length_filter_le (· ≠ '_') L1
      omega)
    refine ⟨r, by rw [hr, res_map_ok], fun i hi => ?_⟩
    rw [hb i hi, digitsOf_reverse]
    simp
  obtain ⟨r, hr, er⟩ := step octDigit (by decide) (by decide)
  obtain ⟨k, hk, ek⟩ := step (xzDigit 7) (by decide) (by decide)
  refine ⟨r, k, hr, hk, fun i hi => ?_⟩
  rw [er i hi, ek i hi]
  refine litAt_of_pos (by decide) (fun c h j hj => ?_) i
  have : ∀ c ∈ octChars, c ≠ '_' → ∀ j, j < 3 →
      V4.mk ((digVal octDigit c).getLsbD j) ((digVal (xzDigit 7) c).getLsbD j) = charBit c j := by
    decide +kernel
  exact this c (hc c (mem_digitsOf h).1) (mem_digitsOf h).2 j hj

/-- **C140, exactly.** A canonical unsigned native object is read back from its octal text if and
only if every digit (as far as the C++ type has bits for it) is all x, all z or all known. -/
theorem C140_octal_exact (hn : 0 < n) (h : n ≤ 64) (x : Lg n false) (hx : x.Clean) :
    (∃ t, x.str ['o'] = .ok t ∧ Lg.ofString ('\'' :: 'o' :: t) = .ok x) ↔
      ∀ k, 3 * k < n → SameDigit (min 3 (hw n - 3 * k)) fun j => x.at (3 * k + j) := by
  rcases Nat.lt_or_ge 1 n with h1 | h1
  swap
  · obtain rfl : n = 1 := by omega
    have hk : ∀ k, 3 * k < 1 → k = 0 := by omega
    rcases one_bit_cases x with rfl | rfl | rfl | rfl <;>
      exact iff_of_true ⟨_, rfl, by decide +kernel⟩ fun k hk' => by rw [hk k hk']; decide +kernel
  have htext : x.str ['o'] = .ok (digText n 3 x.at) := C74_digits h x OutBase.o (Or.inr ⟨rfl, hx⟩)
  obtain ⟨r, k, hr, hk, e⟩ := limb_oct (body := digText n 3 x.at) (fun c hc => (octText_mem hc).1)
    (by rw [digText_length]; omega)
  have hread := native_read (s := false) h (by decide) hr hk
  have key : (∃ t, x.str ['o'] = .ok t ∧ Lg.ofString ('\'' :: 'o' :: t) = .ok x) ↔
      (⟨Bits.mkN h ⟨tU64, r.toNat⟩, Bits.mkN h ⟨tU64, k.toNat⟩⟩ : Lg n false) = x := by
    constructor
    · rintro ⟨t, ht, hz⟩
      rw [htext] at ht
      obtain rfl := Except.ok.inj ht
      rw [hread] at hz
      exact Except.ok.inj hz
    · intro hxx
      exact ⟨_, htext, by rw [hread, hxx]⟩
  have hle := le_hw h
  have hts := text_same (n := n) (st := 3) (w := hw n) (by decide) x.at (fun i hi => Lg.at_ge x hi) hle id
    fun k => (digit_oct_read (fun j => x.at (3 * k + j)) (m := 3) (by decide) (by decide) (by omega)).2.1
  rw [List.map_id] at hts
  rw [key, native_eq_iff h h1 x hx r k _ e, hts]
  refine forall_congr' fun k => forall_congr' fun hk => ?_
  exact (digit_oct_read (fun j => x.at (3 * k + j)) (m := min 3 (hw n - 3 * k)) (by omega) (by omega)
    fun j h1 h2 => Lg.at_ge x (by omega)).2.2

/-- **C140, partial.** Covers known objects. Missing: the other unsigned objects
(`C140_octal_exact`, `C140_refuted`) and signed ones (`C140_signed_exact`, `C140_signed_refuted`). -/
theorem C140_known_partial (hn : 0 < n) (h : n ≤ 64) (x : Lg n false) (hx : x.Clean) (hk : x.Known) :
    ∃ t, x.str ['o'] = .ok t ∧ Lg.ofString ('\'' :: 'o' :: t) = .ok x := by
  refine (C140_octal_exact hn h x hx).2 fun k _ => Or.inr (Or.inr fun j _ => ?_)
  by_cases hi : 3 * k + j < n
  · exact hk.2 _ hi
  · show (x.at (3 * k + j)).isKnown = true
    rw [Lg.at_ge x (by omega)]; rfl

/-- **C140, refuted.** In every native width of two bits or more the object with one x in bit 0 and
zeros above is read back as another. -/
theorem C140_refuted (h1 : 1 < n) (h : n ≤ 64) :
    ∃ x : Lg n false, x.Clean ∧ x.at 0 = .x ∧ (∀ i, 0 < i → x.at i = .b0) ∧
      ¬ ∃ t, x.str ['o'] = .ok t ∧ Lg.ofString ('\'' :: 'o' :: t) = .ok x := by
  obtain ⟨a, ca, ba⟩ := Bits.exists_clean (s := false) (0 : BitVec n)
  obtain ⟨b, cb, bb⟩ := Bits.exists_clean (s := false) (BitVec.twoPow n 0)
  have h0 : (⟨a, b⟩ : Lg n false).at 0 = .x := by
    rw [Lg.at, ba, bb, BitVec.getLsbD_twoPow]; simp [show 0 < n by omega, V4.mk]
  have hi : ∀ i, 0 < i → (⟨a, b⟩ : Lg n false).at i = .b0 := by
    intro i hi
    rw [Lg.at, ba, bb, BitVec.getLsbD_twoPow]; simp [show ¬ 0 = i by omega, V4.mk]
  refine ⟨⟨a, b⟩, ⟨ca, cb⟩, h0, hi, fun H => ?_⟩
  have hw1 := le_hw h
  have := (C140_octal_exact (by omega) h _ ⟨ca, cb⟩).1 H 0 (by omega)
  rcases this with H | H | H
  · have := H 1 (by omega)
    simp only [Nat.mul_zero, Nat.zero_add] at this
    rw [hi 1 (by decide)] at this; cases this
  · have := H 0 (by omega)
    simp only [Nat.mul_zero, Nat.zero_add] at this
    rw [h0] at this; cases this
  · have := H 0 (by omega)
    simp only [Nat.mul_zero, Nat.zero_add] at this
    rw [h0] at this; cases this

-- all 64 bits of a word in 22 octal digits, one of them z; an 8-bit object with x in both bits of its top digit
example : (∃ x : Lg 64 false, x = ⟨Bits.ofInt (-1), Bits.ofInt 0o700⟩ ∧ x.str ['o'] = .ok "1777777777777777777z77".toList ∧
      Lg.ofString "'o1777777777777777777z77".toList = .ok x) ∧
    (∃ x : Lg 8 false, x = ⟨Bits.ofInt 0o17, Bits.ofInt 0o300⟩ ∧ x.str ['o'] = .ok "X17".toList ∧
      Lg.ofString "'oX17".toList = .ok x) :=
  ⟨⟨_, rfl, by decide +kernel, by decide +kernel⟩, ⟨_, rfl, by decide +kernel, by decide +kernel⟩⟩

/-- **C63, all 64 bits.** An octal literal of up to 22 characters: every bit of the object is that
of its digit, the first of 22 digits giving one bit. -/
theorem C63_octal_64 (h1 : 1 < n) (h : n ≤ 64) {b : Char} (hb : b = 'o' ∨ b = 'O') {pre mid body : List Char} (hl : LitOk pre mid b)
    (hc : ∀ c ∈ body, c ∈ octChars) (hlen : body.length ≤ 22) :
    ∃ z : Lg n s, Lg.ofString (lit pre mid b body) = .ok z ∧ Bits.ofString (lit pre mid b body) = .ok z.value ∧
      ∀ i, i < n → z.at i = litAt 3 body i := by
  obtain ⟨r, k, hr, hk, e⟩ := limb_oct hc hlen
  have hr' : parseRaw body b = .ok r := by rw [← hr]; rcases hb with rfl | rfl <;> rfl
  have hk' : parseXz body b = .ok k := by rw [← hk]; rcases hb with rfl | rfl <;> rfl
  obtain ⟨p1, p2, -, -⟩ := C66_prefix hl body n
  refine ⟨⟨Bits.mkN h ⟨tU64, r.toNat⟩, Bits.mkN h ⟨tU64, k.toNat⟩⟩, ?_, ?_, fun i hi => ?_⟩
  · rw [Lg.ofString, dif_pos h, p1, p2, hr', hk']; rfl
  · rw [Bits.ofString, dif_pos h, p1, hr']; rfl
  · have := le_hw h
    rw [Lg.at_of_raw hi, ← e i (by omega)]
    exact mk_at h h1 r k (by omega)

example : ∃ z : Lg 64 true, Lg.ofString "64'o1777777777777777777z77".toList = .ok z ∧ z.at 63 = .b1 ∧ z.at 6 = .z ∧ z.at 9 = .b1 :=
  ⟨_, rfl, by decide +kernel, by decide +kernel, by decide +kernel⟩

/-! ## decimal -/

theorem decDigits_numeral (v : Nat) : Nat.ofDigits 10 (decDigits (numeral v)) = v := by
  rw [numeral]
  split_ifs with h
  · subst h; decide
  · have hd : ∀ d, d < 10 → ('0' ≤ "0123456789".toList.getD d '0' ∧ "0123456789".toList.getD d '0' ≤ '9') ∧
        ("0123456789".toList.getD d '0').toNat - 48 = d := by decide
    have e : decDigits ((Nat.digits 10 v).reverse.map fun d => "0123456789".toList.getD d '0') = Nat.digits 10 v := by
      rw [decDigits, ← List.map_reverse, List.reverse_reverse, List.filter_eq_self.2, List.map_map]
      · conv_rhs => rw [← List.map_id (Nat.digits 10 v)]
        apply List.map_congr_left
        intro d hm
        exact (hd d (Nat.digits_lt_base (by decide) hm)).2
      · intro c hc
        obtain ⟨d, hm, rfl⟩ := List.mem_map.1 hc
        exact decide_eq_true (hd d (Nat.digits_lt_base (by decide) hm)).1
    rw [e, Nat.ofDigits_digits]

/-- the decimal text of an integer is read as its magnitude: the sign is skipped -/
theorem decDigits_numeralInt (v : Int) : Nat.ofDigits 10 (decDigits (numeralInt v)) = v.natAbs := by
  rw [numeralInt]
  split_ifs with h
  · have : decDigits ('-' :: numeral (-v).toNat) = decDigits (numeral (-v).toNat) := by
      rw [decDigits, List.reverse_cons, List.filter_append]
      simp [decDigits]
    rw [this, decDigits_numeral]; omega
  · rw [decDigits_numeral]; omega

/-- **C141, exactly.** A canonical native object is read back from its decimal text if and only if
it is known and not negative, or is the most negative number of 8 or 16 bits. -/
theorem C141_decimal_exact (hn : 0 < n) (h : n ≤ 64) (x : Lg n s) (hx : x.Clean) :
    (∃ t, x.str ['0', 'd'] = .ok t ∧ Lg.ofString ('\'' :: 'd' :: t) = .ok x) ↔
      x.Known ∧ (0 ≤ numOf s x.value.bv ∨ (n = 8 ∨ n = 16) ∧ numOf s x.value.bv = -2 ^ (n - 1)) := by
  have hread : ∀ t, (Lg.ofString ('\'' :: 'd' :: t) : Res (Lg n s)) =
      .ok ⟨Bits.mkN h ⟨tU64, (BitVec.ofNat 64 (Nat.ofDigits 10 (decDigits t))).toNat⟩, Bits.mkN h ⟨tU64, (0 : BitVec 64).toNat⟩⟩ :=
    fun t => native_read h (by decide) (parse_dec t (Or.inl rfl)).1 (parse_dec t (Or.inl rfl)).2
  have hz : (Bits.mkN h ⟨tU64, (0 : BitVec 64).toNat⟩ : Bits n false).nv = ⟨holderTy n false, 0⟩ := by
    rw [Bits.nv_mkN]
    show (⟨_, (holderTy n false).conv 0⟩ : TV) = _
    have := holder_numOf (s := false) h (0 : BitVec n)
    rw [numOf_false] at this
    have h0 : ((0 : BitVec n).toNat : Int) = 0 := by simp
    rw [h0] at this
    rw [this]
  have hnv := (Bits.clean_native h _).1 hx.1
  set v := numOf s x.value.bv with hv
  have hconv : (holderTy n s).conv v = v := holder_numOf h _
  have hb := Bits.numOf_bounds (s := s) hn x.value.bv
  rw [← hv] at hb
  have p1 : (2 : Int) ^ (n - 1) ≤ 2 ^ 63 := Bits.pow_mono (by omega)
  have p2 : (2 : Int) ^ n ≤ 2 ^ 64 := Bits.pow_mono h
  have habs : v.natAbs < 2 ^ 64 := by split_ifs at hb <;> omega
  have hword : (BitVec.ofNat 64 (Nat.ofDigits 10 (decDigits (numeralInt v)))).toNat = v.natAbs := by
    rw [decDigits_numeralInt, BitVec.toNat_ofNat, Nat.mod_eq_of_lt habs]
  -- the value plane read back
  have hval : (Bits.mkN h ⟨tU64, v.natAbs⟩ : Bits n s) = x.value ↔ (holderTy n s).conv v.natAbs = v := by
    constructor
    · intro e
      have := congrArg (fun b : Bits n s => b.nv.v) e
      simp only [Bits.nv_mkN] at this
      rw [this, hnv]
    · intro e
      rw [← Bits.mkN_nv h (Bits.mkN h ⟨tU64, v.natAbs⟩ : Bits n s), ← Bits.mkN_nv h x.value, Bits.nv_mkN]
      congr 1
      show (⟨holderTy n s, (holderTy n s).conv v.natAbs⟩ : TV) = _
      rw [e, ← hnv, ← Bits.nv_ty x.value]
  have hkey : (holderTy n s).conv v.natAbs = v ↔ 0 ≤ v ∨ (n = 8 ∨ n = 16 ∨ n = 32 ∨ n = 64) ∧ v = -2 ^ (n - 1) := by
    by_cases h0 : 0 ≤ v
    · have : ((v.natAbs : Nat) : Int) = v := by omega
      rw [this]
      exact iff_of_true hconv (Or.inl h0)
    · have hs : s = true ∧ 1 < n := by
        by_cases hc : (s && !decide (n ≤ 1)) = true
        · simp at hc; exact ⟨hc.1, by omega⟩
        · rw [if_neg hc] at hb; omega
      obtain ⟨rfl, h1⟩ := hs
      rw [if_pos (by simp; omega)] at hb
      have hle := le_hw h
      have p3 : (2 : Int) ^ (n - 1) ≤ 2 ^ (hw n - 1) := Bits.pow_mono (by omega)
      have p4 : (2 : Int) ^ hw n = 2 * 2 ^ (hw n - 1) := by
        rw [← pow_succ']; congr 1; omega
      have hp : (0 : Int) < 2 ^ (n - 1) := by positivity
      rw [or_iff_right h0]
      have e : (holderTy n true).conv v.natAbs = v ↔
          (CTy.int (hw n) true).conv v.natAbs = (CTy.int (hw n) true).conv v := by
        rw [← holderTy_ge (by omega), hconv]
      rw [e, conv_eq_iff]
      have hfull := Bits.full_iff hn h
      rw [Full] at hfull
      constructor
      · rintro ⟨c, hc⟩
        have e1 : ((v.natAbs : Nat) : Int) - v = -2 * v := by omega
        rw [e1, p4] at hc
        have hc1 : c = 1 := by
          have c0 : 0 < c := by
            by_contra hneg
            have : 2 * (2 : Int) ^ (hw n - 1) * c ≤ 0 := mul_nonpos_of_nonneg_of_nonpos (by positivity) (by omega)
            omega
          by_contra hne
          have : 2 * (2 : Int) ^ (hw n - 1) * 2 ≤ 2 * 2 ^ (hw n - 1) * c := mul_le_mul_of_nonneg_left (by omega) (by positivity)
          omega
        subst hc1
        have e2 : v = -2 ^ (hw n - 1) := by omega
        have e3 : hw n = n := by
          by_contra hne
          have : (2 : Int) ^ n ≤ 2 ^ (hw n - 1) := Bits.pow_mono (by omega)
          have : (2 : Int) ^ n = 2 * 2 ^ (n - 1) := by rw [← pow_succ']; congr 1; omega
          omega
        rw [e3] at e2
        exact ⟨by have := hfull.2 e3; omega, e2⟩
      · rintro ⟨hn4, e⟩
        have e3 : hw n = n := hfull.1 (by omega)
        refine ⟨1, ?_⟩
        rw [e3] at p4 ⊢
        omega
  have hplane : x.Known → (Bits.mkN h ⟨tU64, (0 : BitVec 64).toNat⟩ : Bits n false) = x.xz := by
    intro hk
    have hb0 : x.xz.bv = 0 := by
      apply BitVec.eq_of_getLsbD_eq
      intro i hi
      have := hk.2 i hi
      rw [Lg.at] at this
      have h0 : x.xz.bv.getLsbD i = false := by
        revert this
        cases x.xz.bv.getLsbD i <;> cases x.value.bv.getLsbD i <;> decide
      rw [h0]; simp
    have e1 := (Bits.clean_native h _).1 hx.2
    rw [hb0, numOf_false] at e1
    rw [← Bits.mkN_nv h (Bits.mkN h ⟨tU64, (0 : BitVec 64).toNat⟩ : Bits n false), ← Bits.mkN_nv h x.xz, hz]
    congr 1
    rw [← Bits.nv_ty x.xz]
    have : x.xz.nv.v = 0 := by simpa using e1
    rw [← this]
  have hmin : ∀ h32 : n = 32 ∨ n = 64, s = true → (x.value.bv = BitVec.intMin n ↔ v = -2 ^ (n - 1)) := by
    rintro h32 rfl
    have e : v = x.value.bv.toInt := by rw [hv, numOf, if_pos (by simp; omega)]
    rw [e, ← BitVec.toInt_inj, BitVec.toInt_intMin_of_pos (by omega)]
  constructor
  · rintro ⟨t, ht, hz'⟩
    rw [hread] at hz'
    have e := Except.ok.inj hz'
    have hk : x.Known := by
      refine ⟨hx.2, fun i hi => ?_⟩
      have e2 : x.xz.bv.getLsbD i = false := by
        rw [← congrArg Lg.xz e, Bits.getLsbD_bv]
        have : (Bits.mkN h ⟨tU64, (0 : BitVec 64).toNat⟩ : Bits n false).raw i = false := by
          have h0 := (Bits.nv_eq_zero_iff h (Bits.mkN h ⟨tU64, (0 : BitVec 64).toNat⟩ : Bits n false)).1 (by rw [hz])
          exact h0 i
        rw [this, Bool.and_false]
      rw [Lg.at, e2]
      cases x.value.bv.getLsbD i <;> rfl
    refine ⟨hk, ?_⟩
    by_cases hm : (n = 32 ∨ n = 64) ∧ s = true ∧ x.value.bv = BitVec.intMin n
    · obtain ⟨h32, rfl, hmm⟩ := hm
      rw [(C73_refuted h32 x hx hmm (Or.inl rfl)).1] at ht
      cases ht
    · have htext := (C73_decimal_partial hn h x hx hk (b := 'd') (Or.inl rfl) fun hs h32 hmm => hm ⟨h32, hs, hmm⟩).1
      rw [ht] at htext
      obtain rfl := Except.ok.inj htext
      have e1 : (Bits.mkN h ⟨tU64, (BitVec.ofNat 64 (Nat.ofDigits 10 (decDigits (numeralInt v)))).toNat⟩ : Bits n s) = x.value :=
        congrArg Lg.value e
      rw [hword] at e1
      rcases hkey.1 (hval.1 e1) with h0 | ⟨h4, h5⟩
      · exact Or.inl h0
      · refine Or.inr ⟨?_, h5⟩
        have hs : s = true := by
          cases s
          · rw [if_neg (by simp)] at hb
            have : (0 : Int) < 2 ^ (n - 1) := by positivity
            omega
          · rfl
        by_contra hne
        have h32 : n = 32 ∨ n = 64 := by omega
        exact hm ⟨h32, hs, (hmin h32 hs).2 h5⟩
  · rintro ⟨hk, hv0⟩
    have htext := (C73_decimal_partial hn h x hx hk (b := 'd') (Or.inl rfl) fun hs h32 hmm => by
      have := (hmin h32 hs).1 hmm
      have : (0 : Int) < 2 ^ (n - 1) := by positivity
      omega).1
    refine ⟨_, htext, ?_⟩
    rw [hread]
    rw [← hv, hword, hplane hk, hval.2 (hkey.2 (hv0.imp id fun h => ⟨by omega, h.2⟩))]

/-- **C141, partial.** Covers known native objects that are not negative. Missing: negative objects,
which are not read back (`C141_decimal_exact`, `C141_refuted`). -/
theorem C141_known_partial (hn : 0 < n) (h : n ≤ 64) (x : Lg n s) (hx : x.Clean) (hk : x.Known) (h0 : 0 ≤ numOf s x.value.bv) :
    ∃ t, x.str ['0', 'd'] = .ok t ∧ Lg.ofString ('\'' :: 'd' :: t) = .ok x :=
  (C141_decimal_exact hn h x hx).2 ⟨hk, Or.inl h0⟩

/-- **C141, refuted.** Every known negative native object, apart from the most negative one of 8 or
16 bits, is not read back: the parser skips the minus sign. -/
theorem C141_refuted (hn : 0 < n) (h : n ≤ 64) (x : Lg n true) (hx : x.Clean) (h0 : numOf true x.value.bv < 0)
    (hm : numOf true x.value.bv ≠ -2 ^ (n - 1)) :
    ¬ ∃ t, x.str ['0', 'd'] = .ok t ∧ Lg.ofString ('\'' :: 'd' :: t) = .ok x := by
  rw [C141_decimal_exact hn h x hx]
  rintro ⟨-, h1 | ⟨-, h1⟩⟩
  · omega
  · exact hm h1

example : ∃ x : Lg 12 true, x = ⟨Bits.ofInt (-37), Bits.zero⟩ ∧ x.Clean ∧ x.str ['0', 'd'] = .ok "-37".toList ∧
    Lg.ofString "'d-37".toList = .ok (⟨Bits.ofInt 37, Bits.zero⟩ : Lg 12 true) :=
  ⟨_, rfl, by decide +kernel, by decide +kernel, by decide +kernel⟩
example : ∃ x : Lg 8 true, x = ⟨Bits.ofInt (-128), Bits.zero⟩ ∧ x.str ['0', 'd'] = .ok "-128".toList ∧
    Lg.ofString "'d-128".toList = .ok x := ⟨_, rfl, by decide +kernel, by decide +kernel⟩

end Verif
