import Verif.Props.RoundTrip
import Verif.Lemmas.Concat

/-!
# Reading back what was printed: signed native objects (C139, C140)

`str` prints the digits of the object's C++ value, so the top digit of a negative number is filled up with copies of the sign
bit; the parser reads unsigned numbers. `C139_native_exact` and `C140_octal_exact` are about unsigned objects.
-/

namespace Verif

variable {n : Nat}

/-- the bits of a signed object with its sign bit copied above the width -/
def sgnAt (x : Lg n true) (i : Nat) : V4 := if i < n then x.at i else V4.ofBool x.value.bv.msb

/-- the digits of `str`, the first `(n + st - 1) / st` of a 64-bit pattern -/
def cutAt (st : Nat) (x : Lg n true) (i : Nat) : V4 :=
  if i < st * ((n + st - 1) / st) ∧ i < 64 then sgnAt x i else .b0

theorem word_ext (h : n ≤ 64) (h1 : 1 < n) (x : Lg n true) (hx : x.Clean) (i : Nat) :
    V4.mk ((BitVec.ofInt 64 x.value.nv.v).getLsbD i) ((BitVec.ofInt 64 x.xz.nv.v).getLsbD i) =
      if i < 64 then sgnAt x i else .b0 := by
  rw [getLsbD_ibit, getLsbD_ibit, Bits.ibit_clean h (by omega) hx.1, Bits.ibit_clean h (by omega) hx.2]
  by_cases hi : i < 64
  · rw [if_pos hi, sgnAt, decide_eq_true hi, BitVec.msb_eq_getLsbD_last]
    by_cases hin : i < n
    · simp only [if_pos hin, Bool.true_and]; rfl
    · simp only [if_neg hin, Bool.true_and, Bool.false_and, decide_eq_true h1]
      cases x.value.bv.getLsbD (n - 1) <;> rfl
  · rw [if_neg hi, decide_eq_false hi]; rfl

theorem signed_text (h : n ≤ 64) (h1 : 1 < n) (x : Lg n true) (hx : x.Clean) {b : Char} {st : Nat} (hb : OutBase b st) :
    x.str [b] = .ok (digText n st (cutAt st x)) := by
  rw [Lg.str_native h x hb, digText]
  congr 1
  apply List.map_congr_left
  intro k hk
  have hk : k < (n + st - 1) / st := by simpa using hk
  have hm := Nat.mul_le_mul_left st (show k + 1 ≤ (n + st - 1) / st by omega)
  rw [Nat.mul_add, Nat.mul_one] at hm
  refine digit4_congr fun j hj => ?_
  show V4.mk _ _ = _
  rw [word_ext h h1 x hx, cutAt]
  by_cases hi : st * k + j < 64
  · rw [if_pos hi, if_pos ⟨by omega, hi⟩]
  · rw [if_neg hi, if_neg (by omega)]

/-- a signed native object made from two words is `x` iff the words agree with `x` within the C++ type -/
theorem signed_eq_iff (h : n ≤ 64) (h1 : 1 < n) (x : Lg n true) (hx : x.Clean) (r k : BitVec 64) (g : Nat → V4)
    (hg : ∀ i, i < 64 → V4.mk (r.getLsbD i) (k.getLsbD i) = g i) :
    (⟨Bits.mkN h ⟨tU64, r.toNat⟩, Bits.mkN h ⟨tU64, k.toNat⟩⟩ : Lg n true) = x ↔ ∀ i, i < hw n → g i = sgnAt x i := by
  have h64 : hw n ≤ 64 := by rw [hw]; split_ifs <;> omega
  have hraw : ∀ i, i < hw n → V4.mk (x.value.raw i) (x.xz.raw i) = sgnAt x i := by
    intro i hi
    have e1 := Bits.raw_mkN h h1 x.value.nv (s := true) i
    have e2 := Bits.raw_mkN h h1 x.xz.nv (s := false) i
    rw [Bits.mkN_nv, decide_eq_true hi, Bool.true_and] at e1 e2
    have := word_ext h h1 x hx i
    rw [getLsbD_ibit, getLsbD_ibit, decide_eq_true (show i < 64 by omega), Bool.true_and, Bool.true_and, if_pos (by omega)] at this
    rw [e1, e2, this]
  constructor
  · intro e i hi
    rw [← hg i (by omega), ← mk_at (s := true) h h1 r k hi, ← hraw i hi]
    subst e
    rfl
  · intro H
    have hb : ∀ i, (Bits.mkN h ⟨tU64, r.toNat⟩ : Bits n true).raw i = x.value.raw i ∧
        (Bits.mkN h ⟨tU64, k.toNat⟩ : Bits n false).raw i = x.xz.raw i := by
      intro i
      by_cases hi : i < hw n
      · apply V4.mk_inj.1
        rw [mk_at h h1 r k hi, hg i (by omega), H i hi, hraw i hi]
      · have e1 := Bits.raw_mkN h h1 x.value.nv (s := true) i
        have e2 := Bits.raw_mkN h h1 x.xz.nv (s := false) i
        rw [Bits.mkN_nv, decide_eq_false hi, Bool.false_and] at e1 e2
        rw [raw_limb (by omega) h r (Or.inl h1), raw_limb (by omega) h k (Or.inl h1), decide_eq_false hi, e1, e2]
        exact ⟨rfl, rfl⟩
    obtain ⟨v, q⟩ := x
    congr 1
    · exact Bits.ext_raw fun i => (hb i).1
    · exact Bits.ext_raw fun i => (hb i).2

/-- the text is read as the sign extended object iff every digit is read as its bits, and no copy of a set sign bit lies above
the digits -/
theorem signed_same {st : Nat} (hst : 0 < st) (h : n ≤ 64) (h1 : 1 < n) (x : Lg n true) (rd : Char → Char)
    (hrd : ∀ k, rd (digit4 st fun j => cutAt st x (st * k + j)) ≠ '_') :
    (∀ i, i < hw n → litAt st ((digText n st (cutAt st x)).map rd) i = sgnAt x i) ↔
      (∀ k, st * k < n → ∀ j, j < min st (hw n - st * k) →
        charBit (rd (digit4 st fun j => cutAt st x (st * k + j))) j = sgnAt x (st * k + j)) ∧
      (st * ((n + st - 1) / st) < hw n → x.value.bv.msb = false) := by
  have hN : n ≤ st * ((n + st - 1) / st) := by
    have := Nat.div_add_mod (n + st - 1) st
    have := Nat.mod_lt (n + st - 1) hst
    omega
  constructor
  · intro H
    refine ⟨fun k hk j hj => ?_, fun hlt => ?_⟩
    · have h := H (st * k + j) (by omega)
      have e1 : (st * k + j) / st = k := by
        rw [Nat.mul_add_div hst, Nat.div_eq_of_lt (by omega), Nat.add_zero]
      have e2 : (st * k + j) % st = j := by rw [Nat.mul_add_mod, Nat.mod_eq_of_lt (by omega)]
      rw [digText_litAt _ rd hrd, e1, e2, if_pos ((lt_digits hst k).2 hk)] at h
      exact h
    · have h := H _ hlt
      rw [digText_litAt _ rd hrd, Nat.mul_div_cancel_left _ hst, if_neg (by omega), sgnAt, if_neg (by omega)] at h
      revert h
      cases x.value.bv.msb <;> decide
  · rintro ⟨H, H2⟩ i hi
    have hd := Nat.div_add_mod i st
    have hm := Nat.mod_lt i hst
    rw [digText_litAt _ rd hrd]
    split_ifs with h
    · have := H (i / st) ((lt_digits hst _).1 h) (i % st) (by omega)
      rw [this, hd]
    · have : st * ((n + st - 1) / st) ≤ i := by
        have := Nat.mul_le_mul_left st (Nat.le_of_not_lt h)
        omega
      rw [sgnAt, if_neg (by omega), H2 (by omega)]; rfl

/-- **C139, signed native, exactly.** A canonical signed native object is read back from its hexadecimal text if and only if
every digit, the top one filled up with copies of the sign bit, is all x, all z or all known, none is one of 10 to 15, and the sign bit is
clear unless the digits fill the C++ type. -/
theorem C139_signed_exact (h1 : 1 < n) (h : n ≤ 64) (x : Lg n true) (hx : x.Clean) :
    (∃ t, x.str ['h'] = .ok t ∧ Lg.ofString ('\'' :: 'h' :: t) = .ok x) ↔
      (∀ k, 4 * k < n → SameDigit 4 (fun j => sgnAt x (4 * k + j)) ∧ ¬ Letter fun j => sgnAt x (4 * k + j)) ∧
      (4 * ((n + 3) / 4) < hw n → x.value.bv.msb = false) := by
  have htext : x.str ['h'] = .ok (digText n 4 (cutAt 4 x)) := signed_text h h1 x hx OutBase.hl
  obtain ⟨r, k, hr, hk, e⟩ := limb_ok (b := 'h') (body := (digText n 4 (cutAt 4 x)).map readAs) (.hex (Or.inl rfl)
    (fun c hc => (hexText_mem hc).1) (by
      have hl : (digitsOf ((digText n 4 (cutAt 4 x)).map readAs)).length = (n + 3) / 4 := by
        rw [digitsOf_plain fun c hc => (hexText_mem hc).2, List.length_reverse, List.length_map, digText_length]; omega
      rcases Nat.lt_or_ge ((n + 3) / 4) 16 with h' | h'
      · exact Or.inl (by omega)
      · refine Or.inr ⟨by omega, fun he => ?_⟩
        exact (hexText_mem (List.mem_of_mem_head? (by rw [he]; rfl))).2 rfl))
  rw [(parse_read (Or.inl rfl) _).1] at hr
  rw [(parse_read (Or.inl rfl) _).2] at hk
  have hread := native_read (s := true) h (by decide) hr hk
  have key : (∃ t, x.str ['h'] = .ok t ∧ Lg.ofString ('\'' :: 'h' :: t) = .ok x) ↔
      (⟨Bits.mkN h ⟨tU64, r.toNat⟩, Bits.mkN h ⟨tU64, k.toNat⟩⟩ : Lg n true) = x := by
    constructor
    · rintro ⟨t, ht, hz⟩
      rw [htext] at ht
      obtain rfl := Except.ok.inj ht
      rw [hread] at hz
      exact Except.ok.inj hz
    · intro hxx
      exact ⟨_, htext, by rw [hread, hxx]⟩
  have hle := le_hw h
  have h4 : 4 ∣ hw n := by
    rw [hw]; split_ifs <;> first | omega | decide
  have h64 : hw n ≤ 64 := by rw [hw]; split_ifs <;> omega
  rw [key, signed_eq_iff h h1 x hx r k _ e, signed_same (by decide) h h1 x readAs
    fun k => (digit_hex_read (fun j => cutAt 4 x (4 * k + j)) (m := 4) (by decide) (by decide) (by omega)).2.1]
  refine and_congr (forall_congr' fun k => forall_congr' fun hk => ?_) Iff.rfl
  have hc : ∀ j, j < 4 → cutAt 4 x (4 * k + j) = sgnAt x (4 * k + j) := fun j hj => by
    rw [cutAt, if_pos ⟨by omega, by omega⟩]
  rw [digit4_congr hc, show min 4 (hw n - 4 * k) = 4 by omega]
  exact (digit_hex_read (fun j => sgnAt x (4 * k + j)) (m := 4) (by omega) (by omega) (by omega)).2.2

theorem digit_oct_read' (f : Nat → V4) {m : Nat} (h0 : 0 < m) (h3 : m ≤ 3) (hz : ∀ j, m ≤ j → j < 3 → (f j).isKnown = true) :
    ((∀ j, j < m → charBit (digit4 3 f) j = f j) ↔ SameDigit m f) := by
  have e : digit4 3 f = digit4 3 (ofL [f 0, f 1, f 2]) := digit4_congr fun j hj => by
    interval_cases j <;> rfl
  have key : ∀ m, m < 4 → 0 < m → ∀ a ∈ allV4, ∀ b ∈ allV4, ∀ c ∈ allV4,
      (∀ j, j < 3 → m ≤ j → (ofL [a, b, c] j).isKnown = true) → OctCase m (ofL [a, b, c]) := by decide +kernel
  have hf : ∀ j, j < 3 → ofL [f 0, f 1, f 2] j = f j := by intro j hj; interval_cases j <;> rfl
  obtain ⟨-, -, k3⟩ := key m (by omega) h0 (f 0) (mem_allV4 _) (f 1) (mem_allV4 _) (f 2) (mem_allV4 _)
    (fun j h2 h1 => by rw [hf j h2]; exact hz j h1 h2)
  rw [← e] at k3
  have c1 : (∀ j, j < m → charBit (digit4 3 f) j = ofL [f 0, f 1, f 2] j) ↔ ∀ j, j < m → charBit (digit4 3 f) j = f j :=
    forall_congr' fun j => forall_congr' fun hj => by rw [hf j (by omega)]
  have c2 : SameDigit m (ofL [f 0, f 1, f 2]) ↔ SameDigit m f := by
    refine or_congr ?_ (or_congr ?_ ?_) <;>
      exact forall_congr' fun j => forall_congr' fun hj => by rw [hf j (by omega)]
  rw [← c1, k3, c2]

/-- **C140, signed, exactly.** A canonical signed native object is read back from its octal text if and only if every digit (as
far as the C++ type has bits for it, the top one filled up with copies of the sign bit) is all x, all z or all known, and the sign bit
is clear unless the digits fill the C++ type. -/
theorem C140_signed_exact (h1 : 1 < n) (h : n ≤ 64) (x : Lg n true) (hx : x.Clean) :
    (∃ t, x.str ['o'] = .ok t ∧ Lg.ofString ('\'' :: 'o' :: t) = .ok x) ↔
      (∀ k, 3 * k < n → SameDigit (min 3 (hw n - 3 * k)) fun j => sgnAt x (3 * k + j)) ∧
      (3 * ((n + 2) / 3) < hw n → x.value.bv.msb = false) := by
  have htext : x.str ['o'] = .ok (digText n 3 (cutAt 3 x)) := signed_text h h1 x hx OutBase.o
  obtain ⟨r, k, hr, hk, e⟩ := limb_oct (body := digText n 3 (cutAt 3 x)) (fun c hc => (octText_mem hc).1)
    (by rw [digText_length]; omega)
  have hread := native_read (s := true) h (by decide) hr hk
  have key : (∃ t, x.str ['o'] = .ok t ∧ Lg.ofString ('\'' :: 'o' :: t) = .ok x) ↔
      (⟨Bits.mkN h ⟨tU64, r.toNat⟩, Bits.mkN h ⟨tU64, k.toNat⟩⟩ : Lg n true) = x := by
    constructor
    · rintro ⟨t, ht, hz⟩
      rw [htext] at ht
      obtain rfl := Except.ok.inj ht
      rw [hread] at hz
      exact Except.ok.inj hz
    · intro hxx
      exact ⟨_, htext, by rw [hread, hxx]⟩
  have hle := le_hw h
  have h64 : hw n ≤ 64 := by rw [hw]; split_ifs <;> omega
  have hts := signed_same (st := 3) (by decide) h h1 x id
    fun k => (digit_oct_read (fun j => cutAt 3 x (3 * k + j)) (m := 3) (by decide) (by decide) (by omega)).2.1
  rw [List.map_id] at hts
  rw [key, signed_eq_iff h h1 x hx r k _ e, hts]
  refine and_congr (forall_congr' fun k => forall_congr' fun hk => ?_) Iff.rfl
  have hc : ∀ j, j < min 3 (hw n - 3 * k) → cutAt 3 x (3 * k + j) = sgnAt x (3 * k + j) := fun j hj => by
    rw [cutAt, if_pos ⟨by omega, by omega⟩]
  have e1 := digit_oct_read' (fun j => cutAt 3 x (3 * k + j)) (m := min 3 (hw n - 3 * k)) (by omega) (by omega)
    fun j h1 h2 => by
      simp only [cutAt, sgnAt]
      split_ifs
      · omega
      · cases x.value.bv.msb <;> rfl
      · rfl
  have c1 : (∀ j, j < min 3 (hw n - 3 * k) → charBit (digit4 3 fun j => cutAt 3 x (3 * k + j)) j = cutAt 3 x (3 * k + j)) ↔
      ∀ j, j < min 3 (hw n - 3 * k) → charBit (digit4 3 fun j => cutAt 3 x (3 * k + j)) j = sgnAt x (3 * k + j) :=
    forall_congr' fun j => forall_congr' fun hj => by rw [hc j hj]
  have c2 : SameDigit (min 3 (hw n - 3 * k)) (fun j => cutAt 3 x (3 * k + j)) ↔
      SameDigit (min 3 (hw n - 3 * k)) fun j => sgnAt x (3 * k + j) := by
    refine or_congr ?_ (or_congr ?_ ?_) <;>
      exact forall_congr' fun j => forall_congr' fun hj => by beta_reduce; rw [hc j hj]
  exact c1.symm.trans (e1.trans c2)

/-- **C139, signed, refuted.** At every native width whose hexadecimal digits do not fill the C++ type (2 to 4, 9 to 12, 17 to 28
and 33 to 60 bits) no negative object is read back: the digits leave out the copies of the sign bit. -/
theorem C139_signed_refuted (h1 : 1 < n) (h : n ≤ 64) (hd : 4 * ((n + 3) / 4) < hw n) (x : Lg n true) (hx : x.Clean)
    (hneg : x.value.bv.msb = true) : ¬ ∃ t, x.str ['h'] = .ok t ∧ Lg.ofString ('\'' :: 'h' :: t) = .ok x := by
  rw [C139_signed_exact h1 h x hx]
  rintro ⟨-, H⟩
  rw [H hd] at hneg; cases hneg

/-- **C140, signed, refuted.** At every native width whose octal digits do not fill the C++ type (2 to 6, 9 to 15, 17 to 30 and 33 to 63
bits) no negative object is read back. -/
theorem C140_signed_refuted (h1 : 1 < n) (h : n ≤ 64) (hd : 3 * ((n + 2) / 3) < hw n) (x : Lg n true) (hx : x.Clean)
    (hneg : x.value.bv.msb = true) : ¬ ∃ t, x.str ['o'] = .ok t ∧ Lg.ofString ('\'' :: 'o' :: t) = .ok x := by
  rw [C140_signed_exact h1 h x hx]
  rintro ⟨-, H⟩
  rw [H hd] at hneg; cases hneg

example : (∀ n, n < 65 → 1 < n → (4 * ((n + 3) / 4) < hw n ↔ n ≤ 4 ∨ 9 ≤ n ∧ n ≤ 12 ∨ 17 ≤ n ∧ n ≤ 28 ∨ 33 ≤ n ∧ n ≤ 60)) ∧
    ∀ n, n < 65 → 1 < n → (3 * ((n + 2) / 3) < hw n ↔ n ≤ 6 ∨ 9 ≤ n ∧ n ≤ 15 ∨ 17 ≤ n ∧ n ≤ 30 ∨ 33 ≤ n ∧ n ≤ 63) := by
  constructor <;> intro n h h1 <;> rw [hw] <;> split_ifs <;> omega

-- the 8-bit -1 is printed as 777 and read back; the 7-bit -7 is printed as f9 and read as 59, which is another object
example : (∃ x : Lg 8 true, x = ⟨Bits.ofInt (-1), Bits.zero⟩ ∧ x.Clean ∧ x.str ['o'] = .ok "777".toList ∧
      Lg.ofString "'o777".toList = .ok x) ∧
    (∃ x : Lg 7 true, x = ⟨Bits.ofInt (-7), Bits.zero⟩ ∧ x.Clean ∧ x.str ['h'] = .ok "f9".toList ∧
      Lg.ofString "'hf9".toList ≠ .ok x) ∧
    (∃ x : Lg 7 true, x = ⟨Bits.ofInt (-7), Bits.zero⟩ ∧ x.Clean ∧ x.str ['o'] = .ok "771".toList ∧
      Lg.ofString "'o771".toList = .ok x) :=
  ⟨⟨_, rfl, by decide +kernel, by decide +kernel, by decide +kernel⟩,
    ⟨_, rfl, by decide +kernel, by decide +kernel, by decide +kernel⟩,
    ⟨_, rfl, by decide +kernel, by decide +kernel, by decide +kernel⟩⟩

end Verif
