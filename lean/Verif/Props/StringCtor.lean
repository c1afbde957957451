import Verif.Props.Parse
import Verif.Props.Convert
import Verif.Show

/-!
# C102: the value constructed from a numeric text

The constructors from a string (`include/logic/bit.hh` 1000-1006,
`include/logic/logic.hh` 1013-1022) store the parsed 64-bit word in the holder without masking to
the declared width. For a text without x/z digits the result is the very object that the
constructor from the integer gives, and so inherits what is right and wrong with it (C60).
-/

namespace Verif

variable {n : Nat} {s : Bool}

/-- the number written by the digits of a text in base `2 ^ st`, most significant digit first,
underscores skipped -/
def litNum (st : Nat) (body : List Char) : Nat := Nat.ofDigits (2 ^ st) ((digitsOf body).map charVal)

theorem charVal_lt {b : Char} {st : Nat} {body : List Char} (h : LimbOk b st body) :
    ∀ c ∈ digitsOf body, charVal c < 2 ^ st := by
  intro c hc
  cases h with
  | bin _ hb _ _ =>
    have h2 : ∀ c ∈ binChars, c ≠ '_' → charVal c < 2 ^ 1 := by decide +kernel
    exact h2 c (hb c (mem_digitsOf hc).1) (mem_digitsOf hc).2
  | oct _ hb _ =>
    have h2 : ∀ c ∈ octChars, c ≠ '_' → charVal c < 2 ^ 3 := by decide +kernel
    exact h2 c (hb c (mem_digitsOf hc).1) (mem_digitsOf hc).2
  | hex _ hb _ =>
    have h2 : ∀ c ∈ hexChars, c ≠ '_' → charVal c < 2 ^ 4 := by decide +kernel
    exact h2 c (hb c (mem_digitsOf hc).1) (mem_digitsOf hc).2

theorem litAt_num {st : Nat} {body : List Char} (hst : 0 < st) (hp : ∀ c ∈ body, c ∉ ['x', 'X', 'z', 'Z'])
    (hv : ∀ c ∈ digitsOf body, charVal c < 2 ^ st) (i : Nat) :
    litAt st body i = V4.mk ((litNum st body).testBit i) false := by
  rw [litNum, testBit_ofDigits hst _ (by simpa using hv), litAt, List.getElem?_map]
  cases e : (digitsOf body)[i / st]? with
  | none => rfl
  | some c =>
    have hm := hp c (mem_digitsOf (List.mem_of_getElem? e)).1
    simp only [List.mem_cons, List.not_mem_nil, or_false, not_or] at hm
    simp only [Option.map_some, charBit]
    rw [if_neg (by tauto), if_neg (by tauto)]
    cases (charVal c).testBit (i % st) <;> rfl

theorem limb_len {b : Char} {st : Nat} {body : List Char} (h : LimbOk b st body) :
    (digitsOf body).length * st ≤ 64 := by
  cases h with
  | bin _ _ h _ => omega
  | oct _ _ h => omega
  | hex _ _ h => rcases h with h | h <;> omega

/-- **C102, the object.** A native literal without x/z digits of any positional base: the
constructor from the text gives exactly the object that the constructor from the denoted
integer gives. -/
theorem C102_object (h64 : n ≤ 64) {pre mid body : List Char} {b : Char} {st : Nat}
    (hl : LitOk pre mid b) (h : LimbOk b st body) (hp : ∀ c ∈ body, c ∉ ['x', 'X', 'z', 'Z']) :
    Bits.ofString (lit pre mid b body) = .ok (Bits.ofInt (litNum st body) : Bits n s) ∧
    Lg.ofString (lit pre mid b body) = .ok (Lg.ofInt (litNum st body) : Lg n s) := by
  obtain ⟨p1, p2, -, -⟩ := C66_prefix hl body n
  have hst : 0 < st := by cases h <;> decide
  obtain ⟨r, k, hr, hk, e⟩ := limb_ok h
  have ha := litAt_num hst hp (charVal_lt h)
  have er : r.toNat = litNum st body := by
    apply Nat.eq_of_testBit_eq
    intro i
    rcases Nat.lt_or_ge i 64 with hi | hi
    · have := e i hi
      rw [ha, V4.mk_inj] at this
      rw [← this.1]; rfl
    · have h0 := litAt_ge hst (le_trans (limb_len h) hi)
      rw [ha] at h0
      rw [(V4.mk_eq_b0 h0).1]
      exact BitVec.getLsbD_of_ge r i hi
  have ek : k = 0 := by
    apply BitVec.eq_of_getLsbD_eq
    intro i hi
    have := e i hi
    rw [ha, V4.mk_inj] at this
    rw [this.2]; simp
  have m : ∀ (t : Bool) (N : Nat), (Bits.mkN h64 ⟨tU64, (N : Int)⟩ : Bits n t) = Bits.ofInt N := by
    intro t N
    rw [Bits.ofInt, dif_pos h64]
    rw [← Bits.mkN_nv h64 (Bits.mkN h64 ⟨tU64, (N : Int)⟩ : Bits n t), Bits.nv_mkN]
  constructor
  · rw [Bits.ofString, dif_pos h64, p1, hr]
    show Except.ok (Bits.mkN h64 ⟨tU64, (r.toNat : Int)⟩) = _
    rw [m, er]
  · rw [Lg.ofString, dif_pos h64, p1, p2, hr, hk]
    show Except.ok (⟨Bits.mkN h64 ⟨tU64, (r.toNat : Int)⟩, Bits.mkN h64 ⟨tU64, (k.toNat : Int)⟩⟩ : Lg n s) = _
    rw [m, m, er, ek]
    have hz : (Bits.ofInt ((0 : BitVec 64).toNat : Int) : Bits n false) = Bits.zero := by
      rw [← m, Bits.zero, dif_pos h64]
      rw [← Bits.mkN_nv h64 (Bits.mkN h64 ⟨tU64, _⟩ : Bits n false), Bits.nv_mkN]
      rw [← Bits.mkN_nv h64 (Bits.mkN h64 (TV.int 0) : Bits n false), Bits.nv_mkN]
      rfl
    rw [hz]; rfl

/-- **C102, exact.** Native widths from 2 on: the bits are the low `n` bits of the denoted number
`N`; the numeric conversion is `N` reduced to the *holder* type (8, 16, 32 or 64 bits), not to
the declared width; the value is canonical exactly when that reduction is the number that the
bits denote in the declared width and sign. -/
theorem C102_exact (h1 : 1 < n) (h64 : n ≤ 64) {pre mid body : List Char} {b : Char} {st : Nat}
    (hl : LitOk pre mid b) (h : LimbOk b st body) (hp : ∀ c ∈ body, c ∉ ['x', 'X', 'z', 'Z']) :
    ∃ z : Bits n s, Bits.ofString (lit pre mid b body) = .ok z ∧
      z.bv = BitVec.ofNat n (litNum st body) ∧
      z.toNum = (if s then (litNum st body : Int).bmod (2 ^ hw n) else litNum st body % 2 ^ hw n) ∧
      (z.Clean ↔ z.toNum = if s then (BitVec.ofNat n (litNum st body)).toInt
        else (BitVec.ofNat n (litNum st body)).toNat) := by
  have eb : (Bits.ofInt (litNum st body) : Bits n s).bv = BitVec.ofNat n (litNum st body) := by
    rw [C60_bits h1 h64, ofInt_natCast]
  have en : (Bits.ofInt (litNum st body) : Bits n s).toNum = (holderTy n s).conv (litNum st body) := by
    rw [Bits.toNum_eq h64, Bits.ofInt, dif_pos h64, Bits.nv_mkN]
    simp only
    rw [conv_conv]
  refine ⟨_, (C102_object h64 hl h hp).1, eb, ?_, ?_⟩
  · rw [en, holderTy_ge (by omega)]
    cases s
    · simp [CTy.conv]
    · rfl
  · rw [C60_clean_iff h1 h64, en, ofInt_natCast, numOf]
    cases s <;> simp [show ¬ n ≤ 1 by omega]

/-- **C102, partial.** A native literal whose number fits the declared width and sign (or any
literal when the width is that of a C++ type) gives the canonical value, equal to every value of
that number and convertible back to it. Not covered: literals with more digits than the width or
with the sign bit set, where it is false, see `C102_refuted`. -/
theorem C102_partial (h1 : 1 < n) (h64 : n ≤ 64) {pre mid body : List Char} {b : Char} {st : Nat}
    (hl : LitOk pre mid b) (h : LimbOk b st body) (hp : ∀ c ∈ body, c ∉ ['x', 'X', 'z', 'Z'])
    (hfit : Full n ∨ litNum st body < 2 ^ (if s then n - 1 else n)) :
    ∃ z : Bits n s, Bits.ofString (lit pre mid b body) = .ok z ∧ z.Clean ∧
      z.bv = BitVec.ofNat n (litNum st body) ∧
      z.toNum = (if s then (BitVec.ofNat n (litNum st body)).toInt else (BitVec.ofNat n (litNum st body)).toNat) ∧
      (¬ Full n → z.toNum = litNum st body) := by
  obtain ⟨z, hz, hb, hn, hc⟩ := C102_exact (s := s) h1 h64 hl h hp
  have hle := le_hw h64
  generalize litNum st body = N at *
  have key : z.toNum = (if s then (BitVec.ofNat n N).toInt else (BitVec.ofNat n N).toNat) ∧
      (¬ Full n → z.toNum = N) := by
    by_cases hf : Full n
    · have e := (Bits.full_iff (by omega) h64).1 hf
      refine ⟨?_, fun h => absurd hf h⟩
      rw [hn, e]
      cases s
      · simp [BitVec.toNat_ofNat]
      · rw [if_pos rfl, if_pos rfl, BitVec.toInt_ofNat']

    · have hN := hfit.resolve_left hf
      cases s
      · have h2 : N < 2 ^ hw n := lt_of_lt_of_le hN (Nat.pow_le_pow_right (by decide) hle)
        have e : z.toNum = N := by
          rw [hn]; simp [Int.emod_eq_of_lt, ← Nat.cast_pow]
          exact_mod_cast Nat.mod_eq_of_lt h2
        refine ⟨?_, fun _ => e⟩
        rw [e]
        simp only [Bool.false_eq_true, if_false, BitVec.toNat_ofNat] at hN ⊢
        rw [Nat.mod_eq_of_lt hN]
      · simp only [if_true] at hN
        have bm : ∀ w, n ≤ w → (N : Int).bmod (2 ^ w) = N := by
          intro w hw'
          have := CTy.conv_signed_of_mem (w := w) (a := N) (by omega)
            (by have : (0:Int) < 2 ^ (w - 1) := by positivity
                omega)
            (by exact_mod_cast lt_of_lt_of_le hN (Nat.pow_le_pow_right (by decide) (by omega)))
          exact this
        have e : z.toNum = N := by
          rw [hn, if_pos rfl]; exact bm _ hle
        refine ⟨?_, fun _ => e⟩
        rw [e, if_pos rfl, BitVec.toInt_ofNat']
        exact (bm n (le_refl n)).symm
  exact ⟨z, hz, hc.2 key.1, hb, key.1, key.2⟩

theorem digitsOf_replicate (k : Nat) {c : Char} (hc : c ≠ '_') : digitsOf (List.replicate k c) = List.replicate k c := by
  rw [digitsOf, List.filter_eq_self.2, List.reverse_replicate]
  intro a ha
  rw [List.eq_of_mem_replicate ha]; simpa using hc

theorem ofDigits_ones (k : Nat) : Nat.ofDigits 2 (List.replicate k 1) = 2 ^ k - 1 := by
  induction k with
  | zero => rfl
  | succ k ih =>
    have : 0 < 2 ^ k := by positivity
    rw [List.replicate_succ, Nat.ofDigits_cons, ih, pow_succ]; omega

theorem ofDigits_zeros (k : Nat) : Nat.ofDigits 2 (List.replicate k 0) = 0 := by
  induction k with
  | zero => rfl
  | succ k ih => rw [List.replicate_succ, Nat.ofDigits_cons, ih]

theorem litNum_ones (k : Nat) : litNum 1 (List.replicate k '1') = 2 ^ k - 1 := by
  rw [litNum, digitsOf_replicate k (by decide), List.map_replicate]
  exact ofDigits_ones k

theorem digitsOf_one_zeros (k : Nat) : digitsOf ('1' :: List.replicate k '0') = List.replicate k '0' ++ ['1'] := by
  have := digitsOf_replicate k (c := '0') (by decide)
  rw [digitsOf] at this ⊢
  rw [List.filter_cons_of_pos (by decide), List.reverse_cons, this]

theorem litNum_one_zeros (k : Nat) : litNum 1 ('1' :: List.replicate k '0') = 2 ^ k := by
  rw [litNum, digitsOf_one_zeros, List.map_append, List.map_replicate, Nat.ofDigits_append]
  have : Nat.ofDigits (2 ^ 1) (List.replicate k (charVal '0')) = 0 := ofDigits_zeros k
  rw [this, List.length_replicate]
  simp [charVal]

/-- **C102 is false of the code.** At every native width that is not that of a C++ type the text
`'b1...1` of `n` ones makes a signed value with all bits set that converts to `2^n - 1`, is not
negative, and is not equal to -1; the text `'b10...0` with `n` zeros makes an unsigned value with
all bits clear that is true as a condition and not equal to 0. -/
theorem C102_refuted (h1 : 1 < n) (h64 : n ≤ 64) (hf : ¬ Full n) :
    (∃ z : Bits n true, Bits.ofString ('\'' :: 'b' :: List.replicate n '1') = .ok z ∧ z.bv = -1 ∧
      z.toNum = 2 ^ n - 1 ∧ z.eq (Bits.ofInt (-1) : Bits n true) = false ∧ ¬ z.Clean) ∧
    (∃ z : Bits n false, Bits.ofString ('\'' :: 'b' :: '1' :: List.replicate n '0') = .ok z ∧ z.bv = 0 ∧
      z.toNum = 2 ^ n ∧ z.anySet = true ∧ z.eq (Bits.ofInt 0 : Bits n false) = false ∧ ¬ z.Clean) := by
  have hne : hw n ≠ n := fun e => hf ((Bits.full_iff (by omega) h64).2 e)
  have hle := le_hw h64
  have hlt : n < hw n := by omega
  have hn64 : n < 64 := by
    rcases Nat.lt_or_ge n 64 with h | h
    · exact h
    · exact absurd (by rw [show n = 64 by omega]; decide) hf
  have hl : LitOk [] [] 'b' := ⟨by simp, by simp, by decide⟩
  have p2 : 2 ^ n < 2 ^ hw n := Nat.pow_lt_pow_right (by omega) hlt
  have p3 : 2 ^ n ≤ 2 ^ (hw n - 1) := Nat.pow_le_pow_right (by omega) (by omega)
  have p0 : 0 < 2 ^ n := by positivity
  constructor
  · obtain ⟨z, hz, hb, hn, hc⟩ := C102_exact (s := true) h1 h64 (body := List.replicate n '1') hl
      (.bin (Or.inl rfl) (fun c h => by rw [List.eq_of_mem_replicate h]; decide)
        (by rw [digitsOf_replicate n (by decide), List.length_replicate]; omega)
        (fun i c h hx => by
          rw [digitsOf_replicate n (by decide)] at h
          have := List.eq_of_mem_replicate (List.mem_of_getElem? h)
          subst this; exact absurd hx (by decide)))
      (fun c h => by rw [List.eq_of_mem_replicate h]; decide)
    rw [litNum_ones] at hb hn hc
    have hn' : z.toNum = 2 ^ n - 1 := by
      rw [hn, if_pos rfl]
      have := CTy.conv_signed_of_mem (w := hw n) (a := ((2 ^ n - 1 : Nat) : Int)) (by omega)
        (by have : (0:Int) < 2 ^ (hw n - 1) := by positivity
            omega) (by exact_mod_cast (by omega : 2 ^ n - 1 < 2 ^ (hw n - 1)))
      rw [show (((2 ^ n - 1 : Nat) : Int)).bmod (2 ^ hw n) = _ from this]
      push_cast [Nat.cast_sub (show 1 ≤ 2 ^ n from p0)]
      rfl
    have hv : z.nv.v = 2 ^ n - 1 := by rw [← Bits.toNum_eq h64, hn']
    have hq : (0:Int) < 2 ^ n := by positivity
    refine ⟨z, hz, ?_, hn', ?_, ?_⟩
    · rw [hb, show (-1 : BitVec n) = BitVec.allOnes n from BitVec.neg_one_eq_allOnes]
      apply BitVec.eq_of_toNat_eq
      rw [BitVec.toNat_ofNat, BitVec.toNat_allOnes, Nat.mod_eq_of_lt (by omega)]
    · rw [Bits.eq_native h64 h64, Bits.nv_conv h64, hv, Bits.ofInt, dif_pos h64, Bits.nv_mkN, decide_eq_false_iff_not]
      simp only
      rw [conv_conv, holderTy_ge (by omega), CTy.conv_signed_of_mem (by omega)
        (by have : (1:Int) ≤ 2 ^ (hw n - 1) := by exact_mod_cast Nat.one_le_two_pow
            omega) (by have : (0:Int) < 2 ^ (hw n - 1) := by positivity
                       omega)]
      omega
    · rw [hc, hn', if_pos rfl]
      have := BitVec.toInt_lt (x := BitVec.ofNat n (2 ^ n - 1))
      have e : (2:Int) ^ n = 2 * 2 ^ (n - 1) := by rw [← pow_succ']; congr 1; omega
      have : (2:Int) ≤ 2 ^ (n - 1) := by
        exact_mod_cast (Nat.pow_le_pow_right (by decide) (show 1 ≤ n - 1 by omega) : 2 ^ 1 ≤ 2 ^ (n - 1))
      omega
  · have hm : ∀ c ∈ '1' :: List.replicate n '0', c = '1' ∨ c = '0' := by
      intro c h
      rcases List.mem_cons.1 h with h | h
      · exact Or.inl h
      · exact Or.inr (List.eq_of_mem_replicate h)
    obtain ⟨z, hz, hb, hn, hc⟩ := C102_exact (s := false) h1 h64 (body := '1' :: List.replicate n '0') hl
      (.bin (Or.inl rfl) (fun c h => by rcases hm c h with rfl | rfl <;> decide)
        (by rw [digitsOf_one_zeros]; simp; omega)
        (fun i c h hx => by
          have := (mem_digitsOf (List.mem_of_getElem? h)).1
          rcases hm c this with rfl | rfl <;> exact absurd hx (by decide)))
      (fun c h => by rcases hm c h with rfl | rfl <;> decide)
    rw [litNum_one_zeros] at hb hn hc
    have hn' : z.toNum = 2 ^ n := by
      rw [hn, if_neg (by decide)]
      exact_mod_cast Nat.mod_eq_of_lt p2
    have hv : z.nv.v = 2 ^ n := by rw [← Bits.toNum_eq h64, hn']
    have hq : (0:Int) < 2 ^ n := by positivity
    have hb0 : z.bv = 0 := by
      rw [hb]; apply BitVec.eq_of_toNat_eq; simp
    refine ⟨z, hz, hb0, hn', ?_, ?_, ?_⟩
    · rw [Bits.anySet, dif_pos h64, bne_iff_ne, hv]; omega
    · rw [Bits.eq_native h64 h64, Bits.nv_conv h64, hv, Bits.ofInt, dif_pos h64, Bits.nv_mkN, decide_eq_false_iff_not]
      simp only
      rw [conv_conv, holderTy_ge (by omega), CTy.conv_unsigned_of_lt (by omega) (by positivity)]
      omega
    · rw [hc, hn', if_neg (by decide), ← hb, hb0]
      simp

/-- a 5-bit signed value: the text of -1 and of 7 -/
example : (Bits.ofString "5'b11111".toList : Res (Bits 5 true)).map (fun z => (z.toNum, z.bv)) = .ok (31, 31#5) ∧
    (Bits.ofString "5'b0_0111".toList : Res (Bits 5 true)).map (fun z => z.toNum) = .ok 7 := by decide +kernel

end Verif
