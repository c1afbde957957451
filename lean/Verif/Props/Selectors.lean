import Verif.Props.Programs
import Verif.Props.Reduction
import Verif.Props.Tristate

/-!
# Shifters, decoders, parity (C184 to C186)

Client programs: a shifter in stages of powers of two, a decoder and a priority encoder, and a
parity check. They call the models of `bit.hh` `operator<<`, `operator[]`, `highest_bit` and of
`logic.hh` `operator^` and `r_xor` (lines 515-527).
-/

namespace Verif

variable {n m : Nat} {s t : Bool}

/-! ## C184: a shifter in stages -/

/-- `if (a[k]) x = x << bit<31, 0>(2^k)` -/
def Bits.stage (a : Bits m t) (k : Nat) (x : Bits n false) : Res (Bits n false) :=
  (a.get (Rng.down m) k).bind fun c => if c then x.shl (amount (2 ^ k)) else .ok x

/-- all stages, one for each bit of the amount -/
def Bits.barrel (x : Bits n false) (a : Bits m t) : Res (Bits n false) := loopM 0 m x (Bits.stage a)

/-- **C184.** For every amount below the number of bits of the promoted holder (32 or 64) at native widths,
and for every amount at wide widths, the shifter in stages gives the bits of the shift by the whole
amount, and never faults. -/
theorem C184_shift (h1 : 1 < n) (hN : n ≤ 2 ^ 32) (hm : 0 < m) (hM : m ≤ 31) (x : Bits n false) (a : Bits m t)
    (ha : n ≤ 64 → a.bv.toNat < if n ≤ 32 then 32 else 64) :
    ∃ z, x.barrel a = .ok z ∧ z.bv = x.bv <<< a.bv.toNat := by
  obtain ⟨z, hz, e⟩ := loopM_induct 0 m x (Bits.stage a)
    (fun i (y : Bits n false) => y.bv = x.bv <<< (a.bv.toNat % 2 ^ i)) (Nat.zero_le m)
    (by rw [pow_zero, Nat.mod_one, BitVec.shiftLeft_zero])
    (by
      rintro i y - hi h
      have hbit : a.bv.toNat % 2 ^ (i + 1) = a.bv.toNat % 2 ^ i + 2 ^ i * (a.bv.getLsbD i).toNat := by
        rw [Nat.mod_pow_succ, BitVec.getLsbD, Nat.toNat_testBit]
      rw [Bits.stage, C01_read hm (by omega) a i hi, res_bind_ok]
      cases hc : a.bv.getLsbD i
      · refine ⟨y, rfl, ?_⟩
        rw [hbit, hc]; simpa using h
      · have h32 : 2 ^ i < 2 ^ 32 := Nat.pow_lt_pow_right (by decide) (by omega)
        obtain ⟨ca, na⟩ := amount_spec (i := 2 ^ i) h32
        have hle : 2 ^ i ≤ a.bv.toNat := Nat.ge_two_pow_of_testBit hc
        obtain ⟨z, hz, e⟩ := C25_shl_partial hN y (amount (2 ^ i)) ca (2 ^ i) na
          (fun h64 => ⟨by decide, h1, lt_of_le_of_lt hle (ha h64)⟩)
        refine ⟨z, hz, ?_⟩
        rw [e, h, hbit, hc]
        simp only [Bool.toNat_true, Nat.mul_one]
        rw [BitVec.shiftLeft_add])
  refine ⟨z, hz, ?_⟩
  rw [e, Nat.mod_eq_of_lt a.bv.isLt]

/-! ## C185: decoder and encoder -/

/-- `bit<n-1, 0>(1) << a` -/
def Bits.decode (n : Nat) (a : Bits m t) : Res (Bits n false) := (Bits.ofInt 1 : Bits n false).shl a

/-- `r = -1; for (i = 0; i < n; i++) if (y[i]) r = i;` -/
def Bits.encode (y : Bits n s) : Res Int :=
  loopM 0 n (-1) fun i r => (y.get (Rng.down n) i).map fun c => if c then i else r

/-- **C185, the encoder.** At every width, signed or not, the loop gives the index of the highest one, and -1
for 0. -/
theorem C185_encode (hn : 0 < n) (hN : n ≤ 2 ^ 32) (y : Bits n s) :
    ∃ r, y.encode = .ok r ∧ (y.bv = 0 → r = -1) ∧
      (y.bv ≠ 0 → ∃ i, r = (i : Nat) ∧ i < n ∧ y.bv.getLsbD i = true ∧ ∀ j, i < j → y.bv.getLsbD j = false) := by
  obtain ⟨r, hr, h⟩ : ∃ r, y.encode = .ok r ∧ _ := loopM_induct 0 n (-1) _
    (fun k (r : Int) => (r = -1 ∧ ∀ j, j < k → y.bv.getLsbD j = false) ∨
      ∃ i, r = (i : Nat) ∧ i < k ∧ y.bv.getLsbD i = true ∧ ∀ j, i < j → j < k → y.bv.getLsbD j = false)
    (Nat.zero_le n) (Or.inl ⟨rfl, by simp⟩)
    (by
      rintro i r - hi h
      simp only [C01_read hn hN y i hi, res_map_ok]
      cases hc : y.bv.getLsbD i
      · refine ⟨_, rfl, ?_⟩
        rcases h with ⟨h1, h2⟩ | ⟨k, h1, h2, h3, h4⟩
        · refine Or.inl ⟨by simpa using h1, fun j hj => ?_⟩
          rcases Nat.lt_succ_iff_lt_or_eq.1 hj with hj | rfl
          · exact h2 j hj
          · exact hc
        · refine Or.inr ⟨k, by simpa using h1, by omega, h3, fun j hk hj => ?_⟩
          rcases Nat.lt_succ_iff_lt_or_eq.1 hj with hj | rfl
          · exact h4 j hk hj
          · exact hc
      · exact ⟨_, rfl, Or.inr ⟨i, by simp, by omega, hc, fun j h1 h2 => by omega⟩⟩)
  refine ⟨r, hr, fun h0 => ?_, fun h0 => ?_⟩
  · rcases h with ⟨h1, -⟩ | ⟨i, -, -, h3, -⟩
    · exact h1
    · rw [h0] at h3; simp at h3
  · rcases h with ⟨-, h2⟩ | ⟨i, h1, h2, h3, h4⟩
    · exact absurd (BitVec.eq_of_getLsbD_eq (fun i hi => by rw [h2 i hi]; simp)) h0
    · refine ⟨i, h1, h2, h3, fun j hj => ?_⟩
      by_cases hjn : j < n
      · exact h4 j hj hjn
      · exact BitVec.getLsbD_of_ge _ _ (by omega)

/-- **C185, encoder against `highest_bit`.** On canonical values other than 0 that `highest_bit` handles (`C96_highest_bit_partial`)
both give the same index. Missing: negative native numbers of other widths than 64 bits, which `highest_bit` does not handle,
and 0. -/
theorem C185_highest_bit_partial (hn : 0 < n) (hN : n ≤ 2 ^ 32) (y : Bits n s) (hy : y.Clean) (h0 : y.bv ≠ 0)
    (hs : n ≤ 64 → s = true → 1 < n → y.bv.msb = false ∨ n = 64) : y.encode = .ok (y.highestBit : Int) := by
  obtain ⟨h1, h2, h3⟩ := C96_highest_bit_partial y hy h0 hs
  obtain ⟨r, hr, -, h⟩ := C185_encode hn hN y
  obtain ⟨i, e, hi, hb, ha⟩ := h h0
  rw [hr, e]
  congr 2
  rcases Nat.lt_trichotomy i y.highestBit with c | c | c
  · rw [ha _ c] at h2; cases h2
  · exact c
  · rw [h3 _ c] at hb; cases hb

/-- **C185, round trip.** The decoder sets exactly bit `a` and the encoder gives `a` back, for every vector of
more than one bit and every amount below its width. -/
theorem C185_round_trip (h1 : 1 < n) (hN : n ≤ 2 ^ 32) (hm : n ≤ 64 → m ≤ 64) (a : Bits m t) (ha : a.Clean) (k : Nat)
    (hk : numOf t a.bv = k) (hkn : k < n) :
    ∃ y, Bits.decode n a = .ok y ∧ (∀ j, y.bv.getLsbD j = decide (j = k)) ∧ y.encode = .ok (k : Int) := by
  have one : ∀ j, (Bits.ofInt 1 : Bits n false).bv.getLsbD j = decide (j = 0) := by
    intro j
    by_cases h : n ≤ 64
    · rw [C60_bits h1 h, show (1 : Int) = ((1 : Nat) : Int) from rfl, BitVec.ofInt_natCast, BitVec.getLsbD_ofNat]
      by_cases hj : j = 0
      · subst hj; simp; omega
      · simp [hj, Nat.testBit_lt_two_pow (Nat.one_lt_two_pow hj)]
    · rw [C60_wide (by omega), show (1 : Int) = ((1 : Nat) : Int) from rfl, BitVec.ofInt_natCast, BitVec.getLsbD_setWidth,
        BitVec.getLsbD_ofNat]
      by_cases hj : j = 0
      · subst hj; simp; omega
      · simp [hj, Nat.testBit_lt_two_pow (Nat.one_lt_two_pow hj)]
  obtain ⟨y, hy, e⟩ := C25_shl_partial hN (Bits.ofInt 1 : Bits n false) a ha k hk
    (fun h64 => ⟨hm h64, h1, by split_ifs <;> omega⟩)
  have ey : ∀ j, y.bv.getLsbD j = decide (j = k) := by
    intro j
    rw [e, BitVec.getLsbD_shiftLeft, one]
    by_cases c : j = k
    · subst c; simp [hkn]
    · by_cases d : j < k
      · simp [d, c]
      · simp [c]; omega
  refine ⟨y, hy, ey, ?_⟩
  obtain ⟨r, hr, -, h⟩ := C185_encode (by omega) hN y
  obtain ⟨i, er, hi, hb, hj⟩ := h (fun c => by have := ey k; rw [c] at this; simp at this)
  rw [ey, decide_eq_true_iff] at hb
  rw [hr, er, hb]

/-! ## C186: parity -/

theorem count_xor_parity (l : List Nat) (f g h : Nat → V4) (hf : ∀ i ∈ l, (f i).isKnown = true)
    (hg : ∀ i ∈ l, (g i).isKnown = true) (hh : ∀ i ∈ l, h i = V4.xor (f i) (g i)) :
    (l.map h).count .b0 % 2 = ((l.map f).count .b0 + (l.map g).count .b1) % 2 := by
  induction l with
  | nil => rfl
  | cons a l ih =>
    have ih := ih (fun i hi => hf i (List.mem_cons_of_mem _ hi)) (fun i hi => hg i (List.mem_cons_of_mem _ hi))
      (fun i hi => hh i (List.mem_cons_of_mem _ hi))
    have h1 := hf a List.mem_cons_self
    have h2 := hg a List.mem_cons_self
    simp only [List.map_cons, List.count_cons, hh a List.mem_cons_self]
    revert h1 h2
    cases f a <;> cases g a <;> simp [V4.isKnown, V4.known?, V4.xor] <;> omega

/-- **C186.** The parity check by `r_xor` finds exactly the errors in an odd number of bits, at every
width of 2 to 64 bits, the odd widths included at which `r_xor` itself is the negated parity
(`C19_refuted`): if the bits of `e` are flipped in a word without x and z, `r_xor` changes exactly if `e` has an
odd number of ones; and if the word or the error has an x or z, the check gives x. One bit and wide
vectors are not covered, since `r_xor` does not compile for them. -/
theorem C186_parity (h : n ≤ 64) (h1 : 1 < n) (w e : Lg n false) (hw : w.Clean) (he : e.Clean) :
    ∃ z, w.xor e = .ok z ∧
      ((∀ i, i < n → (w.at i).isKnown = true ∧ (e.at i).isKnown = true) →
        ∃ p : Bool, w.rXor.at 0 = V4.ofBool p ∧
          z.rXor.at 0 = V4.ofBool (p ^^ decide (e.list.count .b1 % 2 = 1))) ∧
      ((∃ i, i < n ∧ ((w.at i).isKnown = false ∨ (e.at i).isKnown = false)) → z.rXor.at 0 = .x) := by
  obtain ⟨z, hz, hv, hk⟩ := Lg.xor_ok (show 0 < n by omega) w e
  obtain ⟨z', hz', ez⟩ := C08_xor_table (show 0 < n by omega) w e
  rw [hz] at hz'
  obtain rfl := Except.ok.inj hz'
  have cz : Lg.Clean z := by
    refine ⟨(Bits.clean_unsigned_iff _).2 fun i hi => ?_, (Bits.clean_unsigned_iff _).2 fun i hi => ?_⟩
    · rw [hv]; simp; omega
    · rw [hk, (Bits.clean_unsigned_iff _).1 hw.2 i hi, (Bits.clean_unsigned_iff _).1 he.2 i hi]; rfl
  refine ⟨z, hz, fun hkn => ?_, fun hx => ?_⟩
  · have nk : ∀ x : Lg n false, (∀ i, i < n → (x.at i).isKnown = true) → ¬ ∃ a ∈ x.list, a.isKnown = false := by
      rintro x hx ⟨a, ha, hf⟩
      obtain ⟨i, hi, rfl⟩ := (Lg.mem_list _ _).1 ha
      rw [hx i hi] at hf; cases hf
    have kz : ∀ i, i < n → (z.at i).isKnown = true := fun i hi => by
      rw [ez i hi]
      have := hkn i hi
      revert this
      cases w.at i <;> cases e.at i <;> simp [V4.isKnown, V4.known?, V4.xor]
    refine ⟨decide (w.list.count .b0 % 2 = 1), ?_, ?_⟩
    · rw [C19_xor_partial h h1 w hw, if_neg (nk w fun i hi => (hkn i hi).1)]
    · rw [C19_xor_partial h h1 z cz, if_neg (nk z kz)]
      have := count_xor_parity (List.range n) w.at e.at z.at (fun i hi => (hkn i (List.mem_range.1 hi)).1)
        (fun i hi => (hkn i (List.mem_range.1 hi)).2) (fun i hi => ez i (List.mem_range.1 hi))
      congr 1
      change z.list.count .b0 % 2 = (w.list.count .b0 + e.list.count .b1) % 2 at this
      rw [this]
      rcases Nat.mod_two_eq_zero_or_one (w.list.count .b0) with c | c <;>
        rcases Nat.mod_two_eq_zero_or_one (e.list.count .b1) with d | d <;> simp [c, d, Nat.add_mod]
  · obtain ⟨i, hi, hx⟩ := hx
    have hf : (z.at i).isKnown = false := by
      rw [ez i hi]
      revert hx
      cases w.at i <;> cases e.at i <;> simp [V4.isKnown, V4.known?, V4.xor]
    rw [C19_xor_partial h h1 z cz, if_pos ⟨z.at i, (Lg.mem_list _ _).2 ⟨i, hi, rfl⟩, hf⟩]

-- shift by 13 in stages 1, 4 and 8
example : ((Bits.ofInt 5 : Bits 24 false).barrel (Bits.ofInt 13 : Bits 5 false)).map (·.bv.toNat) = .ok (5 * 2 ^ 13) := by
  decide +kernel
-- the decoder of 5 bits for 3, and back
example : ((Bits.decode 5 (Bits.ofInt 3 : Bits 3 false)).bind (·.encode)) = .ok 3 := by decide +kernel
-- a flipped bit in a word of 5 bits
example : ((Lg.ofInt 9 : Lg 5 false).xor (Lg.ofInt 4 : Lg 5 false)).map (fun z => z.rXor.at 0) = .ok .b0 ∧
    (Lg.ofInt 9 : Lg 5 false).rXor.at 0 = .b1 := by decide +kernel

end Verif
