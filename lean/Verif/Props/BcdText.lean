import Verif.Props.Bcd
import Verif.Props.Format
import Verif.Props.FormatWide
import Verif.Props.WideDivSign

/-!
# A program: decimal text through the shift-and-add-three register (C206)

`logic<4*m-1, 0>(d).str("h")` of the register of C201 is the decimal text of the number, for numbers of any
width; `str("d")` itself is right only below `2^128` (C76).
-/

namespace Verif

variable {n m : Nat}

/-- the decimal numeral of `v` with `m` digits, leading zeros included, the digits above cut off -/
def padded (m v : Nat) : List Char :=
  (List.range m).reverse.map fun k => "0123456789".toList.getD (v / 10 ^ k % 10) '0'

/-- a numeral of exactly `m` digits is the numeral itself -/
theorem padded_eq {v : Nat} (h0 : 0 < v) (hm : (Nat.digits 10 v).length = m) : padded m v = numeral v := by
  rw [padded, numeral, if_neg (by omega), List.map_reverse, List.map_reverse]
  congr 1
  apply List.ext_getElem (by simp [hm])
  intro i h1 h2
  rw [List.getElem_map, List.getElem_map, List.getElem_range]
  have h2 : i < (Nat.digits 10 v).length := by simpa using h2
  have := Nat.getD_digits v i (b := 10) (by decide)
  rw [List.getD_eq_getElem?_getD, List.getElem?_eq_getElem h2, Option.getD_some] at this
  rw [this]

theorem Bits.bcdStep_clean (hm : 64 < 4 * m) (hN : 4 * m ≤ 2 ^ 31) (x : Bits n false) (i : Nat) {d e : Bits (4 * m) false}
    (h : x.bcdStep i d = .ok e) : e.Clean := by
  have hn : ¬ 4 * m ≤ 64 := by omega
  rw [Bits.bcdStep] at h
  cases h1 : (loopM 0 m d fun k d => d.bcdAdjust k) with
  | error f => rw [h1] at h; cases h
  | ok d1 =>
    rw [h1, res_bind_ok, Bits.shl, dif_neg hn] at h
    rw [dif_pos (by decide), res_bind_ok] at h
    cases h2 : x.get (Rng.down n) i with
    | error f => rw [h2] at h; cases h
    | ok b =>
      rw [h2, res_bind_ok] at h
      obtain ⟨y, hy, hr⟩ := Bits.set_phys (Rng.down (4 * m)) (.big hn (((d1.bg hn).shl (amount 1).amtU64).toSign (false && false))) (0 : Nat) 0
        (by rw [Bits.physIdx_down (by omega), Rng.lo_down (by omega)]; simp) (by omega) (by omega) b
      rw [hy] at h
      rw [← Except.ok.inj h]
      refine Bits.clean_wide_of hm ((Bits.clean_big hn _).2 ?_) (fun j hj => ?_) (x := .big hn (((d1.bg hn).shl (amount 1).amtU64).toSign (false && false)))
      · exact (Big.clean_toSign _).2 (Big.clean_shl _ _)
      · rw [hr, if_neg (by omega)]

theorem Bits.bcd_clean (hn : 0 < n) (hm : 64 < 4 * m) (hN : 4 * m ≤ 2 ^ 31) (x : Bits n false) {d : Bits (4 * m) false}
    (h : x.bcd m = .ok d) : d.Clean := by
  have key : ∀ k, ∀ d e : Bits (4 * m) false, x.bcdFrom (k + 1) d = .ok e → e.Clean := by
    intro k
    induction k with
    | zero =>
      intro d e h
      rw [Bits.bcdFrom] at h
      cases h1 : x.bcdStep 0 d with
      | error f => rw [h1] at h; cases h
      | ok d1 =>
        rw [h1, res_bind_ok, Bits.bcdFrom] at h
        rw [← Except.ok.inj h]
        exact Bits.bcdStep_clean hm hN x 0 h1
    | succ k ih =>
      intro d e h
      rw [Bits.bcdFrom] at h
      cases h1 : x.bcdStep (k + 1) d with
      | error f => rw [h1] at h; cases h
      | ok d1 => rw [h1, res_bind_ok] at h; exact ih _ _ h
  obtain ⟨k, hk⟩ : ∃ k, n = k + 1 := ⟨n - 1, by omega⟩
  refine key k Bits.zero d ?_
  rw [← h, Bits.bcd]
  congr 1
  exact hk.symm

theorem digit4_decimal {f : Nat → V4} {v : Nat} (hv : v < 10) (hf : ∀ j, j < 4 → f j = V4.mk (v.testBit j) false) :
    digit4 4 f = "0123456789".toList.getD v '0' := by
  rw [digit4_congr hf]
  have : ∀ v, v < 10 → (digit4 4 fun j => V4.mk (v.testBit j) false) = "0123456789".toList.getD v '0' := by decide +kernel
  exact this v hv

theorem Bits.bcd_digits (x : Bits n false) (d : Bits (4 * m) false)
    (hD : ∀ k, k < m → d.bv.toNat / 16 ^ k % 16 = x.bv.toNat / 10 ^ k % 10) {c : Nat} (hc : c ≤ m) :
    ((List.range c).reverse.map fun k => digit4 4 fun j => (Lg.ofBits d : Lg (4 * m) false).at (4 * k + j)) =
      padded c x.bv.toNat := by
  rw [padded]
  apply List.map_congr_left
  intro k hk
  have hk : k < c := by simpa using hk
  apply digit4_decimal (Nat.mod_lt _ (by decide))
  intro j hj
  rw [← hD k (by omega), Lg.at, Lg.ofBits, Bits.bv_toSign, Bits.bv_zero]
  congr 1
  · rw [show (16 : Nat) = 2 ^ 4 from rfl, Nat.testBit_mod_two_pow, ← Nat.pow_mul, Nat.testBit_div_two_pow, BitVec.getLsbD]
    simp [hj, Nat.add_comm]
  · simp

/-- the digits above the lowest `a` of a number below `10^a` -/
theorem padded_add (a c v : Nat) : padded (a + c) (v % 10 ^ a) = List.replicate c '0' ++ padded a v := by
  rw [padded, List.range_add, List.reverse_append, List.map_append]
  congr 1
  · rw [List.eq_replicate_iff]
    refine ⟨by simp, fun ch hch => ?_⟩
    simp only [List.mem_map, List.mem_reverse, List.mem_range] at hch
    obtain ⟨k, ⟨i, hi, rfl⟩, rfl⟩ := hch
    rw [Nat.div_eq_of_lt (lt_of_lt_of_le (Nat.mod_lt _ (by positivity)) (pow_le_pow_right₀ (by decide) (by omega)))]
    rfl
  · rw [padded]
    apply List.map_congr_left
    intro k hk
    have hk : k < a := by simpa using hk
    congr 1
    obtain ⟨e, rfl⟩ : ∃ e, a = k + (e + 1) := ⟨a - k - 1, by omega⟩
    rw [Nat.pow_add, Nat.mod_mul_right_div_self, Nat.pow_succ, Nat.mod_mod_of_dvd _ (Nat.dvd_mul_left _ _)]

/-- **C206, partial.** The hexadecimal text of the register is the decimal numeral of the number with
`m` digits; it is the numeral itself when the number has `m` digits. Missing: registers of a multiple of
64 bits above 64, see `C206_text_refuted`. -/
theorem C206_text_partial (hn : 0 < n) (hn' : n ≤ 2 ^ 32) (hm : 0 < m) (hN : 4 * m ≤ 2 ^ 31) (h16 : m ≤ 16 ∨ m % 16 ≠ 0)
    (x : Bits n false) {b : Char} (hb : OutBase b 4) :
    ∃ d, x.bcd m = .ok d ∧ (Lg.ofBits d : Lg (4 * m) false).str [b] = .ok (padded m x.bv.toNat) ∧
      ((Nat.digits 10 x.bv.toNat).length = m → (Lg.ofBits d : Lg (4 * m) false).str [b] = .ok (numeral x.bv.toNat)) := by
  obtain ⟨d, hd, hD⟩ := C201_digits hn hn' hm hN x
  have key : (Lg.ofBits d : Lg (4 * m) false).str [b] = .ok (padded m x.bv.toNat) := by
    have ht : (Lg.ofBits d : Lg (4 * m) false).str [b] =
        .ok ((List.range m).reverse.map fun k => digit4 4 fun j => (Lg.ofBits d : Lg (4 * m) false).at (4 * k + j)) := by
      by_cases h : 4 * m ≤ 64
      · rw [C74_digits h _ hb (Or.inl ⟨m, rfl⟩), show (4 * m + 4 - 1) / 4 = m by omega]
      · have hc : (Lg.ofBits d : Lg (4 * m) false).Clean := by
          refine ⟨Bits.clean_toSign_wide (by omega) (Bits.bcd_clean hn (by omega) hN x hd), Bits.clean_zero⟩
        rw [C76_hex_partial h (by omega) _ hc hb (by decide), show (4 * m + 4 - 1) / 4 = m by omega]
    rw [ht, Bits.bcd_digits x d hD (Nat.le_refl m)]
  refine ⟨d, hd, key, fun hl => ?_⟩
  have h0 : 0 < x.bv.toNat := by
    rcases Nat.eq_zero_or_pos x.bv.toNat with h | h
    · rw [h] at hl; simp at hl; omega
    · exact h
  rw [key, padded_eq h0 hl]

example : (((Bits.ofInt 0xBEEF : Bits 16 false).bcd 5).bind fun d => (Lg.ofBits d : Lg (4 * 5) false).str ['h']) =
    .ok ['4', '8', '8', '7', '9'] := by decide +kernel

/-- **C206, the missing case**: at every multiple of 64 above 64 the sixteen leading digits are printed as 0, so
the text is wrong for every number that needs one of them. -/
theorem C206_text_refuted (hn : 0 < n) (hn' : n ≤ 2 ^ 32) (hm : 16 < m) (hN : 4 * m ≤ 2 ^ 31) (h16 : m % 16 = 0)
    (x : Bits n false) {b : Char} (hb : OutBase b 4) :
    ∃ d, x.bcd m = .ok d ∧ (Lg.ofBits d : Lg (4 * m) false).str [b] = .ok (padded m (x.bv.toNat % 10 ^ (m - 16))) := by
  obtain ⟨d, hd, hD⟩ := C201_digits hn hn' (by omega) hN x
  refine ⟨d, hd, ?_⟩
  have hc : (Lg.ofBits d : Lg (4 * m) false).Clean :=
    ⟨Bits.clean_toSign_wide (by omega) (Bits.bcd_clean hn (by omega) hN x hd), Bits.clean_zero⟩
  rw [C76_hex_exact (by omega) _ hc hb (by decide), if_pos (by omega), show (4 * m - 64) / 4 = m - 16 by omega,
    Bits.bcd_digits x d hD (by omega)]
  have := padded_add (m - 16) 16 x.bv.toNat
  rw [show m - 16 + 16 = m by omega] at this
  rw [this]

/-- `10^20` in a register of 32 digits: the leading digit is lost -/
example : padded 32 (10 ^ 20 % 10 ^ 16) ≠ padded 32 (10 ^ 20) := by decide +kernel

end Verif
