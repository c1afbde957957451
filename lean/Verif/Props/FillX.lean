import Verif.Props.Extend
import Verif.Props.Parse

/-!
# x and z as fill bits (C134, C135)

IEEE 1800 repeats the sign bit of a signed vector when it is extended, also if it is x or z, and
fills a literal that is shorter than its width with x or z if its leftmost digit is one.
-/

namespace Verif

variable {n m : Nat} {s t : Bool}

/-! ## C134 -/

/-- the extension of IEEE 1800 of a signed vector -/
def signFill (x : Lg n true) (i : Nat) : V4 := if i < n then x.at i else x.at (n - 1)

/-- **C134, exactly, up to 64 bits**: the new bits are 1 if the sign bit is 1 or z, and 0 if it is
0 or x. -/
theorem C134_native_exact (h1 : 1 < n) (h : n ≤ m) (h64 : n ≤ 64) (x : Lg n true) (hx : x.Clean) (i : Nat) (hi : i < m) :
    (x.extend m).at i = if i < n then x.at i
      else match x.at (n - 1) with | .b1 => .b1 | .z => .b1 | .b0 => .b0 | .x => .b0 := by
  rw [Lg.extend_at (by omega) h x hx (by omega) hi, extAt]
  by_cases hin : i < n
  · rw [if_pos hin, if_pos hin]
  · rw [if_neg hin, if_neg hin, Lg.at, BitVec.msb_eq_getLsbD_last]
    simp only [show decide (n ≤ 1) = false by simpa using h1, Bool.not_false, Bool.and_true, Bool.true_and]
    cases x.value.bv.getLsbD (n - 1) <;> cases x.xz.bv.getLsbD (n - 1) <;> rfl

/-- **C134, exactly, above 64 bits**: every new bit is 1. -/
theorem C134_wide_exact (h64 : 64 < n) (h : n ≤ m) (x : Lg n true) (hx : x.Clean) (i : Nat) (hi : i < m) :
    (x.extend m).at i = if i < n then x.at i else .b1 := by
  by_cases hnm : n = m
  · subst hnm
    rw [if_pos hi]
    show V4.mk ((x.value.extend n).bv.getLsbD i) ((x.xz.extend n).bv.getLsbD i) = _
    rw [Bits.extend_self, Bits.extend_self]; rfl
  · show V4.mk ((x.value.extend m).bv.getLsbD i) ((x.xz.extend m).bv.getLsbD i) = _
    rw [Bits.extend_wide_signed (by omega) (by omega) x.value i hi, (C47_zero_extend_partial (by omega) h x.xz hx.2).2.2 i hi]
    by_cases hin : i < n
    · simp only [if_pos hin]; rfl
    · simp only [if_neg hin]; rfl

/-- **C134, partial.** The extension is that of IEEE 1800 exactly when the sign bit is 0 or 1 (up
to 64 bits), or 1 (above), or there are no new bits. Missing: the other sign bits, for which it is
false (`C134_native_exact`, `C134_wide_exact`, `C134_refuted_all`). -/
theorem C134_iff_partial (h1 : 1 < n) (h : n ≤ m) (x : Lg n true) (hx : x.Clean) :
    (∀ i, i < m → (x.extend m).at i = signFill x i) ↔
      n = m ∨ x.at (n - 1) = .b1 ∨ (n ≤ 64 ∧ x.at (n - 1) = .b0) := by
  by_cases hnm : n = m
  · subst hnm
    refine ⟨fun _ => Or.inl rfl, fun _ i hi => ?_⟩
    show V4.mk ((x.value.extend n).bv.getLsbD i) ((x.xz.extend n).bv.getLsbD i) = _
    rw [Bits.extend_self, Bits.extend_self, signFill, if_pos hi]; rfl
  · by_cases h64 : n ≤ 64
    · constructor
      · intro hh
        have := hh n (by omega)
        rw [C134_native_exact h1 h h64 x hx n (by omega), signFill, if_neg (by omega), if_neg (by omega)] at this
        revert this
        cases x.at (n - 1) <;> simp [h64]
      · rintro (hh | hh | ⟨-, hh⟩) i hi
        · exact absurd hh hnm
        all_goals rw [C134_native_exact h1 h h64 x hx i hi, signFill, hh]
    · constructor
      · intro hh
        have := hh n (by omega)
        rw [C134_wide_exact (by omega) h x hx n (by omega), signFill, if_neg (by omega), if_neg (by omega)] at this
        exact Or.inr (Or.inl this.symm)
      · rintro (hh | hh | ⟨hh, -⟩) i hi
        · exact absurd hh hnm
        · rw [C134_wide_exact (by omega) h x hx i hi, signFill, hh]
        · exact absurd hh h64

theorem clean_zero_raw {x : Bits n s} (h : ∀ i, x.raw i = false) : x.Clean := by
  have hb : x.bv = 0 := by
    apply BitVec.eq_of_getLsbD_eq
    intro i hi
    rw [Bits.getLsbD_bv x, h]; simp
  by_cases h64 : n ≤ 64
  · rw [Bits.clean_native h64, hb, (Bits.nv_eq_zero_iff h64 x).2 h]
    cases s <;> simp [numOf]
  · cases x with
    | nat h' _ => exact absurd h' h64
    | big h' b =>
      show val b.vals < 2 ^ n
      have : val b.vals = 0 := by
        apply Nat.eq_of_testBit_eq
        intro i
        rw [Big.testBit_val', Nat.zero_testBit]
        exact h i
      rw [this]; positivity

/-- `4'sbx010` and `4'sbz010` extended to six bits become `00x010` and `11z010` -/
example : Lg.bits (.ok ((⟨Bits.ofInt 2, Bits.ofInt 8⟩ : Lg 4 true).extend 6)) = some [.b0, .b1, .b0, .x, .b0, .b0] ∧
    Lg.bits (.ok ((⟨Bits.ofInt (-6), Bits.ofInt 8⟩ : Lg 4 true).extend 6)) = some [.b0, .b1, .b0, .z, .b1, .b1] := by
  decide +kernel

/-- **C134 is false of the code** for every pair of widths: a signed vector of x extends to known bits. -/
theorem C134_refuted_all (h1 : 1 < n) (h : n < m) : ∃ x : Lg n true, (Lg.dflt : Res (Lg n true)) = .ok x ∧ x.Clean ∧
    x.at (n - 1) = .x ∧ ∀ i, n ≤ i → i < m → ((x.extend m).at i).isKnown = true := by
  obtain ⟨x, hx, hv, hk⟩ := Lg.dflt_ok (n := n) (s := true) (by omega)
  have cx : x.Clean := by
    refine ⟨clean_zero_raw hv, (Bits.clean_unsigned_iff _).2 fun i hi => ?_⟩
    rw [hk]; simp [show ¬ i < n by omega]
  refine ⟨x, hx, cx, ?_, fun i hi him => ?_⟩
  · rw [Lg.at_lt x (by omega), hv, hk]; simp [show n - 1 < n by omega]; rfl
  · by_cases h64 : n ≤ 64
    · rw [C134_native_exact h1 h.le h64 x cx i him, if_neg (by omega)]
      cases x.at (n - 1) <;> rfl
    · rw [C134_wide_exact (by omega) h.le x cx i him, if_neg (by omega)]; rfl

/-! ## C135 -/

/-- the fill bit of IEEE 1800 5.7.1: x or z if the leftmost digit is one -/
def fillOf (body : List Char) : V4 :=
  match (digitsOf body).getLast? with
  | some c => if c = 'x' ∨ c = 'X' then .x else if c = 'z' ∨ c = 'Z' then .z else .b0
  | none => .b0

/-- bit `i` of a literal of a width that is not smaller, as IEEE 1800 defines it -/
def litFill (st : Nat) (body : List Char) (i : Nat) : V4 :=
  if i < (digitsOf body).length * st then litAt st body i else fillOf body

theorem fill_iff {st : Nat} (hst : 0 < st) {body : List Char} {z : Lg n s} (hz : ∀ i, i < n → z.at i = litAt st body i) :
    (∀ i, i < n → z.at i = litFill st body i) ↔ n ≤ (digitsOf body).length * st ∨ fillOf body = .b0 := by
  constructor
  · intro hh
    by_cases hn : n ≤ (digitsOf body).length * st
    · exact Or.inl hn
    · right
      have := hh _ (Nat.lt_of_not_le hn)
      rw [hz _ (Nat.lt_of_not_le hn), litFill, if_neg (lt_irrefl _), litAt_ge hst le_rfl] at this
      exact this.symm
  · intro hh i hi
    rw [hz i hi, litFill]
    by_cases h : i < (digitsOf body).length * st
    · rw [if_pos h]
    · rw [if_neg h, litAt_ge hst (by omega)]
      rcases hh with hh | hh
      · omega
      · exact hh.symm

/-- **C135, native, partial.** A binary, octal or hexadecimal literal that `C61` to `C63` cover has
all the bits IEEE 1800 gives it if and only if no bit is left over or its leftmost digit is not x or z.
Missing: the literals that do not satisfy this, for which it is false (`C135_refuted_all`). -/
theorem C135_native_iff_partial (h1 : 1 < n) (h64 : n ≤ 64) {pre mid body : List Char} {b : Char} {st : Nat}
    (hl : LitOk pre mid b) (h : LimbOk b st body) :
    ∃ z : Lg n s, Lg.ofString (lit pre mid b body) = .ok z ∧
      ((∀ i, i < n → z.at i = litFill st body i) ↔ n ≤ (digitsOf body).length * st ∨ fillOf body = .b0) := by
  obtain ⟨z, hz, -, hb, -⟩ := lit_native (s := s) (by omega) h64 hl h (Or.inl h1)
  exact ⟨z, hz, fill_iff (by cases h <;> decide) hb⟩

/-- **C135, wide, partial**: the same for the literals of `C69_xz_partial`. Missing: the literals
that do not satisfy this (`C135_refuted_all`), octal ones, underscores, and a binary x or z in the
upper half of a limb (`C69_exact`). -/
theorem C135_wide_iff_partial (h : 64 < n) {pre mid body : List Char} {b : Char} {st : Nat} {cs : List Char}
    (hr : Radix b st cs) (hst : st = 1 ∨ st = 4) (hl : LitOk pre mid b) (hc : ∀ c ∈ body, c ∈ cs) (hu : ∀ c ∈ body, c ≠ '_')
    (hx : st = 1 → ∀ i c, (digitsOf body)[i]? = some c → c = 'x' ∨ c = 'z' → i % 64 < 32) :
    ∃ z : Lg n s, Lg.ofString (lit pre mid b body) = .ok z ∧
      ((∀ i, i < n → z.at i = litFill st body i) ↔ n ≤ (digitsOf body).length * st ∨ fillOf body = .b0) := by
  obtain ⟨z, hz, -, hb⟩ := C69_xz_partial (n := n) (s := s) (by omega) hr hst hl hc hu hx
  exact ⟨z, hz, fill_iff hr.pos.1 hb⟩

/-- `8'b1x` and `8'bx1` -/
example : LimbOk 'b' 1 "x1".toList ∧ fillOf "x1".toList = .x ∧ fillOf "1x".toList = .b0 := by
  refine ⟨.bin (Or.inl rfl) (by decide) (by decide) (fun i c h _ => ?_), by decide, by decide⟩
  have : i < (digitsOf "x1".toList).length := (List.getElem?_eq_some_iff.1 h).1
  have : (digitsOf "x1".toList).length = 2 := by decide
  omega

/-- **C135 is false of the code** at every width above four: the digit `x` alone, in each base,
gives a vector whose top bit is 0. -/
theorem C135_refuted_all (hn : 4 < n) {b : Char} (hb : b ∈ ['b', 'o', 'h']) :
    ∃ z : Lg n s, Lg.ofString (lit [] [] b ['x']) = .ok z ∧ z.at 0 = .x ∧ z.at (n - 1) = .b0 := by
  have hl : LitOk [] [] b := ⟨by simp, by simp, by
    simp only [List.mem_cons, List.not_mem_nil, or_false] at hb
    rcases hb with rfl | rfl | rfl <;> decide⟩
  obtain ⟨st, cs, hr, hc, hst, hlen, h0⟩ : ∃ st cs, Radix b st cs ∧ LimbOk b st ['x'] ∧ 0 < st ∧ st ≤ 4 ∧ litAt st ['x'] 0 = .x := by
    simp only [List.mem_cons, List.not_mem_nil, or_false] at hb
    rcases hb with rfl | rfl | rfl
    · refine ⟨1, _, .b, .bin (Or.inl rfl) (by decide) (by decide) fun i c h _ => ?_, by decide, by decide, by decide⟩
      have h1 : i < (digitsOf ['x']).length := (List.getElem?_eq_some_iff.1 h).1
      have h2 : (digitsOf ['x']).length = 1 := by decide
      omega
    · exact ⟨3, _, .o, .oct (Or.inl rfl) (by decide) (by decide), by decide, by decide, by decide⟩
    · exact ⟨4, _, .h, .hex (Or.inl rfl) (by decide) (Or.inl (by decide)), by decide, by decide, by decide⟩
  have h1 : litAt st ['x'] (n - 1) = .b0 := litAt_ge hst (by
    rw [show (digitsOf ['x']).length = 1 by decide]
    omega)
  by_cases h64 : n ≤ 64
  · obtain ⟨z, hz, -, hb, -⟩ := lit_native (n := n) (s := s) (by omega) h64 hl hc (Or.inl (by omega))
    exact ⟨z, hz, by rw [hb 0 (by omega), h0], by rw [hb _ (by omega), h1]⟩
  · obtain ⟨z, hz, -, hb⟩ := C69_short_partial (s := s) h64 hr hl (by
      show 1 ≤ 64 / st
      exact (Nat.le_div_iff_mul_le hst).2 (by omega)) hc
    exact ⟨z, hz, by rw [hb 0 (by omega), h0], by rw [hb _ (by omega), h1]⟩

end Verif
