import Verif.Model.Format
import Verif.Lemmas.OfBV
import Verif.Lemmas.Slice
import Mathlib.Data.Nat.Digits.Defs
import Mathlib.Data.Nat.Digits.Lemmas

/-!
# Lemmas about formatting
-/

namespace Verif

variable {n : Nat} {s : Bool}

/-- the 4-state digit shown for `st` bits: `x`/`z` if all bits are, `X` if some bit is x, `Z`
if some bit is z and none x, and a lower case digit otherwise (IEEE 1800 21.2.1.3) -/
def digit4 (st : Nat) (f : Nat → V4) : Char :=
  if ∀ j, j < st → f j = .x then 'x'
  else if ∀ j, j < st → f j = .z then 'z'
  else if ∃ j, j < st ∧ f j = .x then 'X'
  else if ∃ j, j < st ∧ f j = .z then 'Z'
  else "0123456789abcdef".toList.getD (Nat.ofDigits 2 ((List.range st).map fun j => if f j = .b1 then 1 else 0)) '0'

/-- base letters of binary, octal and hexadecimal output and their digit width -/
inductive OutBase : Char → Nat → Prop
  | b : OutBase 'b' 1
  | B : OutBase 'B' 1
  | o : OutBase 'o' 3
  | O : OutBase 'O' 3
  | hl : OutBase 'h' 4
  | H : OutBase 'H' 4
  | xl : OutBase 'x' 4
  | X : OutBase 'X' 4

theorem OutBase.pos {b : Char} {st : Nat} (h : OutBase b st) : 0 < st ∧ st ≤ 4 := by cases h <;> decide

theorem OutBase.stride {b : Char} {st : Nat} (h : OutBase b st) : getStride b = st := by cases h <;> rfl

theorem OutBase.notDec {b : Char} {st : Nat} (h : OutBase b st) : isDec b = false := by cases h <;> rfl

theorem OutBase.notDigit {b : Char} {st : Nat} (h : OutBase b st) : ¬ ('0' ≤ b ∧ b ≤ '9') := by cases h <;> decide

/-! ### formats -/

theorem findNonDigit_append {ds : List Char} {b : Char} (rest : List Char) (hd : ∀ c ∈ ds, '0' ≤ c ∧ c ≤ '9')
    (hb : ¬ ('0' ≤ b ∧ b ≤ '9')) : findNonDigit (ds ++ b :: rest) = some ds.length := by
  rw [findNonDigit, List.findIdx?_append]
  have : ds.findIdx? (fun c => !decide ('0' ≤ c ∧ c ≤ '9')) = none := by
    rw [List.findIdx?_eq_none_iff]
    intro c hc
    simpa using hd c hc
  rw [this]
  simp only [List.findIdx?_cons]
  rw [if_pos (by rw [decide_eq_false hb]; rfl)]
  simp

theorem parseFmt_letter {b : Char} (hb : ¬ ('0' ≤ b ∧ b ≤ '9')) (rest : List Char) (size : Nat) :
    parseFmt (b :: rest) size = (possibleSize b size).map fun p => ⟨b, p, true⟩ := by
  have h := findNonDigit_append (ds := []) rest (by simp) hb
  simp only [List.nil_append, List.length_nil] at h
  rw [parseFmt, h]
  simp only [List.getD_cons_zero, if_true, res_bind_ok]

/-- the number in front of a format letter -/
def fmtNum (ds : List Char) : Nat := ds.foldl (fun a c => a * 10 + (c.toNat - 48)) 0

theorem parseFmt_num {ds : List Char} {b : Char} (hb : ¬ ('0' ≤ b ∧ b ≤ '9')) (hd : ∀ c ∈ ds, '0' ≤ c ∧ c ≤ '9')
    (h0 : ds ≠ []) (hN : fmtNum ds < 2 ^ 64) (rest : List Char) (size : Nat) :
    parseFmt (ds ++ b :: rest) size = (possibleSize b size).map fun p =>
      if fmtNum ds = 0 then ⟨b, p, false⟩ else ⟨b, max p (fmtNum ds), true⟩ := by
  rw [parseFmt, findNonDigit_append rest hd hb]
  have hg : (ds ++ b :: rest).getD ds.length 's' = b := by simp [List.getD_eq_getElem?_getD]
  have hl : ¬ (some ds.length = some 0) := by
    simp only [Option.some.injEq]
    intro h
    exact h0 (List.eq_nil_of_length_eq_zero h)
  have hst : stoul ((ds ++ b :: rest).take ((some ds.length).getD (ds ++ b :: rest).length)) = .ok (fmtNum ds) := by
    rw [Option.getD_some, List.take_left, stoul, if_neg h0]
    simp only
    rw [← fmtNum, if_pos hN]
  simp only
  rw [hg, if_neg hl, hst, res_map_ok, res_bind_ok]
  congr 1
  funext p
  cases h : fmtNum ds with
  | zero => simp
  | succ k => simp

theorem decimalFmt_letter {b : Char} (hb : ¬ ('0' ≤ b ∧ b ≤ '9')) {ds : List Char} (hd : ∀ c ∈ ds, '0' ≤ c ∧ c ≤ '9')
    (rest : List Char) : decimalFmt (ds ++ b :: rest) = isDec b := by
  rw [decimalFmt, getOutputBase, findNonDigit_append rest hd hb]
  simp [List.getD_eq_getElem?_getD]

theorem possibleSize_out {b : Char} {st : Nat} (h : OutBase b st) (size : Nat) :
    possibleSize b size = .ok ((size + st - 1) / st) := by
  cases h <;> simp [possibleSize]

/-! ### padding -/

/-- the text of `pad_result` before padding -/
def minusText (neg : Bool) (b : Char) (ss : List Char) : List Char :=
  if neg && isDec b then '-' :: ss.reverse else ss.reverse

/-- the text of `pad_result` with the padding -/
def padText (neg : Bool) (f : Fmt) (ss : List Char) : List Char :=
  List.replicate
    (if f.padding then (f.actualSize + if neg && isDec f.base then 1 else 0) - (minusText neg f.base ss).length else 0)
    (if isDec f.base || f.base = 's' || f.base = 'S' then ' ' else '0') ++ minusText neg f.base ss

theorem padResult_eq {neg : Bool} {f : Fmt} {ss : List Char} (h : f.padding = true → f.actualSize < ss.length + 2 ^ 32)
    (h3 : (neg && isDec f.base) = true → f.actualSize < 2 ^ 64 - 1) :
    padResult neg f ss = .ok (padText neg f ss) := by
  unfold padResult padText minusText
  simp only
  cases h2 : f.padding with
  | false => cases h1 : (neg && isDec f.base) <;> simp [List.reverse_append]
  | true =>
    have h := h h2
    cases h1 : (neg && isDec f.base)
    · rw [if_pos rfl, if_neg (by simp; omega)]
      simp [List.reverse_append]
    · have e : (f.actualSize + 1) % 2 ^ 64 = f.actualSize + 1 := Nat.mod_eq_of_lt (by have := h3 h1; omega)
      rw [e, if_pos rfl, if_pos rfl, if_pos rfl, if_neg (by simp; omega)]
      simp [List.reverse_append]

theorem padText_full {neg : Bool} {f : Fmt} {ss : List Char} (h : f.padding = true → f.actualSize ≤ ss.length) :
    padText neg f ss = minusText neg f.base ss := by
  rw [padText]
  have : (if f.padding then (f.actualSize + if neg && isDec f.base then 1 else 0) - (minusText neg f.base ss).length
      else 0) = 0 := by
    cases hp : f.padding with
    | false => rfl
    | true =>
      have := h hp
      rw [if_pos rfl]
      unfold minusText
      split_ifs <;> simp <;> omega
  rw [this]; rfl

theorem padResult_full {neg : Bool} {f : Fmt} {ss : List Char} (h : f.padding = true → f.actualSize ≤ ss.length) :
    padResult neg f ss = .ok (minusText neg f.base ss) := by
  have e : (f.actualSize + 1) % 2 ^ 64 ≤ f.actualSize + 1 := Nat.mod_le _ _
  unfold padResult minusText
  simp only
  cases h2 : f.padding with
  | false => cases h1 : (neg && isDec f.base) <;> simp [List.reverse_append]
  | true =>
    have h := h h2
    cases h1 : (neg && isDec f.base)
    · have : f.actualSize - ss.length = 0 := by omega
      simp [this]
    · have : (f.actualSize + 1) % 2 ^ 64 - (ss ++ ['-']).length = 0 := by simp only [List.length_append, List.length_singleton]; omega
      rw [if_pos rfl, if_pos rfl, if_pos rfl, this]
      simp

/-- the padding loop does not end when `2^32` characters or more are missing -/
theorem padResult_huge {neg : Bool} {f : Fmt} {ss : List Char} (hp : f.padding = true) (h : ss.length + 2 ^ 32 ≤ f.actualSize)
    (h3 : (neg && isDec f.base) = true → f.actualSize < 2 ^ 64 - 1) :
    padResult neg f ss = .error .diverge := by
  unfold padResult
  simp only
  rw [if_pos hp, if_pos]
  split_ifs with h1
  · have e : (f.actualSize + 1) % 2 ^ 64 = f.actualSize + 1 := Nat.mod_eq_of_lt (by have := h3 h1; omega)
    rw [e]
    simp only [List.length_append, List.length_singleton]; omega
  · omega

/-! ### digits -/

theorem lsDigits_eq {b : Nat} (hb : 1 < b) (fuel v : Nat) (h : v < b ^ fuel) :
    lsDigits b fuel v = (Nat.digits b v).map digitChar := by
  induction fuel generalizing v with
  | zero =>
    have : v = 0 := by simpa using h
    subst this; simp [lsDigits]
  | succ k ih =>
    rw [lsDigits]
    by_cases hv : v = 0
    · subst hv; simp
    · rw [if_neg hv, Nat.digits_def' hb (by omega), List.map_cons, ih]
      rw [Nat.div_lt_iff_lt_mul (by omega)]
      rwa [pow_succ] at h

theorem low_cases {st : Nat} (w : BitVec 64) (i : Nat) (hst : st ≤ 64) (h0 : 0 < st) :
    ∃ a, a < 2 ^ st ∧ (w >>> i) &&& getMask st = BitVec.ofNat 64 a ∧ ∀ j, j < st → a.testBit j = w.getLsbD (i + j) := by
  have hm : ∀ j, (getMask st).getLsbD j = decide (j < st) := by
    intro j
    rw [getMask, BitVec.getLsbD_ushiftRight, BitVec.getLsbD_allOnes]
    by_cases h : j < st
    · simp [h]; omega
    · simp [h]; omega
  refine ⟨((w >>> i) &&& getMask st).toNat, ?_, by rw [BitVec.ofNat_toNat, BitVec.setWidth_eq], fun j hj => ?_⟩
  · apply Nat.lt_pow_two_of_testBit
    intro j hj
    show ((w >>> i) &&& getMask st).getLsbD j = false
    rw [BitVec.getLsbD_and, hm, decide_eq_false (by omega), Bool.and_false]
  · show ((w >>> i) &&& getMask st).getLsbD j = _
    rw [BitVec.getLsbD_and, hm, decide_eq_true hj, Bool.and_true, BitVec.getLsbD_ushiftRight]

theorem digit4_congr {st : Nat} {f g : Nat → V4} (h : ∀ j, j < st → f j = g j) : digit4 st f = digit4 st g := by
  have h1 : (∀ j, j < st → f j = .x) ↔ (∀ j, j < st → g j = .x) :=
    forall_congr' fun j => forall_congr' fun hj => by rw [h j hj]
  have h2 : (∀ j, j < st → f j = .z) ↔ (∀ j, j < st → g j = .z) :=
    forall_congr' fun j => forall_congr' fun hj => by rw [h j hj]
  have h3 : (∃ j, j < st ∧ f j = .x) ↔ (∃ j, j < st ∧ g j = .x) :=
    exists_congr fun j => and_congr_right fun hj => by rw [h j hj]
  have h4 : (∃ j, j < st ∧ f j = .z) ↔ (∃ j, j < st ∧ g j = .z) :=
    exists_congr fun j => and_congr_right fun hj => by rw [h j hj]
  have h5 : (List.range st).map (fun j => if f j = .b1 then 1 else 0) = (List.range st).map (fun j => if g j = .b1 then 1 else 0) :=
    List.map_congr_left fun j hj => by rw [h j (List.mem_range.1 hj)]
  unfold digit4
  simp only [h1, h2, h3, h4, h5]

theorem fmtDigit_table3 : ∀ a, a < 8 → ∀ b, b < 8 → ∀ c ∈ ['o', 'O'],
    fmtDigit c (BitVec.ofNat 64 a) (BitVec.ofNat 64 b) = [digit4 3 fun j => V4.mk (a.testBit j) (b.testBit j)] := by
  decide +kernel

theorem fmtDigit_table4 : ∀ a, a < 16 → ∀ b, b < 16 → ∀ c ∈ ['h', 'H', 'x', 'X'],
    fmtDigit c (BitVec.ofNat 64 a) (BitVec.ofNat 64 b) = [digit4 4 fun j => V4.mk (a.testBit j) (b.testBit j)] := by
  decide +kernel

/-- the digit at position `k` of two 64-bit words -/
def wordDigit (st : Nat) (v xz : BitVec 64) (k : Nat) : Char :=
  digit4 st fun j => V4.mk (v.getLsbD (st * k + j)) (xz.getLsbD (st * k + j))

theorem fmtDigit_eq {b : Char} {st : Nat} (h : OutBase b st) (h1 : st ≠ 1) (v xz : BitVec 64) (k : Nat) :
    fmtDigit b ((v >>> (st * k)) &&& getMask st) ((xz >>> (st * k)) &&& getMask st) = [wordDigit st v xz k] := by
  obtain ⟨a, ha, ea, ta⟩ := low_cases v (st * k) (by have := h.pos; omega) h.pos.1
  obtain ⟨c, hc, ec, tc⟩ := low_cases xz (st * k) (by have := h.pos; omega) h.pos.1
  rw [ea, ec, wordDigit, ← digit4_congr (f := fun j => V4.mk (a.testBit j) (c.testBit j)) (fun j hj => by rw [ta j hj, tc j hj])]
  cases h with
  | b => exact absurd rfl h1
  | B => exact absurd rfl h1
  | o => exact fmtDigit_table3 a ha c hc _ (by decide)
  | O => exact fmtDigit_table3 a ha c hc _ (by decide)
  | hl => exact fmtDigit_table4 a ha c hc _ (by decide)
  | H => exact fmtDigit_table4 a ha c hc _ (by decide)
  | xl => exact fmtDigit_table4 a ha c hc _ (by decide)
  | X => exact fmtDigit_table4 a ha c hc _ (by decide)

theorem fmtValueLoop_eq {b : Char} {st : Nat} (h : OutBase b st) (h1 : st ≠ 1) (size : Nat) (v xz : BitVec 64)
    (fuel m : Nat) (hf : size ≤ st * (m + fuel)) :
    fmtValueLoop b size v xz fuel (st * m) =
      (List.range ((size + st - 1) / st - m)).map fun k => wordDigit st v xz (m + k) := by
  have hst := h.pos.1
  induction fuel generalizing m with
  | zero =>
    have : (size + st - 1) / st ≤ m := by
      rw [Nat.add_zero, Nat.mul_comm] at hf
      exact Nat.le_of_lt_succ ((Nat.div_lt_iff_lt_mul hst).2 (by rw [Nat.succ_mul]; omega))
    rw [fmtValueLoop, show (size + st - 1) / st - m = 0 by omega]; rfl
  | succ fuel ih =>
    rw [fmtValueLoop]
    by_cases hi : st * m < size
    · have hc : m < (size + st - 1) / st := by
        apply Nat.lt_of_succ_le
        rw [Nat.le_div_iff_mul_le hst, Nat.succ_mul, Nat.mul_comm]; omega
      rw [if_pos hi, h.stride, fmtDigit_eq h h1, show st * m + st = st * (m + 1) by ring, ih (m + 1) (by
        rw [show m + 1 + fuel = m + (fuel + 1) by omega]; exact hf)]
      rw [show (size + st - 1) / st - m = ((size + st - 1) / st - (m + 1)) + 1 by omega, List.range_succ_eq_map,
        List.map_cons, List.map_map, List.singleton_append]
      congr 1
      apply List.map_congr_left
      intro k _
      simp only [Function.comp]
      congr 1; omega
    · have : (size + st - 1) / st ≤ m := by
        exact Nat.le_of_lt_succ ((Nat.div_lt_iff_lt_mul hst).2 (by rw [Nat.succ_mul, Nat.mul_comm m]; omega))
      rw [if_neg hi, show (size + st - 1) / st - m = 0 by omega]; rfl

theorem bitChar_eq (v xz : Bool) : bitChar v xz = digit4 1 fun _ => V4.mk v xz := by
  revert v xz; decide

/-- the text of a word, least significant digit first -/
theorem body4_eq {b : Char} {st : Nat} (h : OutBase b st) {size : Nat} (hs : size ≤ 64) (v xz : BitVec 64) :
    body4 b size v xz = (List.range ((size + st - 1) / st)).map (wordDigit st v xz) := by
  by_cases h1 : st = 1
  · subst h1
    have hb : b = 'b' ∨ b = 'B' := by cases h <;> simp
    rw [body4, if_pos hb, show (size + 1 - 1) / 1 = size by simp]
    apply List.map_congr_left
    intro i _
    rw [bitChar_eq, wordDigit]
    exact digit4_congr fun j hj => by rw [show 1 * i + j = i by omega]
  · have hv : body4 b size v xz = fmtValue b size v xz := by
      cases h <;> first | rfl | exact absurd rfl h1
    have := fmtValueLoop_eq h h1 size v xz 64 0 (by
      rw [Nat.zero_add]; exact le_trans hs (Nat.le_mul_of_pos_left 64 h.pos.1))
    rw [hv, fmtValue]
    rw [Nat.mul_zero] at this
    rw [this, Nat.sub_zero]
    apply List.map_congr_left
    intro k _
    rw [Nat.zero_add]

/-! ### chunks -/

theorem appendAll_append {α : Type} (f : α → Res (List Char)) (l m : List α) :
    appendAll f (l ++ m) = (appendAll f l).bind fun a => (appendAll f m).map (a ++ ·) := by
  induction l with
  | nil =>
    rw [List.nil_append, appendAll, res_bind_ok]
    cases appendAll f m <;> rfl
  | cons x l ih =>
    rw [List.cons_append, appendAll, appendAll, ih]
    cases f x with
    | error e => rfl
    | ok s =>
      rw [res_bind_ok, res_bind_ok]
      cases appendAll f l with
      | error e => rfl
      | ok a =>
        rw [res_bind_ok, res_map_ok, res_bind_ok]
        cases appendAll f m with
        | error e => rfl
        | ok c => rw [res_map_ok, res_map_ok, res_map_ok, List.append_assoc]

theorem appendAll_range (f : Nat → Res (List Char)) (g : Nat → Nat → Char) {B : Nat} (hB : 0 < B) (m : Nat)
    (hf : ∀ i, i < m → f i = .ok ((List.range B).map (g i))) :
    appendAll f (List.range m) = .ok ((List.range (m * B)).map fun k => g (k / B) (k % B)) := by
  induction m with
  | zero => rw [Nat.zero_mul]; rfl
  | succ m ih =>
    rw [List.range_succ, appendAll_append, ih (fun i hi => hf i (by omega)), res_bind_ok, appendAll, hf m (by omega),
      res_bind_ok, appendAll, res_map_ok, res_map_ok, List.append_nil, Nat.succ_mul, List.range_add, List.map_append,
      List.map_map]
    congr 2
    apply List.map_congr_left
    intro k hk
    have hk := List.mem_range.1 hk
    simp only [Function.comp]
    rw [show m * B + k = k + B * m by ring, Nat.add_mul_div_left _ _ hB, Nat.div_eq_of_lt hk, Nat.add_mul_mod_self_left,
      Nat.mod_eq_of_lt hk, Nat.zero_add]

theorem appendAll_error {α : Type} (f : α → Res (List Char)) (e : Fault) (l : List α)
    (hl : ∀ a ∈ l, (∃ s, f a = .ok s) ∨ f a = .error e) (he : ∃ a ∈ l, f a = .error e) : appendAll f l = .error e := by
  induction l with
  | nil => obtain ⟨a, h, _⟩ := he; simp at h
  | cons x l ih =>
    rw [appendAll]
    rcases hl x (by simp) with ⟨s, hs⟩ | hx
    · rw [hs, res_bind_ok, ih (fun a ha => hl a (by simp [ha])) ?_]
      · rfl
      · obtain ⟨a, h1, h2⟩ := he
        rcases List.mem_cons.1 h1 with rfl | h1
        · rw [hs] at h2; simp at h2
        · exact ⟨a, h1, h2⟩
    · rw [hx]; rfl

/-! ### the words a native object hands to the formatter -/

theorem word_lt (h : n ≤ 64) (x : Bits n s) {i : Nat} (hi : i < n) :
    (BitVec.ofInt 64 x.nv.v).getLsbD i = x.bv.getLsbD i := by
  rw [Bits.bv_ofInt h x, ← setWidth_ofInt h, BitVec.getLsbD_setWidth, decide_eq_true hi, Bool.true_and]

theorem word_clean (h : n ≤ 64) {x : Bits n false} (hx : x.Clean) (i : Nat) :
    (BitVec.ofInt 64 x.nv.v).getLsbD i = x.bv.getLsbD i := by
  have hv := (Bits.clean_native h x).1 hx
  simp only [numOf, Bool.false_and, Bool.false_eq_true, if_false] at hv
  rw [hv, BitVec.ofInt_natCast, BitVec.getLsbD_ofNat]
  by_cases hi : i < n
  · simp [show i < 64 by omega]; rfl
  · rw [BitVec.getLsbD_of_ge x.bv _ (by omega), Nat.testBit_lt_two_pow (lt_of_lt_of_le x.bv.isLt
      (Nat.pow_le_pow_right (by decide) (by omega)))]
    simp

end Verif
