import Verif.Props.FormatRaw

/-!
# Text of wide 2-state vectors against that of 4-state vectors (C101)
-/

namespace Verif
variable {n m : Nat} {s t : Bool}

theorem val_zero (n : Nat) (s : Bool) : val (Big.zero : Big n s).vals = 0 := by
  have h := Big.Clean.toNat_bv (x := (Big.zero : Big n s)) ((Big.clean_iff _).2 fun i _ => Big.raw_zero i)
  rw [← h]
  have e : (Big.zero : Big n s).bv = 0#n := by
    apply BitVec.eq_of_getLsbD_eq
    intro i hi
    rw [Big.getLsbD_bv, Big.get_eq, Big.raw_zero]
    simp
  rw [e]
  simp

theorem parseFmt_base {fmt : List Char} {size : Nat} {f : Fmt} (h : parseFmt fmt size = .ok f) (hd : decimalFmt fmt = true) :
    isDec f.base = true := by
  rw [decimalFmt, getOutputBase] at hd
  rw [parseFmt] at h
  cases hf : findNonDigit fmt with
  | none => rw [hf] at hd; exact absurd (show isDec 'b' = true from hd) (by decide)
  | some p =>
    rw [hf] at hd h
    simp only at hd h
    have hb : f.base = fmt.getD p 's' := by
      revert h
      generalize (if some p = some 0 then (.ok none : Res (Option Nat)) else _) = r
      cases r with
      | error e => intro h; cases h
      | ok q =>
        rw [res_bind_ok]
        cases possibleSize (fmt.getD p 's') size with
        | error e => intro h; cases h
        | ok k =>
          rw [res_map_ok]
          intro h
          cases h
          rcases q with _ | _ | q <;> rfl
    have hp : p < fmt.length := by
      rw [findNonDigit, List.findIdx?_eq_some_iff_getElem] at hf
      exact hf.1
    rw [hb]
    rw [List.getD_eq_getElem?_getD, List.getElem?_eq_getElem hp] at hd ⊢
    exact hd

theorem toStringBig_dec (fmt : List Char) (V : Big n s) (K : Big n t) (hn : ¬ n ≤ 64) (hk : val K.vals = 0) (neg : Bool)
    (hd : decimalFmt fmt = true) : toStringBig2 fmt n V.vals neg = toStringBig4 fmt n V.vals K.vals neg := by
  rw [toStringBig2, toStringBig4]
  cases hp : parseFmt fmt n with
  | error e => rfl
  | ok f =>
    have hb := parseFmt_base hp hd
    simp only [res_bind_ok]
    rw [hb, if_neg (by decide), if_neg (by decide), low128_eq hn, low128_eq hn, res_map_ok, res_bind_ok, res_bind_ok, res_map_ok, hk]
    rfl

theorem Bits.bg_zero (hn : ¬ n ≤ 64) : (Bits.zero : Bits n s).bg hn = Big.zero := by
  rw [Bits.zero, dif_neg hn]; rfl

/-- **C101, decimal.** In every decimal format the text of a wide signed 2-state vector is that of the
4-state vector with the same bits. -/
theorem C101_decimal (hn : ¬ n ≤ 64) (x : Bits n true) {fmt : List Char} (hd : decimalFmt fmt = true) :
    x.str fmt = Lg.str ⟨x, Bits.zero⟩ fmt := by
  rw [Bits.str, dif_neg hn, if_neg (by decide), Lg.str, dif_neg hn]
  have hz : val ((Bits.zero : Bits n false).bg hn).vals = 0 := by rw [Bits.bg_zero, val_zero]
  split_ifs
  · rw [Bits.negate, dif_neg hn, res_bind_ok, res_bind_ok, toStringBig_dec fmt _ _ hn hz _ hd]
  · rw [toStringBig_dec fmt _ _ hn hz _ hd]

/-- a word of one octal digit -/
theorem octChunk_lt (l : List (BitVec 64)) (p : Nat) {v : BitVec 64} (h : octChunk l p = .ok v) : v.toNat < 8 := by
  have key : ∀ a : BitVec 64, (a &&& 7#64).toNat < 8 := fun a => by
    rw [BitVec.toNat_and, show (7#64).toNat = 2 ^ 3 - 1 from rfl, Nat.and_two_pow_sub_one_eq_mod]
    exact Nat.mod_lt _ (by decide)
  rw [octChunk] at h
  revert h
  cases ptrGet l (p / 64) with
  | error e => intro h; cases h
  | ok a =>
    rw [res_bind_ok]
    split_ifs
    · cases ptrGet l (p / 64 + 1) with
      | error e => intro h; cases h
      | ok b =>
        rw [res_map_ok]
        intro h
        cases h
        rw [BitVec.toNat_or]
        apply Nat.or_lt_two_pow (n := 3) (key _)
        rw [BitVec.toNat_and]
        refine lt_of_le_of_lt Nat.and_le_right ?_
        rw [BitVec.toNat_ushiftRight, Nat.shiftRight_eq_div_pow]
        exact lt_of_le_of_lt (Nat.div_le_self _ _) (by decide)
    · intro h
      cases h
      exact key _

theorem ptrGet_zero (n : Nat) (s : Bool) {i : Nat} (hi : i < limbs n) : ptrGet (Big.zero : Big n s).vals i = .ok 0 := by
  rw [ptrGet_limb _ hi, Big.limb]
  congr 1
  rw [Big.zero]
  simp [List.getD_eq_getElem?_getD, List.getElem?_replicate, hi]

theorem octChunk_zero (V : Big n s) (p : Nat) {v : BitVec 64} (h : octChunk V.vals p = .ok v) (t : Bool) :
    octChunk (Big.zero : Big n t).vals p = .ok 0 := by
  have hV : ∀ {i}, (∃ a, ptrGet V.vals i = .ok a) → i < limbs n := by
    rintro i ⟨a, ha⟩
    by_contra hc
    rw [ptrGet_oob V (by omega)] at ha
    cases ha
  rw [octChunk] at h ⊢
  cases h1 : ptrGet V.vals (p / 64) with
  | error e => rw [h1] at h; cases h
  | ok a =>
    rw [h1, res_bind_ok] at h
    rw [ptrGet_zero _ _ (hV ⟨a, h1⟩), res_bind_ok]
    split_ifs at h ⊢
    · cases h2 : ptrGet V.vals (p / 64 + 1) with
      | error e => rw [h2] at h; cases h
      | ok b => rw [ptrGet_zero _ _ (hV ⟨b, h2⟩), res_map_ok]; simp
    · simp

theorem appendAll_congr {α : Type} {f g : α → Res (List Char)} {l : List α} (h : ∀ a ∈ l, f a = g a) :
    appendAll f l = appendAll g l := by
  induction l with
  | nil => rfl
  | cons a l ih => rw [appendAll, appendAll, h a (by simp), ih fun a ha => h a (by simp [ha])]

theorem oct_digit : ∀ a, a < 8 → ∀ b ∈ ['o', 'O'],
    toString2 [b] 3 (BitVec.ofNat 64 a) false = toString4_ [b] 3 (BitVec.ofNat 64 a) 0 false false := by
  decide +kernel

/-- **C101, octal.** The octal text of a wide signed 2-state vector, or its fault, is that of the 4-state
vector with the same bits. -/
theorem C101_octal (hn : ¬ n ≤ 64) (x : Bits n true) {b : Char} (hb : b = 'o' ∨ b = 'O') :
    x.str [b] = Lg.str ⟨x, Bits.zero⟩ [b] := by
  have h : OutBase b 3 := by rcases hb with rfl | rfl; exacts [.o, .O]
  have hd : decimalFmt [b] = false := by
    rw [show [b] = [] ++ b :: [] from rfl, decimalFmt_letter h.notDigit (by simp), h.notDec]
  rw [Bits.str, dif_neg hn, if_neg (by decide), Lg.str, dif_neg hn, hd, Bool.and_false, if_neg (by decide),
    if_neg (by decide), toStringBig2, toStringBig4, parseFmt_letter h.notDigit, possibleSize_out h, res_map_ok, res_bind_ok,
    res_bind_ok]
  simp only
  rw [h.notDec, if_pos (c := (!false) = true) rfl, if_pos (c := (!false) = true) rfl, if_pos hb, if_pos hb, Bits.bg_zero]
  congr 1
  apply appendAll_congr
  intro i _
  cases hv : octChunk (x.bg hn).vals (i * 3) with
  | error e => rfl
  | ok v =>
    rw [res_bind_ok, res_bind_ok, octChunk_zero _ _ hv, res_bind_ok]
    have := oct_digit v.toNat (octChunk_lt _ _ hv) b (by simpa using hb)
    rwa [BitVec.ofNat_toNat, BitVec.setWidth_eq] at this

/-- the digits of a word that fills its digit positions -/
theorem wordDigit_known {st : Nat} (h : 0 < st ∧ st ≤ 4) (v : BitVec 64) (k : Nat) :
    wordDigit st v 0 k = digitChar (v.toNat / (2 ^ st) ^ k % 2 ^ st) := by
  have hlt : v.toNat / (2 ^ st) ^ k % 2 ^ st < 2 ^ st := Nat.mod_lt _ (by positivity)
  have h16 : 2 ^ st ≤ 16 := le_trans (Nat.pow_le_pow_right (by decide) h.2) (by decide)
  generalize hd : v.toNat / (2 ^ st) ^ k % 2 ^ st = d at hlt
  have hbit : ∀ j, j < st → v.getLsbD (st * k + j) = d.testBit j := by
    intro j hj
    rw [← hd, Nat.testBit_mod_two_pow, ← pow_mul, Nat.testBit_div_two_pow]
    simp [hj, BitVec.getLsbD, Nat.add_comm]
  rw [wordDigit, digit4_congr (g := fun j => V4.mk (d.testBit j) false) (fun j hj => by rw [hbit j hj]; simp)]
  have t1 : ∀ st, st < 5 → ∀ d, d < 2 ^ st → 0 < st → digit4 st (fun j => V4.mk (d.testBit j) false) = digitChar d := by
    decide +kernel
  exact t1 st (by omega) d hlt h.1

/-- one limb of a 2-state text: padded, and least significant digit first -/
theorem hexChunk2 {b : Char} (h : OutBase b 4) {size : Nat} (hs : size ≤ 64) (v : BitVec 64) :
    toString2 [b] size v false = .ok (List.replicate ((size + 3) / 4 - (streamNum 16 v.toNat).length) '0' ++
      (streamNum 16 v.toNat).reverse) := by
  have hb : isPow2Base b = true ∧ ¬ (b = 'b' ∨ b = 'B') ∧ formatPow2 b v = streamNum 16 v.toNat ∧
      (isDec b || decide (b = 's') || decide (b = 'S')) = false ∧ isDec b = false := by
    cases h <;> exact ⟨rfl, by decide, rfl, by decide, by decide⟩
  rw [toString2, parseFmt_letter h.notDigit, possibleSize_out h, res_map_ok, res_bind_ok,
    if_neg hb.2.1, if_pos hb.1, hb.2.2.1, res_bind_ok, padResult_eq (by intro _; simp only; omega) (by simp), padText, minusText]
  simp only
  rw [hb.2.2.2.1, hb.2.2.2.2]
  simp

/-- one limb whose top digit is not zero, or that is zero -/
theorem full_chunk {b : Char} (h : OutBase b 4) {size : Nat} (hs : size ≤ 64) (hp : 0 < size) (v : BitVec 64)
    (hlt : v.toNat < 16 ^ ((size + 3) / 4)) (hv : v = 0 ∨ 16 ^ ((size + 3) / 4 - 1) ≤ v.toNat) :
    toString2 [b] size v false = toString4_ [b] size v 0 false false := by
  rw [hexChunk2 h hs, toString4_, parseFmt_letter h.notDigit, possibleSize_out h, res_map_ok, res_bind_ok,
    if_neg (by simp), body4_eq h hs, show size + 4 - 1 = size + 3 from rfl]
  congr 1
  generalize hD : (size + 3) / 4 = D at *
  have hD0 : 0 < D := by omega
  have hr : (List.range D).map (wordDigit 4 v 0) = (List.range D).map fun k => digitChar (v.toNat / 16 ^ k % 16) :=
    List.map_congr_left fun k _ => wordDigit_known (by decide) v k
  rw [hr]
  rcases hv with rfl | hv
  · have e : (List.range D).map (fun k => digitChar ((0#64).toNat / 16 ^ k % 16)) = List.replicate D '0' := by
      rw [List.eq_replicate_iff]
      refine ⟨by simp, fun c hc => ?_⟩
      obtain ⟨k, -, rfl⟩ := List.mem_map.1 hc
      simp [digitChar]
    have e0 : streamNum 16 (0#64).toNat = ['0'] := rfl
    rw [show ((0 : BitVec 64)) = 0#64 from rfl, e, e0, List.reverse_singleton, List.length_singleton]
    rw [show ['0'] = List.replicate 1 '0' from rfl, List.replicate_append_replicate]
    congr 1
    omega
  · have hv0 : v.toNat ≠ 0 := by
      have : 0 < 16 ^ (D - 1) := by positivity
      omega
    have hl128 : v.toNat < 16 ^ 128 := lt_trans v.isLt (by decide)
    rw [streamNum, if_neg hv0, lsDigits_eq (by decide) _ _ hl128, List.reverse_reverse]
    have hlen : (Nat.digits 16 v.toNat).length = D := by
      apply le_antisymm
      · exact (Nat.digits_length_le_iff (by decide) _).2 hlt
      · have : D - 1 < (Nat.digits 16 v.toNat).length := (Nat.lt_digits_length_iff (by decide) _).2 hv
        omega
    rw [List.length_reverse, List.length_map, hlen, Nat.sub_self, List.replicate_zero, List.nil_append]
    apply List.ext_getElem
    · simp [hlen]
    · intro i h1 h2
      simp only [List.getElem_map, List.getElem_range]
      rw [← Nat.getD_digits v.toNat i (by decide), List.getD_eq_getElem?_getD, List.getElem?_eq_getElem (by simpa using h1)]
      rfl

/-- **C101, hexadecimal, partial.** The texts agree when in every limb (64 bits, the top one what is
left) all bits are zero or the top hexadecimal digit is not zero. Missing: other values, see
`C101_refuted`. -/
theorem C101_hex_partial (hn : ¬ n ≤ 64) (x : Bits n true) (hc : x.Clean) {b : Char} (h : OutBase b 4)
    (hl : ∀ i, i < n / 64 → (∀ j, j < 64 → x.bv.getLsbD (64 * i + j) = false) ∨
      (∃ j, j < 4 ∧ x.bv.getLsbD (64 * i + 60 + j) = true))
    (ht : (∀ j, x.bv.getLsbD (64 * (n / 64) + j) = false) ∨
      ∃ j, j < 4 ∧ x.bv.getLsbD (64 * (n / 64) + 4 * ((n % 64 + 3) / 4 - 1) + j) = true) :
    x.str [b] = Lg.str ⟨x, Bits.zero⟩ [b] := by
  have hd : decimalFmt [b] = false := by
    rw [show [b] = [] ++ b :: [] from rfl, decimalFmt_letter h.notDigit (by simp), h.notDec]
  have hno : ¬ (b = 'o' ∨ b = 'O') := by cases h <;> decide
  have hcl := (Big.clean_iff _).1 ((Bits.clean_big hn _).1 hc)
  have hbit : ∀ i j, j < 64 → ((x.bg hn).limb i).getLsbD j = x.bv.getLsbD (64 * i + j) := by
    intro i j hj
    have : (x.bg hn).raw (64 * i + j) = ((x.bg hn).limb i).getLsbD j := by
      rw [Big.raw, show (64 * i + j) / 64 = i by omega, show (64 * i + j) % 64 = j by omega]
    rw [← this, Bits.getLsbD_bv, Bits.raw_big hn]
    by_cases hlt : 64 * i + j < n
    · simp [hlt]
    · rw [hcl _ (by omega)]; simp
  have hzero : ∀ v : BitVec 64, (∀ j, j < 64 → v.getLsbD j = false) → v = 0 := by
    intro v hv
    apply BitVec.eq_of_getLsbD_eq
    intro j hj
    rw [hv j hj]; simp
  have hge : ∀ (v : BitVec 64) (p : Nat), v.getLsbD p = true → 2 ^ p ≤ v.toNat := by
    intro v p hp
    exact Nat.ge_two_pow_of_testBit hp
  rw [Bits.str, dif_neg hn, if_neg (by decide), Lg.str, dif_neg hn, hd, Bool.and_false, if_neg (by decide),
    if_neg (by decide), toStringBig2, toStringBig4, parseFmt_letter h.notDigit, possibleSize_out h, res_map_ok, res_bind_ok,
    res_bind_ok]
  simp only
  rw [h.notDec, if_pos (c := (!false) = true) rfl, if_pos (c := (!false) = true) rfl, if_neg hno, if_neg hno, Bits.bg_zero]
  have hll := limbs_ge_two hn
  have hlimb : limbs n - 1 ≤ n / 64 := by unfold limbs; split <;> omega
  congr 1
  have e1 : appendAll (fun i => (ptrGet (x.bg hn).vals i).bind fun v => toString2 [b] 64 v false) (List.range (limbs n - 1)) =
      appendAll (fun i => (ptrGet (x.bg hn).vals i).bind fun v => (ptrGet (Big.zero : Big n false).vals i).bind fun k =>
            toString4_ [b] 64 v k false false) (List.range (limbs n - 1)) := by
    apply appendAll_congr
    intro i hi
    have hi := List.mem_range.1 hi
    rw [ptrGet_limb _ (by omega), res_bind_ok, res_bind_ok, ptrGet_zero _ _ (by omega), res_bind_ok]
    apply full_chunk h (by decide) (by decide) _ (lt_of_lt_of_le (BitVec.isLt _) (by decide))
    rcases hl i (by omega) with hz | ⟨j, hj, ho⟩
    · left
      apply hzero
      intro j hj
      rw [hbit i j hj, hz j hj]
    · right
      have := hge _ (60 + j) (by rw [hbit i _ (by omega), ← Nat.add_assoc]; exact ho)
      refine le_trans ?_ this
      exact le_trans (show 16 ^ ((64 + 3) / 4 - 1) ≤ 2 ^ 60 by decide) (Nat.pow_le_pow_right (by decide) (by omega))
  rw [e1]
  congr 1
  funext a
  by_cases h0 : n % 64 = 0
  · rw [if_neg (by simpa using h0), if_neg (by simpa using h0)]
  · have hlast : limbs n - 1 = n / 64 := by unfold limbs; rw [if_neg h0]; omega
    rw [if_pos h0, if_pos h0, ptrGet_limb _ (by omega), res_bind_ok, res_bind_ok, ptrGet_zero _ _ (by omega), res_bind_ok]
    congr 1
    rw [hlast]
    apply full_chunk h (by omega) (by omega)
    · apply Nat.lt_of_lt_of_le (m := 2 ^ (n % 64))
      · apply Nat.lt_pow_two_of_testBit
        intro i hi
        by_cases hi64 : i < 64
        · have := hbit (n / 64) i hi64
          rw [BitVec.getLsbD_of_ge _ (64 * (n / 64) + i) (by omega)] at this
          exact this
        · exact BitVec.getLsbD_of_ge _ i (by omega)
      · rw [show (16 : Nat) = 2 ^ 4 from rfl, ← pow_mul]
        exact Nat.pow_le_pow_right (by decide) (by omega)
    · rcases ht with hz | ⟨j, hj, ho⟩
      · left
        apply hzero
        intro j hj
        rw [hbit _ j hj, hz j]
      · right
        have := hge _ (4 * ((n % 64 + 3) / 4 - 1) + j) (by
          rw [hbit _ _ (by omega), ← Nat.add_assoc]; exact ho)
        refine le_trans ?_ this
        rw [show (16 : Nat) = 2 ^ 4 from rfl, ← pow_mul]
        exact Nat.pow_le_pow_right (by decide) (by omega)

theorem appendAll_head {α : Type} {f : α → Res (List Char)} {a : α} {l : List α} {c : List Char} {k : Char} {r : List Char}
    (h1 : f a = .ok (k :: c)) (h : appendAll f (a :: l) = .ok r) : r.head? = some k := by
  rw [appendAll, h1, res_bind_ok] at h
  revert h
  cases appendAll f l with
  | error e => intro h; cases h
  | ok q => rw [res_map_ok]; intro h; cases h; rfl

theorem padResult_last (neg : Bool) (f : Fmt) {l r : List Char} {k : Char} (h : l.head? = some k)
    (hr : padResult neg f l = .ok r) : r.getLast? = some k := by
  cases l with
  | nil => cases h
  | cons a l =>
    cases h
    rw [padResult] at hr
    split_ifs at hr <;> (rw [← Except.ok.inj hr, List.getLast?_reverse]; rfl)

/-- the last character of the hexadecimal text of a wide 2-state vector whose lowest limb has a zero top digit -/
theorem Bits.hex_last (hn : ¬ n ≤ 64) (x : Bits n true) {b : Char} (h : OutBase b 4) {r : List Char}
    (hx : ∀ j, j < 4 → x.bv.getLsbD (60 + j) = false) (hr : x.str [b] = .ok r) : r.getLast? = some '0' := by
  have hd : decimalFmt [b] = false := by
    rw [show [b] = [] ++ b :: [] from rfl, decimalFmt_letter h.notDigit (by simp), h.notDec]
  have hno : ¬ (b = 'o' ∨ b = 'O') := by cases h <;> decide
  rw [Bits.str, dif_neg hn, if_neg (by decide), hd, Bool.and_false, if_neg (by decide),
    toStringBig2, parseFmt_letter h.notDigit, possibleSize_out h, res_map_ok, res_bind_ok] at hr
  simp only at hr
  rw [h.notDec, if_pos (c := (!false) = true) rfl, if_neg hno] at hr
  have hll := limbs_ge_two hn
  obtain ⟨k, hk⟩ : ∃ k, limbs n - 1 = k + 1 := ⟨limbs n - 2, by omega⟩
  have hv : ((x.bg hn).limb 0).toNat < 16 ^ 15 := by
    apply Nat.lt_pow_two_of_testBit (n := 60)
    intro i hi
    by_cases hi64 : i < 64
    · have e : (x.bg hn).raw i = ((x.bg hn).limb 0).getLsbD i := by
        rw [Big.raw, show i / 64 = 0 by omega, show i % 64 = i by omega]
      have := hx (i - 60) (by omega)
      rw [show 60 + (i - 60) = i by omega, Bits.getLsbD_bv, Bits.raw_big hn, e] at this
      have hin : i < n := by omega
      simpa [hin, BitVec.getLsbD] using this
    · exact BitVec.getLsbD_of_ge _ i (by omega)
  have hlen : (streamNum 16 ((x.bg hn).limb 0).toNat).length ≤ 15 := by
    rw [streamNum]
    split_ifs with h0
    · simp
    · rw [lsDigits_eq (by decide) _ _ (lt_trans hv (by decide)), List.length_reverse, List.length_map]
      exact (Nat.digits_length_le_iff (by decide) _).2 hv
  have hc0 : ∃ c, (ptrGet (x.bg hn).vals 0).bind (fun v => toString2 [b] 64 v false) = .ok ('0' :: c) := by
    rw [ptrGet_limb _ (by omega), res_bind_ok, hexChunk2 h (by decide)]
    obtain ⟨q, hq⟩ : ∃ q, (64 + 3) / 4 - (streamNum 16 ((x.bg hn).limb 0).toNat).length = q + 1 :=
      ⟨15 - (streamNum 16 ((x.bg hn).limb 0).toNat).length, by omega⟩
    rw [hq, List.replicate_succ, List.cons_append]
    exact ⟨_, rfl⟩
  obtain ⟨c, hc0⟩ := hc0
  rw [hk, List.range_succ_eq_map] at hr
  revert hr
  generalize hA : appendAll (fun i => (ptrGet (x.bg hn).vals i).bind fun v => toString2 [b] 64 v false) (0 :: List.map Nat.succ (List.range k)) = A
  cases A with
  | error e => intro hr; cases hr
  | ok a =>
    have ha := appendAll_head (a := 0) (by exact hc0) hA
    rw [res_bind_ok]
    split_ifs with h0
    · generalize (ptrGet (x.bg hn).vals (k + 1)).bind (fun v => toString2 [b] (n % 64) v false) = T
      cases T with
      | error e => intro hr; cases hr
      | ok t =>
        rw [res_map_ok, res_bind_ok]
        intro hr
        refine padResult_last _ _ ?_ hr
        cases a with
        | nil => cases ha
        | cons p q => exact ha
    · rw [res_bind_ok]
      intro hr
      exact padResult_last _ _ ha hr

/-- **C101, refuted.** When bits 60 to 63 are zero and the lowest hexadecimal digit is not, the
hexadecimal text of a wide signed 2-state vector differs from that of the 4-state vector with the same
bits: its digits come out mirrored within the limb. -/
theorem C101_refuted (hn : ¬ n ≤ 64) (x : Bits n true) {b : Char} (h : OutBase b 4)
    (hx : ∀ j, j < 4 → x.bv.getLsbD (60 + j) = false) (h0 : ∃ j, j < 4 ∧ x.bv.getLsbD j = true) :
    x.str [b] ≠ Lg.str ⟨x, Bits.zero⟩ [b] := by
  rw [Lg.str_wide hn _ h (by decide)]
  intro he
  have hl := Bits.hex_last hn x h hx he
  have hw : wideCount n 4 = (wideCount n 4 - 1) + 1 := by
    have : 0 < wideCount n 4 := by unfold wideCount; have := limbs_ge_two hn; split_ifs <;> omega
    omega
  rw [hw, List.range_succ_eq_map, List.reverse_cons, List.map_append, ← List.append_assoc, List.map_singleton,
    List.getLast?_concat, Option.some.injEq] at hl
  obtain ⟨j, hj, hb⟩ := h0
  rw [Bits.getLsbD_bv] at hb
  have hb : x.raw j = true := by simp only [Bool.and_eq_true] at hb; exact hb.2
  have t : ∀ a0 a1 a2 a3 : Bool, (a0 || a1 || a2 || a3) = true →
      digit4 4 (fun j => V4.mk (match j with | 0 => a0 | 1 => a1 | 2 => a2 | _ => a3) false) ≠ '0' := by decide +kernel
  refine t (x.raw 0) (x.raw 1) (x.raw 2) (x.raw 3) ?_ (Eq.trans (digit4_congr fun i hi => ?_) hl)
  · have : j = 0 ∨ j = 1 ∨ j = 2 ∨ j = 3 := by omega
    rcases this with rfl | rfl | rfl | rfl <;> simp [hb]
  · have : i = 0 ∨ i = 1 ∨ i = 2 ∨ i = 3 := by omega
    rw [Bits.raw_zero]
    rcases this with rfl | rfl | rfl | rfl <;> rfl

/-- a case of `C101_refuted`: the value 1 in 65 bits -/
example : ∃ x : Bits 65 true, x.Clean ∧ x.bv = 1#65 ∧ x.str ['x'] ≠ Lg.str ⟨x, Bits.zero⟩ ['x'] := by
  obtain ⟨x, hc, hb⟩ := Bits.exists_clean (s := true) (1#65)
  refine ⟨x, hc, hb, C101_refuted (by decide) x .xl ?_ ⟨0, by decide, ?_⟩⟩
  · intro j hj
    rw [hb]
    have : j = 0 ∨ j = 1 ∨ j = 2 ∨ j = 3 := by omega
    rcases this with rfl | rfl | rfl | rfl <;> rfl
  · rw [hb]; rfl

/-- a case of `C101_hex_partial`: all 72 bits set -/
example : ∃ x : Bits 72 true, x.Clean ∧ x.bv = BitVec.allOnes 72 ∧ x.str ['x'] = Lg.str ⟨x, Bits.zero⟩ ['x'] := by
  obtain ⟨x, hc, hb⟩ := Bits.exists_clean (s := true) (BitVec.allOnes 72)
  refine ⟨x, hc, hb, C101_hex_partial (by decide) x hc .xl ?_ (.inr ⟨0, by decide, ?_⟩)⟩
  · intro i hi
    have : i = 0 := by omega
    subst this
    exact .inr ⟨0, by decide, by rw [hb]; rfl⟩
  · rw [hb]; rfl

end Verif
