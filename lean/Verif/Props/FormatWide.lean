import Verif.Props.Format
import Verif.Props.Access

/-!
# Formatting of wide values (C07, C70, C76)

The limb-wise formatter of `src/util.cc` 589-755.
-/

namespace Verif

variable {n : Nat} {s : Bool}

/-! ### chunks of a limb array -/

theorem ptrGet_limb (x : Big n s) {i : Nat} (hi : i < limbs n) : ptrGet x.vals i = .ok (x.limb i) := by
  have : i < x.vals.length := by rw [x.len]; exact hi
  rw [ptrGet, List.getElem?_eq_getElem this, Big.limb, List.getD_eq_getElem?_getD, List.getElem?_eq_getElem this]
  rfl

theorem ptrGet_oob (x : Big n s) {i : Nat} (hi : limbs n ≤ i) : ptrGet x.vals i = .error .oob := by
  rw [ptrGet, List.getElem?_eq_none (by rw [x.len]; exact hi)]

/-- the format string selects the base `b`, whatever the size -/
def FmtBase (fmt : List Char) (b : Char) : Prop :=
  ∀ size, size ≤ 64 → ∃ f, parseFmt fmt size = .ok f ∧ f.base = b

theorem FmtBase.chunk {fmt : List Char} {b : Char} (hf : FmtBase fmt b) {size : Nat} (hs : size ≤ 64) (v k : BitVec 64) :
    toString4_ fmt size v k false false = .ok (body4 b size v k) := by
  obtain ⟨f, hp, hb⟩ := hf size hs
  rw [toString4_, hp, res_bind_ok, if_neg (by decide), hb]

/-- digit `k` of two limb arrays -/
def bigDigit (st : Nat) (V : Big n s) {t : Bool} (K : Big n t) (k : Nat) : Char :=
  digit4 st fun j => V4.mk (V.raw (st * k + j)) (K.raw (st * k + j))

/-- how many digits the limb-wise formatter writes: the last limb is dropped when it is full -/
def wideCount (n st : Nat) : Nat := if n % 64 = 0 then (n - 64) / st else (n + st - 1) / st

theorem OutBase.aligned {b : Char} {st : Nat} (h : OutBase b st) (h3 : st ≠ 3) : st = 1 ∨ st = 4 := by
  cases h <;> simp at h3 ⊢

theorem wordDigit_limb {st : Nat} (h : st = 1 ∨ st = 4) (V : Big n s) {t : Bool} (K : Big n t) (k : Nat) :
    wordDigit st (V.limb (k / (64 / st))) (K.limb (k / (64 / st))) (k % (64 / st)) = bigDigit st V K k := by
  apply digit4_congr
  intro j hj
  have e1 : (st * k + j) / 64 = k / (64 / st) := by rcases h with rfl | rfl <;> omega
  have e2 : (st * k + j) % 64 = st * (k % (64 / st)) + j := by rcases h with rfl | rfl <;> omega
  rw [Big.raw, Big.raw, e1, e2]

theorem wide_body {fmt : List Char} {b : Char} {st : Nat} (hf : FmtBase fmt b) (h : OutBase b st) (h3 : st ≠ 3)
    (hn : ¬ n ≤ 64) (V : Big n s) {t : Bool} (K : Big n t) :
    ((appendAll (fun i => (ptrGet V.vals i).bind fun v => (ptrGet K.vals i).bind fun k =>
            toString4_ fmt 64 v k false false) (List.range (limbs n - 1))).bind fun a =>
        if n % 64 ≠ 0 then
          ((ptrGet V.vals (limbs n - 1)).bind fun v => (ptrGet K.vals (limbs n - 1)).bind fun k =>
            toString4_ fmt (n % 64) v k false false).map (a ++ ·)
        else .ok a) = .ok ((List.range (wideCount n st)).map (bigDigit st V K)) := by
  have hst := h.aligned h3
  have hB : 0 < 64 / st := by rcases hst with rfl | rfl <;> decide
  have e := appendAll_range (fun i => (ptrGet V.vals i).bind fun v => (ptrGet K.vals i).bind fun k =>
            toString4_ fmt 64 v k false false) (fun i => wordDigit st (V.limb i) (K.limb i)) hB (limbs n - 1) (by
    intro i hi
    rw [ptrGet_limb V (by omega), ptrGet_limb K (by omega), res_bind_ok, res_bind_ok, hf.chunk (by decide), body4_eq h (by decide)]
    congr 3
    rcases hst with rfl | rfl <;> rfl)
  rw [e, res_bind_ok]
  have hcongr : ∀ c, (List.range c).map (fun k => wordDigit st (V.limb (k / (64 / st))) (K.limb (k / (64 / st))) (k % (64 / st))) =
      (List.range c).map (bigDigit st V K) := fun c => List.map_congr_left fun k _ => wordDigit_limb hst V K k
  rw [hcongr]
  by_cases h0 : n % 64 = 0
  · rw [if_neg (by simpa using h0)]
    congr 3
    unfold wideCount limbs
    rw [if_pos h0, if_pos h0]
    rcases hst with rfl | rfl <;> omega
  · have hl : limbs n - 1 = n / 64 := by unfold limbs; rw [if_neg h0]; omega
    rw [if_pos h0, ptrGet_limb V (by omega), ptrGet_limb K (by omega), res_bind_ok, res_bind_ok,
      hf.chunk (by omega), body4_eq h (by omega), res_map_ok, hl]
    congr 1
    have hc : wideCount n st = n / 64 * (64 / st) + (n % 64 + st - 1) / st := by
      unfold wideCount
      rw [if_neg h0]
      rcases hst with rfl | rfl <;> omega
    rw [hc, List.range_add, List.map_append, List.map_map]
    congr 1
    apply List.map_congr_left
    intro k hk
    have hk : k < (n % 64 + st - 1) / st := List.mem_range.1 hk
    simp only [Function.comp]
    rw [← wordDigit_limb hst]
    have e1 : (n / 64 * (64 / st) + k) / (64 / st) = n / 64 := by rcases hst with rfl | rfl <;> omega
    have e2 : (n / 64 * (64 / st) + k) % (64 / st) = k := by rcases hst with rfl | rfl <;> omega
    rw [e1, e2]

theorem fmtBase_letter {b : Char} {st : Nat} (h : OutBase b st) (rest : List Char) : FmtBase (b :: rest) b := by
  intro size _
  rw [parseFmt_letter h.notDigit, possibleSize_out h]
  exact ⟨_, rfl, rfl⟩

/-- the text of a wide object in binary or hexadecimal -/
theorem Lg.str_wide (hn : ¬ n ≤ 64) (x : Lg n s) {b : Char} {st : Nat} (h : OutBase b st) (h3 : st ≠ 3) :
    x.str [b] = .ok (List.replicate ((n + st - 1) / st - wideCount n st) '0' ++
      (List.range (wideCount n st)).reverse.map fun k =>
        digit4 st fun j => V4.mk (x.value.raw (st * k + j)) (x.xz.raw (st * k + j))) := by
  have hd : decimalFmt [b] = false := by
    rw [show [b] = [] ++ b :: [] from rfl, decimalFmt_letter h.notDigit (by simp), h.notDec]
  have hno : ¬ (b = 'o' ∨ b = 'O') := by cases h <;> first | decide | exact absurd rfl h3
  have hpad : ¬ (isDec b || decide (b = 's') || decide (b = 'S')) = true := by cases h <;> decide
  have hcnt : (n + st - 1) / st < wideCount n st + 2 ^ 32 := by
    unfold wideCount
    cases h <;> first | exact absurd rfl h3 | (split_ifs <;> omega)
  rw [Lg.str, dif_neg hn, hd, Bool.and_false, if_neg (by decide), toStringBig4, parseFmt_letter h.notDigit,
    possibleSize_out h, res_map_ok, res_bind_ok]
  simp only
  rw [h.notDec, if_pos (by decide), if_neg hno, wide_body (fmtBase_letter h []) h h3 hn, res_bind_ok, padResult_eq (by intro _; simpa using hcnt) (by simp), padText]
  simp only
  rw [if_pos True.intro, if_neg hpad, minusText, Bool.false_and, if_neg (by decide), if_neg (by decide), Nat.add_zero,
    List.length_reverse, List.length_map, List.length_range, List.map_reverse]
  congr 3
  apply List.map_congr_left
  intro k _
  rw [bigDigit]
  apply digit4_congr
  intro j _
  rw [Bits.raw_big hn, Bits.raw_big hn]

theorem raw_at (x : Lg n s) {i : Nat} (hi : i < n) : V4.mk (x.value.raw i) (x.xz.raw i) = x.at i := (Lg.at_lt x hi).symm

theorem raw_at_clean (hn : ¬ n ≤ 64) (x : Lg n s) (hc : x.Clean) (i : Nat) :
    V4.mk (x.value.raw i) (x.xz.raw i) = x.at i := by
  by_cases hi : i < n
  · exact raw_at x hi
  · have h1 := (Big.clean_iff _).1 ((Bits.clean_big hn _).1 hc.1) i (by omega)
    have h2 := (Big.clean_iff _).1 ((Bits.clean_big hn _).1 hc.2) i (by omega)
    rw [Bits.raw_big hn, Bits.raw_big hn, h1, h2, Lg.at, BitVec.getLsbD_of_ge _ _ (by omega), BitVec.getLsbD_of_ge _ _ (by omega)]

/-- **C70, wide, exact.** When `n` is not a multiple of 64 the text has `n` characters, character
`n-1-i` showing bit `i`; when it is, the first 64 characters are zeros and the others show bits
`n-65 .. 0`. -/
theorem C70_wide_exact (hn : ¬ n ≤ 64) (x : Lg n s) {b : Char} (hb : b = 'b' ∨ b = 'B') :
    x.str [b] = .ok (if n % 64 = 0 then List.replicate 64 '0' ++ (List.range (n - 64)).reverse.map fun i => (x.at i).char
      else (List.range n).reverse.map fun i => (x.at i).char) := by
  have h : OutBase b 1 := by rcases hb with rfl | rfl; exacts [.b, .B]
  have key : ∀ c, c ≤ n → ((List.range c).reverse.map fun k =>
        digit4 1 fun j => V4.mk (x.value.raw (1 * k + j)) (x.xz.raw (1 * k + j))) =
        (List.range c).reverse.map fun i => (x.at i).char := by
    intro c hc
    apply List.map_congr_left
    intro k hk
    have hk : k < c := by simpa using hk
    rw [digit4_one, Nat.one_mul, Nat.add_zero, raw_at x (by omega)]
  rw [Lg.str_wide hn x h (by decide)]
  congr 1
  by_cases h0 : n % 64 = 0
  · rw [if_pos h0]
    have : wideCount n 1 = n - 64 := by unfold wideCount; rw [if_pos h0]; omega
    rw [this, key _ (by omega), show (n + 1 - 1) / 1 - (n - 64) = 64 by omega]
  · rw [if_neg h0]
    have : wideCount n 1 = n := by unfold wideCount; rw [if_neg h0]; omega
    rw [this, key _ (by omega), show (n + 1 - 1) / 1 - n = 0 by omega]; rfl

/-- **C70, partial, wide.** Not covered: widths that are multiples of 64. There it is false
(`C70_wide_exact`, `C70_refuted`). Wide 2-state text is `C70_2state_exact`. -/
theorem C70_wide_partial (hn : ¬ n ≤ 64) (h0 : n % 64 ≠ 0) (x : Lg n s) {b : Char} (hb : b = 'b' ∨ b = 'B') :
    x.str [b] = .ok ((List.range n).reverse.map fun i => (x.at i).char) := by
  rw [C70_wide_exact hn x hb, if_neg h0]

/-- **C70, refuted.** At every multiple of 64 above 64, an object whose top bit is not 0 is shown
with a leading 0. -/
theorem C70_refuted (hn : ¬ n ≤ 64) (h0 : n % 64 = 0) (x : Lg n s) {b : Char} (hb : b = 'b' ∨ b = 'B')
    (hx : x.at (n - 1) ≠ .b0) :
    x.str [b] ≠ .ok ((List.range n).reverse.map fun i => (x.at i).char) := by
  rw [C70_wide_exact hn x hb, if_pos h0]
  intro he
  have he := congrArg (fun l => l[0]?) (Except.ok.inj he)
  rw [List.getElem?_append_left (by simp), List.getElem?_replicate, if_pos (by decide), List.getElem?_map,
    List.getElem?_reverse (by simpa using by omega), List.getElem?_range (by simp; omega)] at he
  simp only [List.length_range, Option.map_some, Option.some.injEq, Nat.sub_zero] at he
  revert he hx
  cases x.at (n - 1) <;> decide

example : ∃ x : Lg 128 false, (Lg.dflt : Res (Lg 128 false)) = .ok x ∧ x.at 127 = .x := by
  obtain ⟨y, hy, h⟩ := Lg.dflt_at (n := 128) (s := false) (by decide)
  exact ⟨y, hy, h 127 (by decide)⟩

/-- **C76, exact, hexadecimal (and binary).** -/
theorem C76_hex_exact (hn : ¬ n ≤ 64) (x : Lg n s) (hc : x.Clean) {b : Char} {st : Nat} (h : OutBase b st) (h3 : st ≠ 3) :
    x.str [b] = .ok (if n % 64 = 0 then List.replicate (64 / st) '0' ++
        (List.range ((n - 64) / st)).reverse.map fun k => digit4 st fun j => x.at (st * k + j)
      else (List.range ((n + st - 1) / st)).reverse.map fun k => digit4 st fun j => x.at (st * k + j)) := by
  have key : ∀ c, ((List.range c).reverse.map fun k =>
        digit4 st fun j => V4.mk (x.value.raw (st * k + j)) (x.xz.raw (st * k + j))) =
        (List.range c).reverse.map fun k => digit4 st fun j => x.at (st * k + j) :=
    fun c => List.map_congr_left fun k _ => digit4_congr fun j _ => raw_at_clean hn x hc _
  rw [Lg.str_wide hn x h h3, key]
  have hst := h.aligned h3
  congr 1
  by_cases h0 : n % 64 = 0
  · have e : wideCount n st = (n - 64) / st := by unfold wideCount; rw [if_pos h0]
    rw [if_pos h0, e, show (n + st - 1) / st - (n - 64) / st = 64 / st by rcases hst with rfl | rfl <;> omega]
  · have e : wideCount n st = (n + st - 1) / st := by unfold wideCount; rw [if_neg h0]
    rw [if_neg h0, e, Nat.sub_self]; rfl

/-- **C76, partial, hexadecimal and binary.** Every digit of a clean value whose width is not a
multiple of 64 shows its bits, x/z digits included. Missing: multiples of 64, for which it is false
(`C76_hex_exact`, `C76_hex_refuted`). -/
theorem C76_hex_partial (hn : ¬ n ≤ 64) (h0 : n % 64 ≠ 0) (x : Lg n s) (hc : x.Clean) {b : Char} {st : Nat}
    (h : OutBase b st) (h3 : st ≠ 3) :
    x.str [b] = .ok ((List.range ((n + st - 1) / st)).reverse.map fun k => digit4 st fun j => x.at (st * k + j)) := by
  rw [C76_hex_exact hn x hc h h3, if_neg h0]

/-- **C76, refuted, hexadecimal and binary.** At every multiple of 64 above 64 the text does not
depend on the top 64 bits. -/
theorem C76_hex_refuted (hn : ¬ n ≤ 64) (h0 : n % 64 = 0) (x y : Lg n s) (hx : x.Clean) (hy : y.Clean)
    (he : ∀ i, i < n - 64 → x.at i = y.at i) {b : Char} {st : Nat} (h : OutBase b st) (h3 : st ≠ 3) :
    x.str [b] = y.str [b] := by
  rw [C76_hex_exact hn x hx h h3, C76_hex_exact hn y hy h h3, if_pos h0, if_pos h0]
  congr 2
  apply List.map_congr_left
  intro k hk
  have hk : k < (n - 64) / st := by simpa using hk
  apply digit4_congr
  intro j hj
  apply he
  have := h.aligned h3
  rcases this with rfl | rfl <;> omega

/-! ### wide octal -/

/-- bit `j` of the octal digit at bit position `p`, as `to_string` reads it: a digit that
crosses a limb boundary takes the low bits of the next limb unshifted -/
def octBit (r : Nat → Bool) (p j : Nat) : Bool :=
  if p % 64 ≤ 61 then r (p + j)
  else if p % 64 = 62 then (if j = 0 then r p || r (p + 2) else if j = 1 then r (p + 1) else false)
  else (if j = 0 then r p || r (p + 1) else if j = 1 then r (p + 2) else false)

theorem octChunk_ok (V : Big n s) {p : Nat} (hp : p / 64 < limbs n) (hc : p % 64 ≤ 61 ∨ p / 64 + 1 < limbs n) :
    ∃ w, octChunk V.vals p = .ok w ∧ ∀ j, j < 3 → w.getLsbD j = octBit V.raw p j := by
  have hm : ∀ j, (7#64).getLsbD j = decide (j < 3) := by
    intro j
    have := congrFun (congrArg BitVec.getLsbD (show 7#64 = getMask 3 by decide)) j
    rw [this, getMask, BitVec.getLsbD_ushiftRight, BitVec.getLsbD_allOnes]
    by_cases h : j < 3
    · simp [h]; omega
    · simp [h]; omega
  rw [octChunk, ptrGet_limb V hp, res_bind_ok]
  by_cases h : p % 64 ≤ 61
  · rw [if_neg (by omega)]
    refine ⟨_, rfl, fun j hj => ?_⟩
    rw [BitVec.getLsbD_and, hm, decide_eq_true hj, Bool.and_true, BitVec.getLsbD_ushiftRight, octBit, if_pos h, Big.raw,
      show (p + j) / 64 = p / 64 by omega, show (p + j) % 64 = p % 64 + j by omega]
  · rw [if_pos (by omega), ptrGet_limb V (by omega), res_map_ok]
    refine ⟨_, rfl, fun j hj => ?_⟩
    have hs : ∀ c, ((7#64) >>> c).getLsbD j = decide (c + j < 3) := by
      intro c; rw [BitVec.getLsbD_ushiftRight, hm]
    rw [BitVec.getLsbD_or, BitVec.getLsbD_and, hm, decide_eq_true hj, Bool.and_true, BitVec.getLsbD_ushiftRight,
      BitVec.getLsbD_and, hs, octBit, if_neg h]
    have hrs : ∀ i, V.raw i = (V.limb (i / 64)).getLsbD (i % 64) := fun _ => rfl
    by_cases h62 : p % 64 = 62
    · rw [if_pos h62, hrs, hrs, hrs, h62, show (p + 1) / 64 = p / 64 by omega, show (p + 1) % 64 = 63 by omega,
        show (p + 2) / 64 = p / 64 + 1 by omega, show (p + 2) % 64 = 0 by omega]
      have : j = 0 ∨ j = 1 ∨ j = 2 := by omega
      rcases this with rfl | rfl | rfl <;> simp
    · have h63 : p % 64 = 63 := by omega
      rw [if_neg h62, hrs, hrs, hrs, h63, show (p + 1) / 64 = p / 64 + 1 by omega, show (p + 1) % 64 = 0 by omega,
        show (p + 2) / 64 = p / 64 + 1 by omega, show (p + 2) % 64 = 1 by omega]
      have : j = 0 ∨ j = 1 ∨ j = 2 := by omega
      rcases this with rfl | rfl | rfl <;> simp

/-- the widths whose last octal digit makes the formatter read past the limb array -/
def OctOob (n : Nat) : Prop := n % 192 = 64 ∨ n % 192 = 127 ∨ n % 192 = 128

theorem octal_body {fmt : List Char} {b : Char} (hf : FmtBase fmt b) (h : OutBase b 3)
    (ho : ¬ OctOob n) (V : Big n s) {t : Bool} (K : Big n t) :
    appendAll (fun i => (octChunk V.vals (i * 3)).bind fun v =>
            (octChunk K.vals (i * 3)).bind fun k => toString4_ fmt 3 v k false false)
          (List.range ((n + 2) / 3)) = .ok ((List.range ((n + 2) / 3)).map fun k =>
            digit4 3 fun j => V4.mk (octBit V.raw (3 * k) j) (octBit K.raw (3 * k) j)) := by
  unfold OctOob at ho
  have e := appendAll_range (fun i => (octChunk V.vals (i * 3)).bind fun v =>
            (octChunk K.vals (i * 3)).bind fun k => toString4_ fmt 3 v k false false)
    (fun k _ => digit4 3 fun j => V4.mk (octBit V.raw (3 * k) j) (octBit K.raw (3 * k) j)) (B := 1) (by decide) ((n + 2) / 3) (by
    intro k hk
    have hp : k * 3 < n := by omega
    have h1 := div_lt_limbs hp
    have h2 : (k * 3) % 64 ≤ 61 ∨ (k * 3) / 64 + 1 < limbs n := by
      by_contra hc
      push Not at hc
      have := le_limbs n
      have : n ≤ (k * 3) / 64 * 64 + 64 := by omega
      obtain ⟨q, r, hr, hq⟩ : ∃ q r, r < 3 ∧ (k * 3) / 64 = 3 * q + r :=
        ⟨(k * 3) / 64 / 3, (k * 3) / 64 % 3, Nat.mod_lt _ (by decide), by omega⟩
      have : r = 0 ∨ r = 1 ∨ r = 2 := by omega
      rcases this with rfl | rfl | rfl <;> omega
    obtain ⟨v, ev, hv⟩ := octChunk_ok V h1 h2
    obtain ⟨w, ew, hw'⟩ := octChunk_ok K h1 h2
    rw [ev, ew, res_bind_ok, res_bind_ok, hf.chunk (by decide), body4_eq h (by decide)]
    rw [show (3 + 3 - 1) / 3 = 1 from rfl, show List.range 1 = [0] from rfl, List.map_singleton,
      List.map_singleton, wordDigit]
    congr 2
    apply digit4_congr
    intro j hj
    rw [Nat.mul_zero, Nat.zero_add, hv j hj, hw' j hj, Nat.mul_comm])
  rw [e, Nat.mul_one]
  congr 1
  apply List.map_congr_left
  intro k _
  rw [Nat.div_one]

theorem Lg.str_octal (hn : ¬ n ≤ 64) (ho : ¬ OctOob n) (x : Lg n s) {b : Char} (hb : b = 'o' ∨ b = 'O') :
    x.str [b] = .ok ((List.range ((n + 2) / 3)).reverse.map fun k =>
        digit4 3 fun j => V4.mk (octBit x.value.raw (3 * k) j) (octBit x.xz.raw (3 * k) j)) := by
  have h : OutBase b 3 := by rcases hb with rfl | rfl; exacts [.o, .O]
  have hd : decimalFmt [b] = false := by
    rw [show [b] = [] ++ b :: [] from rfl, decimalFmt_letter h.notDigit (by simp), h.notDec]
  have e1 : (x.value.bg hn).raw = x.value.raw := funext fun i => (Bits.raw_big hn _ i).symm
  have e2 : (x.xz.bg hn).raw = x.xz.raw := funext fun i => (Bits.raw_big hn _ i).symm
  rw [Lg.str, dif_neg hn, hd, Bool.and_false, if_neg (by decide), toStringBig4, parseFmt_letter h.notDigit,
    possibleSize_out h, res_map_ok, res_bind_ok]
  simp only
  rw [h.notDec, if_pos (by decide), if_pos hb, octal_body (fmtBase_letter h []) h ho, res_bind_ok,
    padResult_full (by simp), minusText, Bool.false_and, if_neg (by decide), List.map_reverse, e1, e2]

/-- **C76, partial, octal.** For widths other than `192q+64`, `192q+127` and `192q+128`, the
octal text has `⌈n/3⌉` digits, and every digit that lies within one 64-bit limb shows its bits.
Missing: those widths, where formatting reads past the array (`C76_octal_oob_refuted`), and the
digits that cross a limb (`C76_octal_refuted`). -/
theorem C76_octal_partial (hn : ¬ n ≤ 64) (ho : ¬ OctOob n) (x : Lg n s) (hc : x.Clean) {b : Char} (hb : b = 'o' ∨ b = 'O') :
    ∃ t, x.str [b] = .ok t ∧ t.length = (n + 2) / 3 ∧ ∀ k, k < (n + 2) / 3 → (3 * k) / 64 = (3 * k + 2) / 64 →
      t.reverse[k]? = some (digit4 3 fun j => x.at (3 * k + j)) := by
  refine ⟨_, Lg.str_octal hn ho x hb, by simp, fun k hk hin => ?_⟩
  rw [← List.map_reverse, List.reverse_reverse, List.getElem?_map, List.getElem?_range hk, Option.map_some]
  congr 1
  apply digit4_congr
  intro j hj
  rw [octBit, octBit, if_pos (by omega), if_pos (by omega), raw_at_clean hn x hc]

/-- **C76, refuted, octal.** At widths `192q+64`, `192q+127`, `192q+128` every octal formatting
reads past the end of the limb array. -/
theorem C76_octal_oob_refuted (hn : ¬ n ≤ 64) (ho : OctOob n) (x : Lg n s) {b : Char} (hb : b = 'o' ∨ b = 'O') :
    x.str [b] = .error .oob := by
  have h : OutBase b 3 := by rcases hb with rfl | rfl; exacts [.o, .O]
  have hd : decimalFmt [b] = false := by
    rw [show [b] = [] ++ b :: [] from rfl, decimalFmt_letter h.notDigit (by simp), h.notDec]
  unfold OctOob at ho
  have hl : limbs n * 64 < n + 64 := limbs_lt n
  have hle := le_limbs n
  rw [Lg.str, dif_neg hn, hd, Bool.and_false, if_neg (by decide), toStringBig4, parseFmt_letter h.notDigit,
    possibleSize_out h, res_map_ok, res_bind_ok]
  simp only
  rw [h.notDec, if_pos (by decide), if_pos hb, appendAll_error _ .oob]
  · rfl
  · intro k hk
    have hk : k < (n + 2) / 3 := List.mem_range.1 hk
    have h1 := div_lt_limbs (show k * 3 < n by omega)
    by_cases h2 : (k * 3) % 64 ≤ 61 ∨ (k * 3) / 64 + 1 < limbs n
    · left
      obtain ⟨v, ev, -⟩ := octChunk_ok (x.value.bg hn) h1 h2
      obtain ⟨w, ew, -⟩ := octChunk_ok (x.xz.bg hn) h1 h2
      rw [ev, ew, res_bind_ok, res_bind_ok, (fmtBase_letter h []).chunk (by decide)]
      exact ⟨_, rfl⟩
    · right
      push Not at h2
      rw [octChunk, ptrGet_limb _ h1, res_bind_ok, if_pos (by omega), ptrGet_oob _ h2.2]; rfl
  · refine ⟨(n + 2) / 3 - 1, by rw [List.mem_range]; omega, ?_⟩
    have h1 := div_lt_limbs (show ((n + 2) / 3 - 1) * 3 < n by omega)
    have h2 : ¬ (((n + 2) / 3 - 1) * 3) % 64 ≤ 61 := by omega
    have h3 : limbs n ≤ (((n + 2) / 3 - 1) * 3) / 64 + 1 := by omega
    rw [octChunk, ptrGet_limb _ h1, res_bind_ok, if_pos (by omega), ptrGet_oob _ h3]; rfl

/-- **C76, refuted, octal.** In every width where octal formatting reads only the array there is a value whose
text is wrong: for `2^64` the digit of bits 63, 64, 65 is printed as 1 and not as 2. -/
theorem C76_octal_refuted (hn : ¬ n ≤ 64) (ho : ¬ OctOob n) {b : Char} (hb : b = 'o' ∨ b = 'O') :
    ∃ x : Lg n s, x.Clean ∧ x.Known ∧ x.at 64 = .b1 ∧ (∀ i, i < n → i ≠ 64 → x.at i = .b0) ∧
      ∃ t, x.str [b] = .ok t ∧ t.reverse[21]? = some '1' ∧ (digit4 3 fun j => x.at (3 * 21 + j)) = '2' := by
  obtain ⟨x, hc, hx⟩ := Lg.exists_clean n s (fun i => if i = 64 then .b1 else .b0)
  have h64 := hx 64 (by omega)
  have hoth : ∀ i, i < n → i ≠ 64 → x.at i = .b0 := by
    intro i hi hne; rw [hx i hi, if_neg hne]
  have hall : ∀ i, i ≠ 64 → x.at i = .b0 := by
    intro i hne
    by_cases hi : i < n
    · exact hoth i hi hne
    · rw [Lg.at, BitVec.getLsbD_of_ge _ _ (by omega), BitVec.getLsbD_of_ge _ _ (by omega)]; rfl
  rw [if_pos rfl] at h64
  refine ⟨x, hc, ?_, h64, hoth, _, Lg.str_octal hn ho x hb, ?_, ?_⟩
  · refine ⟨hc.2, fun i hi => ?_⟩
    by_cases h : i = 64
    · subst h; rw [h64]; rfl
    · rw [hoth i hi h]; rfl
  · rw [← List.map_reverse, List.reverse_reverse, List.getElem?_map, List.getElem?_range (by omega), Option.map_some]
    have hr := fun i => raw_at_clean hn x hc i
    have hv : ∀ i, x.value.raw i = decide (i = 64) ∧ x.xz.raw i = false := by
      intro i
      have := hr i
      by_cases hi : i = 64
      · subst hi
        rw [h64, show V4.b1 = V4.mk true false from rfl, V4.mk_inj] at this
        simpa using this
      · rw [hall i hi, show V4.b0 = V4.mk false false from rfl, V4.mk_inj] at this
        simpa [hi] using this
    have e1 : x.value.raw = fun i => decide (i = 64) := funext fun i => (hv i).1
    have e2 : x.xz.raw = fun _ => false := funext fun i => (hv i).2
    rw [e1, e2]
    decide
  · rw [digit4_congr (g := fun j => if j = 1 then .b1 else .b0) (fun j hj => by
      by_cases h1 : j = 1
      · subst h1; rw [if_pos rfl]; exact h64
      · rw [if_neg h1]; exact hall _ (by omega))]
    decide

/-! ### wide decimal -/

theorem low128_eq (hn : ¬ n ≤ 64) (V : Big n s) : low128 V.vals n = .ok (val V.vals % 2 ^ 128) := by
  have hl := limbs_ge_two hn
  have hlen := V.len
  rw [low128, if_pos (by omega), ptrGet_limb V (by omega), ptrGet_limb V (by omega), res_bind_ok, res_map_ok]
  congr 1
  unfold Big.limb
  match hv : V.vals, hlen with
  | [], hlen => rw [List.length_nil] at hlen; exact absurd hlen (by clear hv; omega)
  | [a], hlen => rw [List.length_singleton] at hlen; exact absurd hlen (by clear hv; omega)
  | a :: b :: r, _ =>
    simp only [List.getD_cons_zero, List.getD_cons_succ, val]
    have ha := a.isLt
    have hb := b.isLt
    omega

/-- the text of a number in the wide formatter: zero is the empty text -/
def wideDec (v : Nat) : List Char := if v = 0 then [] else numeral v

theorem lsDigits_wide {v : Nat} (h : v < 2 ^ 128) : (lsDigits 10 128 v).reverse = wideDec v := by
  have hlt : v < 10 ^ 128 := lt_of_lt_of_le h (Nat.pow_le_pow_left (show 2 ≤ 10 by decide) 128)
  rw [lsDigits_eq (show 1 < 10 by decide) 128 v hlt, digits_map, wideDec]
  by_cases h0 : v = 0
  · subst h0; simp
  · rw [if_neg h0, numeral, if_neg h0, List.map_reverse]

theorem parseFmt_0d_wide {b : Char} (hb : b = 'd' ∨ b = 'D') {size : Nat} (h : size ≠ 128) :
    ∃ p, parseFmt ['0', b] size = .ok ⟨b, p, false⟩ := by
  have := parseFmt_num (ds := ['0']) (b := b) (by rcases hb with rfl | rfl <;> decide) (by decide) (by decide) (by decide) [] size
  have h0 : fmtNum ['0'] = 0 := by decide
  rw [show ['0', b] = ['0'] ++ b :: [] from rfl, this]
  simp only [h0, if_true]
  by_cases hs : size > 128
  · have : possibleSize b size = .ok size := by
      rcases hb with rfl | rfl <;> simp [possibleSize, hs]
    rw [this, res_map_ok]
    exact ⟨_, rfl⟩
  · have : possibleSize b size = .ok (decimalSize size) := by
      rcases hb with rfl | rfl <;> simp [possibleSize, show ¬ size > 128 by omega, show size < 128 by omega]
    rw [this, res_map_ok]
    exact ⟨_, rfl⟩

theorem toStringBig4_dec {b : Char} (hb : b = 'd' ∨ b = 'D') (hn : ¬ n ≤ 64) (h128 : n ≠ 128) (V : Big n s) {t : Bool} (K : Big n t)
    (hk : val K.vals = 0) (neg : Bool) :
    toStringBig4 ['0', b] n V.vals K.vals neg =
      .ok (if neg then '-' :: wideDec (val V.vals % 2 ^ 128) else wideDec (val V.vals % 2 ^ 128)) := by
  have hdec : isDec b = true := by rcases hb with rfl | rfl <;> rfl
  obtain ⟨p, hp⟩ := parseFmt_0d_wide hb h128
  rw [toStringBig4, hp, res_bind_ok]
  simp only
  rw [hdec, if_neg (by decide), low128_eq hn, low128_eq hn, res_bind_ok, res_map_ok, res_bind_ok, hk,
    padResult_full (by simp), minusText]
  simp only
  rw [hdec, Bool.and_true, bigDecimal4, if_neg (c := 0 % 2 ^ 128 ≠ 0) (by simp), lsDigits_wide (Nat.mod_lt _ (by decide))]

/-- **C76, exact, decimal.** `str("0d")` of a known wide value, other than 128 bits wide: only the low 128
bits are shown, zero as the empty text, and a negative value with the low 128 bits of the
*unmasked* negation. -/
theorem C76_decimal_exact (hn : ¬ n ≤ 64) (h128 : n ≠ 128) (x : Lg n s) (hc : x.Clean) (hk : x.Known) {b : Char}
    (hb : b = 'd' ∨ b = 'D') :
    x.str ['0', b] = .ok (if s && x.value.bv.msb then '-' :: wideDec ((2 ^ 128 - x.value.bv.toNat % 2 ^ 128) % 2 ^ 128)
      else wideDec (x.value.bv.toNat % 2 ^ 128)) := by
  have hdec : isDec b = true := by rcases hb with rfl | rfl <;> rfl
  have hnb : ¬ ('0' ≤ b ∧ b ≤ '9') := by rcases hb with rfl | rfl <;> decide
  have hd : decimalFmt ['0', b] = true := by
    rw [show ['0', b] = ['0'] ++ b :: [] from rfl, decimalFmt_letter hnb (by decide), hdec]
  have hv : x.value.bv.toNat = val (x.value.bg hn).vals := by
    rw [Bits.bv_big hn, Big.Clean.toNat_bv ((Bits.clean_big hn _).1 hc.1)]
  have hkz : val (x.xz.bg hn).vals = 0 := by
    rw [← Big.Clean.toNat_bv ((Bits.clean_big hn _).1 hc.2), ← Bits.bv_big hn, Lg.Known.bv_xz hk]; simp
  have hneg : x.value.negative = x.value.bv.msb := by
    rw [Bits.negative, dif_neg hn, Big.negative_eq _ (by omega), ← Bits.bv_big hn]
  rw [Lg.str, dif_neg hn, hd, Bool.and_true, hneg]
  cases hs : (s && x.value.bv.msb) with
  | false =>
    rw [if_neg (by decide), if_neg (by decide), toStringBig4_dec hb hn h128 _ _ hkz, if_neg (by decide), hv]
  | true =>
    rw [if_pos rfl, if_pos rfl, Bits.negate, dif_neg hn, res_bind_ok, Bits.bg_big, toStringBig4_dec hb hn h128 _ _ hkz,
      if_pos rfl, Big.vals_toSign, Big.negate_spec (by omega), hv]
    congr 3
    have hd : 2 ^ 128 ∣ 2 ^ (64 * limbs n) := Nat.pow_dvd_pow 2 (by have := limbs_ge_two hn; omega)
    have hlt := (x.value.bg hn).val_lt'
    obtain ⟨q, hq⟩ := hd
    have hpos : 0 < 2 ^ (64 * limbs n) := by positivity
    rw [Nat.mod_mod_of_dvd _ ⟨q, hq⟩]
    generalize val (x.value.bg hn).vals = v at *
    rw [hq] at hlt ⊢
    generalize 2 ^ 128 = m at *
    have hm : 0 < m := by
      rcases Nat.eq_zero_or_pos m with h | h
      · subst h; simp at hlt
      · exact h
    have hdm := Nat.div_add_mod v m
    have hml := Nat.mod_lt v hm
    have hqv : v / m < q := Nat.div_lt_of_lt_mul hlt
    have e : m * q - v = (m - v % m) + m * (q - 1 - v / m) := by
      have e1 : m * q = m * (q - 1 - v / m) + m * (v / m) + m := by
        rw [← Nat.mul_add, ← Nat.mul_succ]; congr 1; omega
      omega
    rw [e, Nat.add_mul_mod_self_left]

/-- **C76, partial, decimal.** Covers nonzero known values that are not negative, are below
`2^128` and not 128 bits wide. Missing: all others, for which the text is wrong or undefined
(`C76_decimal_exact`, `C76_decimal_refuted`). -/
theorem C76_decimal_partial (hn : ¬ n ≤ 64) (h128 : n ≠ 128) (x : Lg n s) (hc : x.Clean) (hk : x.Known) {b : Char}
    (hb : b = 'd' ∨ b = 'D') (hneg : s = true → x.value.bv.msb = false) (h0 : x.value.bv ≠ 0) (hlt : x.value.bv.toNat < 2 ^ 128) :
    x.str ['0', b] = .ok (numeralInt (numOf s x.value.bv)) := by
  have hs : (s && x.value.bv.msb) = false := by
    cases s
    · rfl
    · rw [hneg rfl]; rfl
  have hne : x.value.bv.toNat ≠ 0 := by
    intro h; apply h0; apply BitVec.eq_of_toNat_eq; rw [h]; simp
  have hnum : numOf s x.value.bv = x.value.bv.toNat := by
    unfold numOf
    split_ifs with h
    · have : s = true := by revert h; cases s <;> simp
      rw [BitVec.toInt_eq_msb_cond, hneg this, if_neg (by decide)]
    · rfl
  rw [C76_decimal_exact hn h128 x hc hk hb, hs, if_neg (by decide), Nat.mod_eq_of_lt hlt, wideDec, if_neg hne, hnum, numeralInt,
    if_neg (by omega), Int.toNat_natCast]

example : ∃ x : Lg 70 true, Lg.ofString "70'h1234567890123456".toList = .ok x ∧ x.Clean ∧ x.Known ∧
    x.value.bv.msb = false ∧ x.str ['0', 'd'] = .ok "1311768467284833366".toList :=
  ⟨_, rfl, by decide +kernel, by decide +kernel, by decide +kernel, by decide +kernel⟩

theorem ofDigits_numeral (v : Nat) : Nat.ofDigits 10 ((numeral v).reverse.map charVal) = v := by
  rw [numeral]
  by_cases h : v = 0
  · rw [if_pos h, h]; decide
  · rw [if_neg h, ← List.map_reverse, List.reverse_reverse, List.map_map]
    have : (Nat.digits 10 v).map (charVal ∘ fun d => "0123456789".toList.getD d '0') = (Nat.digits 10 v).map id := by
      apply List.map_congr_left
      intro d hd
      have h := Nat.digits_lt_base (b := 10) (by decide) hd
      have : ∀ d, d < 10 → charVal ("0123456789".toList.getD d '0') = d := by decide
      exact this d h
    rw [this, List.map_id, Nat.ofDigits_digits]

theorem numeral_inj {u v : Nat} (h : numeral u = numeral v) : u = v := by
  rw [← ofDigits_numeral u, h, ofDigits_numeral]

/-- **C76, refuted, decimal.** Zero is the empty text in every width, no 128-bit object can be
printed, and every negative value of fewer than 128 bits is printed as another number. -/
theorem C76_decimal_refuted (hn : ¬ n ≤ 64) (x : Lg n s) (hc : x.Clean) (hk : x.Known) {b : Char}
    (hb : b = 'd' ∨ b = 'D') :
    (n ≠ 128 → x.value.bv = 0 → x.str ['0', b] = .ok []) ∧
    (n = 128 → x.str ['0', b] = .error .oob) ∧
    (n < 128 → s = true → x.value.bv.msb = true →
      x.str ['0', b] ≠ .ok (numeralInt (numOf s x.value.bv))) := by
  have hnb : ¬ ('0' ≤ b ∧ b ≤ '9') := by rcases hb with rfl | rfl <;> decide
  refine ⟨fun h128 h0 => ?_, ?_, ?_⟩
  · rw [C76_decimal_exact hn h128 x hc hk hb, h0]
    simp [wideDec]
  · intro h
    subst h
    have hp : parseFmt ['0', b] 128 = .error .oob := by rcases hb with rfl | rfl <;> rfl
    rw [Lg.str, dif_neg hn]
    split_ifs
    · rw [Bits.negate, dif_neg hn, res_bind_ok, toStringBig4, hp]; rfl
    · rw [toStringBig4, hp]; rfl
  · intro h128 hs hm
    have hlt := x.value.bv.isLt
    have hp : 2 ^ n < 2 ^ 128 := Nat.pow_lt_pow_right (by decide) h128
    have hpos : 0 < x.value.bv.toNat := by
      by_contra h0
      have : x.value.bv = 0 := by apply BitVec.eq_of_toNat_eq; simp; omega
      rw [this] at hm; simp at hm
    have hcond : (s && x.value.bv.msb) = true := by rw [hm, Bool.and_true]; exact hs
    have hcond2 : (s && !decide (n ≤ 1)) = true := by
      rw [hs, decide_eq_false (by omega)]; rfl
    rw [C76_decimal_exact hn (by omega) x hc hk hb, if_pos hcond, numOf, if_pos hcond2, BitVec.toInt_eq_msb_cond, if_pos hm,
      numeralInt, if_pos (by omega), Nat.mod_eq_of_lt (by omega : x.value.bv.toNat < 2 ^ 128),
      Nat.mod_eq_of_lt (by omega : 2 ^ 128 - x.value.bv.toNat < 2 ^ 128), wideDec, if_neg (by omega)]
    intro he
    have he := numeral_inj (List.cons.inj (Except.ok.inj he)).2
    omega

/-- a negative wide value that meets the hypotheses: -1 in 65 bits -/
example : ∃ x : Lg 65 true, Lg.ofString "65'h1FFFFFFFFFFFFFFFF".toList = .ok x ∧ x.Clean ∧ x.Known ∧ x.value.bv.msb = true ∧
    numOf true x.value.bv = -1 ∧ x.str ['0', 'd'] = .ok "-340282366920938463426481119284349108225".toList :=
  ⟨_, rfl, by decide +kernel, by decide +kernel, by decide +kernel, by decide +kernel, by decide +kernel⟩

/-! ### wide 2-state values -/

theorem reverse_map_range {α : Type} (f : Nat → α) (m : Nat) :
    ((List.range m).map f).reverse = (List.range m).map fun i => f (m - 1 - i) :=
  List.ext_getElem (by simp) (by intro i h1 h2; simp)

/-- **C70, exact, wide 2-state.** Each 64-bit limb is written in reverse: character `i` from the
right of a full limb shows the mirrored bit of that limb; a full last limb is shown as zeros. -/
theorem C70_2state_exact (hn : ¬ n ≤ 64) (x : Bits n true) {b : Char} (hb : b = 'b' ∨ b = 'B') :
    ∃ t, x.str [b] = .ok t ∧ t.length = n ∧ ∀ i, i < n → t.reverse[i]? = some
      (if i < n - n % 64 then
        (if n % 64 = 0 ∧ n - 64 ≤ i then '0' else if x.bv.getLsbD (64 * (i / 64) + 63 - i % 64) then '1' else '0')
       else if x.bv.getLsbD (2 * n - n % 64 - 1 - i) then '1' else '0') := by
  have h : OutBase b 1 := by rcases hb with rfl | rfl; exacts [.b, .B]
  have hd : decimalFmt [b] = false := by
    rw [show [b] = [] ++ b :: [] from rfl, decimalFmt_letter h.notDigit (by simp), h.notDec]
  have hno : ¬ (b = 'o' ∨ b = 'O') := by rcases hb with rfl | rfl <;> decide
  have hpad : ¬ (isDec b || decide (b = 's') || decide (b = 'S')) = true := by cases h <;> decide
  have hchunk : ∀ size (v : BitVec 64), toString2 [b] size v false =
      .ok ((List.range size).map fun i => if v.getLsbD (size - 1 - i) then '1' else '0') := by
    intro size v
    rw [toString2, parseFmt_letter h.notDigit, possibleSize_out h, res_map_ok, res_bind_ok, if_pos hb, res_bind_ok,
      padResult_full (by simp), minusText, Bool.false_and, if_neg (by decide), reverse_map_range]
  have e := appendAll_range (fun i => (ptrGet (x.bg hn).vals i).bind fun v => toString2 [b] 64 v false)
    (fun i k => if ((x.bg hn).limb i).getLsbD (64 - 1 - k) then '1' else '0') (B := 64) (by decide) (limbs n - 1) (by
      intro i hi
      rw [ptrGet_limb _ (by omega), res_bind_ok, hchunk])
  have hraw : ∀ i, i < n → x.bv.getLsbD i = ((x.bg hn).limb (i / 64)).getLsbD (i % 64) := by
    intro i hi
    rw [x.getLsbD_bv, decide_eq_true hi, Bool.true_and, Bits.raw_big hn]; rfl
  rw [Bits.str, dif_neg hn, if_neg (by decide), hd, Bool.and_false, if_neg (by decide), toStringBig2, parseFmt_letter h.notDigit,
    possibleSize_out h, res_map_ok, res_bind_ok]
  simp only
  rw [h.notDec, if_pos (by decide), if_neg hno, e, res_bind_ok]
  by_cases h0 : n % 64 = 0
  · have hl : (limbs n - 1) * 64 = n - 64 := by unfold limbs; rw [if_pos h0]; omega
    rw [if_neg (by simpa using h0), res_bind_ok, hl, padResult_eq (by intro _; simp; omega) (by simp)]
    refine ⟨_, rfl, ?_, fun i hi => ?_⟩
    · rw [padText, minusText]; simp
    · rw [padText]
      simp only
      rw [if_pos True.intro, if_neg hpad, minusText, Bool.false_and, if_neg (by decide), if_neg (by decide), List.reverse_append,
        List.reverse_reverse, List.reverse_replicate, if_pos (c := i < n - n % 64) (by omega)]
      by_cases hi2 : i < n - 64
      · rw [List.getElem?_append_left (by simpa using hi2), List.getElem?_map, List.getElem?_range hi2, Option.map_some,
          if_neg (c := n % 64 = 0 ∧ n - 64 ≤ i) (by omega), hraw _ (by omega), show (64 * (i / 64) + 63 - i % 64) / 64 = i / 64 by omega,
          show (64 * (i / 64) + 63 - i % 64) % 64 = 64 - 1 - i % 64 by omega]
      · rw [List.getElem?_append_right (by simpa using by omega), List.getElem?_replicate, if_pos (by simp; omega), if_pos ⟨h0, by omega⟩]
  · have hl : limbs n - 1 = n / 64 := by unfold limbs; rw [if_neg h0]; omega
    rw [if_pos h0, ptrGet_limb _ (by omega), res_bind_ok, hchunk, res_map_ok, res_bind_ok, hl, padResult_full (by simp; omega), minusText,
      Bool.false_and, if_neg (by decide)]
    refine ⟨_, rfl, by simp; omega, fun i hi => ?_⟩
    rw [List.reverse_reverse]
    by_cases hi2 : i < n / 64 * 64
    · rw [List.getElem?_append_left (by simpa using hi2), List.getElem?_map, List.getElem?_range hi2, Option.map_some,
        if_pos (c := i < n - n % 64) (by omega), if_neg (c := n % 64 = 0 ∧ n - 64 ≤ i) (by omega), hraw _ (by omega), show (64 * (i / 64) + 63 - i % 64) / 64 = i / 64 by omega,
        show (64 * (i / 64) + 63 - i % 64) % 64 = 64 - 1 - i % 64 by omega]
    · rw [List.getElem?_append_right (by simpa using by omega), List.length_map, List.length_range, List.getElem?_map,
        List.getElem?_range (by omega), Option.map_some, if_neg (c := i < n - n % 64) (by omega), hraw _ (by omega),
        show (2 * n - n % 64 - 1 - i) / 64 = n / 64 by omega, show (2 * n - n % 64 - 1 - i) % 64 = n % 64 - 1 - (i - n / 64 * 64) by omega]

/-- **C70, refuted, wide 2-state.** The last character shows bit 63 and not bit 0. -/
theorem C70_2state_refuted (hn : ¬ n ≤ 64) (x : Bits n true) {b : Char} (hb : b = 'b' ∨ b = 'B')
    (hx : x.bv.getLsbD 0 ≠ x.bv.getLsbD 63) :
    x.str [b] ≠ .ok ((List.range n).reverse.map fun i => if x.bv.getLsbD i then '1' else '0') := by
  obtain ⟨t, h1, -, h3⟩ := C70_2state_exact hn x hb
  rw [h1]
  intro he
  have h3 := h3 0 (by omega)
  rw [Except.ok.inj he, ← List.map_reverse, List.reverse_reverse, List.getElem?_map, List.getElem?_range (by omega), Option.map_some,
    if_pos (c := 0 < n - n % 64) (by omega), if_neg (c := n % 64 = 0 ∧ n - 64 ≤ 0) (by omega), show 64 * (0 / 64) + 63 - 0 % 64 = 63 from rfl] at h3
  revert h3 hx
  cases x.bv.getLsbD 0 <;> cases x.bv.getLsbD 63 <;> decide

example : ∃ x : Bits 70 true, Bits.ofInt 1 = x ∧ x.bv.getLsbD 0 ≠ x.bv.getLsbD 63 := ⟨_, rfl, by decide +kernel⟩

/-! ### default construction -/

/-- **C07, partial.** A default-constructed `bit` reads 0 at every index, a default-constructed
`logic` holds x in every bit and reads x at every index below 64; its text is `n` times `x`
unless `n` is a multiple of 64 above 64. Missing: the reads from index 64 on, which are undefined,
and the text at multiples of 64 above 64, which is wrong (`C07_refuted`). -/
theorem C07_default_partial (hn : 0 < n) (hN : n ≤ 2 ^ 32) :
    (∀ i, i < n → (Bits.zero : Bits n s).get (Rng.down n) i = .ok false) ∧
    ∃ x : Lg n s, Lg.dflt = .ok x ∧ (∀ i, i < n → x.at i = .x) ∧
      (∀ i, i < n → i < 64 → (x.get (Rng.down n) i).map (·.at 0) = .ok .x) ∧
      (n ≤ 64 ∨ n % 64 ≠ 0 → x.str ['b'] = .ok (List.replicate n 'x')) := by
  constructor
  · intro i hi
    rw [C01_read hn hN _ i hi, Bits.bv_zero]; simp
  · obtain ⟨x, hx, hat⟩ := Lg.dflt_at (n := n) (s := s) hn
    refine ⟨x, hx, hat, fun i hi h64 => ?_, fun h => ?_⟩
    · rw [C02_read_ok hn hN x i hi (Or.inl h64), hat i hi]
    · have e : ((List.range n).reverse.map fun i => (x.at i).char) = List.replicate n 'x' := by
        rw [List.eq_replicate_iff]
        refine ⟨by simp, fun c hc => ?_⟩
        obtain ⟨i, hi, rfl⟩ := List.mem_map.1 hc
        rw [hat i (by simpa using hi)]; rfl
      rw [← e]
      by_cases h64 : n ≤ 64
      · exact C70_native h64 x (Or.inl rfl)
      · exact C70_wide_partial h64 (by tauto) x (Or.inl rfl)

/-- **C07, refuted.** Reading a default-constructed wide `logic` at any index from 64 up shifts
out of range; at multiples of 64 above 64 its text starts with 64 zeros. -/
theorem C07_refuted (hn : ¬ n ≤ 64) (hN : n ≤ 2 ^ 32) :
    ∃ x : Lg n s, Lg.dflt = .ok x ∧
      (∀ i, i < n → 64 ≤ i → (x.get (Rng.down n) i).map (·.at 0) = .error .shift) ∧
      (n % 64 = 0 → x.str ['b'] = .ok (List.replicate 64 '0' ++ List.replicate (n - 64) 'x')) := by
  obtain ⟨x, hx, hat⟩ := Lg.dflt_at (n := n) (s := s) (by omega)
  refine ⟨x, hx, fun i hi h64 => ?_, fun h => ?_⟩
  · rw [C02_read_exact (by omega) hN x i hi, hat i hi, if_neg]
    rintro (h | h)
    · omega
    · exact absurd h (by decide)
  · rw [C70_wide_exact hn x (Or.inl rfl), if_pos h]
    congr 2
    rw [List.eq_replicate_iff]
    refine ⟨by simp, fun c hc => ?_⟩
    obtain ⟨i, hi, rfl⟩ := List.mem_map.1 hc
    have hi : i < n - 64 := by simpa using hi
    rw [hat i (by omega)]; rfl

end Verif
