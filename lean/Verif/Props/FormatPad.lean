import Verif.Props.FormatWide

/-!
# Padding (C75)
-/

namespace Verif

variable {n : Nat} {s : Bool}

/-- radix of a format letter -/
def radixOf (b : Char) : Nat :=
  if b = 'b' ∨ b = 'B' then 2 else if b = 'o' ∨ b = 'O' then 8 else if b = 'd' ∨ b = 'D' then 10 else 16

/-- natural width of `n` bits: the characters that the largest `n`-bit number (`n` bits of text for
`s`) takes -/
def natWidth (b : Char) (n : Nat) : Nat :=
  if b = 's' ∨ b = 'S' then (n + 7) / 8 else (Nat.digits (radixOf b) (2 ^ n - 1)).length

/-- spaces for decimal and text, zeros otherwise -/
def padCharOf (b : Char) : Char := if b ∈ ['d', 'D', 's', 'S'] then ' ' else '0'

/-- pads on the left up to `w` characters, not counting the minus sign of a decimal number -/
def padTo (b : Char) (w : Nat) (t : List Char) : List Char :=
  List.replicate (w + (if b ∈ ['d', 'D'] ∧ t.head? = some '-' then 1 else 0) - t.length) (padCharOf b) ++ t

def fmtLetters : List Char := ['b', 'B', 'o', 'O', 'd', 'D', 'x', 'X', 'h', 'H', 's', 'S']

theorem letters_notDigit {b : Char} (hb : b ∈ fmtLetters) : ¬ ('0' ≤ b ∧ b ≤ '9') := by
  revert b; decide

theorem len_digits_pow2 {st : Nat} (hst : 0 < st) (hn : 0 < n) : (Nat.digits (2 ^ st) (2 ^ n - 1)).length = (n + st - 1) / st := by
  have h1 : 1 < 2 ^ st := Nat.one_lt_two_pow (by omega)
  have hpos : 1 < 2 ^ n := Nat.one_lt_two_pow (by omega)
  apply Nat.le_antisymm
  · rw [Nat.digits_length_le_iff h1, ← pow_mul]
    have : n ≤ st * ((n + st - 1) / st) := by
      have := Nat.div_add_mod (n + st - 1) st
      have := Nat.mod_lt (n + st - 1) hst
      omega
    have := Nat.pow_le_pow_right (show 0 < 2 by decide) this
    omega
  · by_contra hc
    push Not at hc
    have hc : (Nat.digits (2 ^ st) (2 ^ n - 1)).length ≤ (n + st - 1) / st - 1 := by omega
    rw [Nat.digits_length_le_iff h1, ← pow_mul] at hc
    have h2 : st * ((n + st - 1) / st - 1) < n := by
      rw [Nat.mul_sub, Nat.mul_one]
      have := Nat.div_add_mod (n + st - 1) st
      omega
    have := Nat.pow_le_pow_right (show 0 < 2 by decide) (show st * ((n + st - 1) / st - 1) + 1 ≤ n by omega)
    rw [pow_succ] at this
    have : 0 < 2 ^ (st * ((n + st - 1) / st - 1)) := by positivity
    omega

/-- the width the code pads to: the natural width, except that decimal text of more than 128 bits is
given one character per bit -/
theorem possibleSize_nat (hn : 0 < n) {b : Char} (hb : b ∈ fmtLetters) (h128 : ¬ (b ∈ ['d', 'D'] ∧ n = 128)) :
    possibleSize b n = .ok (if b ∈ ['d', 'D'] ∧ 128 < n then n else natWidth b n) := by
  have h2 := len_digits_pow2 (st := 1) (by decide) hn
  have h8 := len_digits_pow2 (st := 3) (by decide) hn
  have h16 := len_digits_pow2 (st := 4) (by decide) hn
  have hdec : n < 128 → decimalSize n = (Nat.digits 10 (2 ^ n - 1)).length := by
    intro h
    have hlt : 2 ^ n - 1 < 10 ^ 128 := by
      have h1 := Nat.pow_le_pow_right (show 0 < 2 by decide) (show n ≤ 128 by omega)
      have h2 : 2 ^ 128 ≤ 10 ^ 128 := Nat.pow_le_pow_left (show 2 ≤ 10 by decide) 128
      have h3 : 0 < 2 ^ n := by positivity
      omega
    rw [decimalSize, if_neg (by omega), lsDigits_eq (show 1 < 10 by decide) 128 _ hlt, List.length_map]
  rw [show 2 ^ 1 = 2 from rfl] at h2
  rw [show 2 ^ 3 = 8 from rfl] at h8
  rw [show 2 ^ 4 = 16 from rfl] at h16
  have hb : b = 'b' ∨ b = 'B' ∨ b = 'o' ∨ b = 'O' ∨ b = 'd' ∨ b = 'D' ∨ b = 'x' ∨ b = 'X' ∨ b = 'h' ∨ b = 'H' ∨ b = 's' ∨ b = 'S' := by
    simpa [fmtLetters] using hb
  have dcase : n ≠ 128 → (if n > 128 then .ok n else if n < 128 then .ok (decimalSize n) else .error .oob : Res Nat) =
      .ok (if 128 < n then n else (Nat.digits 10 (2 ^ n - 1)).length) := by
    intro h
    rcases Nat.lt_or_ge 128 n with h | h
    · rw [if_pos h, if_pos h]
    · rw [if_neg (by omega), if_pos (by omega), if_neg (by omega), hdec (by omega)]
  rcases hb with rfl | rfl | rfl | rfl | rfl | rfl | rfl | rfl | rfl | rfl | rfl | rfl
  case inr.inr.inr.inr.inl => simpa [possibleSize, natWidth, radixOf] using dcase (by simpa using h128)
  case inr.inr.inr.inr.inr.inl => simpa [possibleSize, natWidth, radixOf] using dcase (by simpa using h128)
  all_goals simp [possibleSize, natWidth, radixOf, h2, h8, h16]

theorem digitChar_ne (d : Nat) (h : d < 10) : digitChar d ≠ '-' := by
  have : ∀ d, d < 10 → digitChar d ≠ '-' := by decide
  exact this d h

theorem lsDigits_no_minus (fuel v : Nat) : '-' ∉ lsDigits 10 fuel v := by
  induction fuel generalizing v with
  | zero => simp [lsDigits]
  | succ k ih =>
    rw [lsDigits]
    split_ifs
    · simp
    · rw [List.mem_cons, not_or]
      exact ⟨(digitChar_ne _ (Nat.mod_lt _ (by decide))).symm, ih _⟩

theorem lsDecimal_no_minus (v : Nat) : '-' ∉ lsDecimal v := by
  rw [lsDecimal]
  split_ifs
  · decide
  · exact lsDigits_no_minus _ _

theorem body4_no_minus {b : Char} (hb : isDec b = true) (size : Nat) (v k : BitVec 64) : '-' ∉ body4 b size v k := by
  have hb : b = 'd' ∨ b = 'D' := by simpa [isDec] using hb
  have : body4 b size v k = fmtDecimal size v k := by rcases hb with rfl | rfl <;> rfl
  rw [this, fmtDecimal]
  simp only
  split_ifs <;> first | decide | exact lsDecimal_no_minus _

theorem bigDecimal4_no_minus (size v k : Nat) : '-' ∉ bigDecimal4 size v k := by
  rw [bigDecimal4]
  split_ifs <;> first | decide | exact lsDigits_no_minus _ _

theorem possibleSize_small (b : Char) {size : Nat} (h : size ≤ 64) : ∃ p, possibleSize b size = .ok p := by
  unfold possibleSize
  split_ifs <;> first | exact ⟨_, rfl⟩ | omega

theorem fmtBase_any {b : Char} (hb : ¬ ('0' ≤ b ∧ b ≤ '9')) (rest : List Char) : FmtBase (b :: rest) b := by
  intro size hs
  obtain ⟨p, hp⟩ := possibleSize_small b hs
  rw [parseFmt_letter hb, hp]
  exact ⟨_, rfl, rfl⟩

theorem fmtBase_num {b : Char} (hb : ¬ ('0' ≤ b ∧ b ≤ '9')) {ds : List Char} (hd : ∀ c ∈ ds, '0' ≤ c ∧ c ≤ '9')
    (h0 : ds ≠ []) (hN : fmtNum ds < 2 ^ 64) (rest : List Char) : FmtBase (ds ++ b :: rest) b := by
  intro size hs
  obtain ⟨p, hp⟩ := possibleSize_small b hs
  rw [parseFmt_num hb hd h0 hN, hp, res_map_ok]
  exact ⟨_, rfl, by split_ifs <;> rfl⟩

/-- the text of a `logic` before padding depends on the base letter only -/
theorem Lg.str_form (x : Lg n s) {b : Char} (hb : ¬ ('0' ≤ b ∧ b ≤ '9')) :
    ∃ (neg : Bool) (body : Res (List Char)), (isDec b = true → ∀ t, body = .ok t → '-' ∉ t) ∧
      ∀ fmt f, decimalFmt fmt = isDec b → parseFmt fmt n = .ok f → f.base = b → FmtBase fmt b →
        x.str fmt = body.bind (padResult neg f) := by
  by_cases h64 : n ≤ 64
  · have key : ∀ (m : Res (BitVec 64)) (k : BitVec 64) (neg : Bool), ∃ (body : Res (List Char)),
        (isDec b = true → ∀ t, body = .ok t → '-' ∉ t) ∧
        ∀ fmt f, parseFmt fmt n = .ok f → f.base = b →
          (m.bind fun v => toString4 fmt n v k neg) = body.bind (padResult neg f) := by
      intro m k neg
      refine ⟨m.map fun v => body4 b n v k, ?_, ?_⟩
      · intro hd t ht
        cases m with
        | error e => simp [Except.map] at ht
        | ok v => rw [res_map_ok] at ht; rw [← Except.ok.inj ht]; exact body4_no_minus hd _ _ _
      · intro fmt f hf hfb
        cases m with
        | error e => rfl
        | ok v => rw [res_bind_ok, res_map_ok, res_bind_ok, toString4, toString4_, hf, res_bind_ok, if_pos rfl, hfb]
    by_cases hc : (s && x.value.negative && isDec b) = true
    · obtain ⟨body, h1, h2⟩ := key (x.value.negate.map fun m => BitVec.ofInt 64 m.nv.v) (BitVec.ofInt 64 x.xz.nv.v) true
      refine ⟨true, body, h1, fun fmt f hd hf hfb _ => ?_⟩
      rw [Lg.str, dif_pos h64, hd, if_pos hc, ← h2 fmt f hf hfb]
      cases x.value.negate <;> rfl
    · obtain ⟨body, h1, h2⟩ := key (.ok (BitVec.ofInt 64 x.value.nv.v)) (BitVec.ofInt 64 x.xz.nv.v) false
      refine ⟨false, body, h1, fun fmt f hd hf hfb _ => ?_⟩
      rw [Lg.str, dif_pos h64, hd, if_neg hc, ← h2 fmt f hf hfb, res_bind_ok]
  · have key : ∀ (v k : List (BitVec 64)) (neg : Bool), ∃ (body : Res (List Char)),
        (isDec b = true → ∀ t, body = .ok t → '-' ∉ t) ∧
        ∀ fmt f, parseFmt fmt n = .ok f → f.base = b → FmtBase fmt b →
          toStringBig4 fmt n v k neg = body.bind (padResult neg f) := by
      intro v k neg
      refine ⟨(if !isDec b then
        if b = 'o' ∨ b = 'O' then
          appendAll (fun i => (octChunk v (i * 3)).bind fun v =>
              (octChunk k (i * 3)).bind fun k => .ok (body4 b 3 v k))
            (List.range ((n + 2) / 3))
        else
          (appendAll (fun i => (ptrGet v i).bind fun v => (ptrGet k i).bind fun k =>
              .ok (body4 b 64 v k)) (List.range (limbs n - 1))).bind fun a =>
          if n % 64 ≠ 0 then
            ((ptrGet v (limbs n - 1)).bind fun v => (ptrGet k (limbs n - 1)).bind fun k =>
              .ok (body4 b (n % 64) v k)).map (a ++ ·)
          else .ok a
        else
          (low128 v n).bind fun v => (low128 k n).map fun k => bigDecimal4 n v k), ?_, ?_⟩
      · intro hd t ht
        rw [hd, if_neg (by decide)] at ht
        cases h1 : low128 v n with
        | error e => rw [h1] at ht; simp [Except.bind] at ht
        | ok a =>
          cases h2 : low128 k n with
          | error e => rw [h1, h2] at ht; simp [Except.bind, Except.map] at ht
          | ok c =>
            rw [h1, h2, res_bind_ok, res_map_ok] at ht
            rw [← Except.ok.inj ht]; exact bigDecimal4_no_minus _ _ _
      · intro fmt f hf hfb hF
        have c64 : ∀ v k, toString4_ fmt 64 v k false false = .ok (body4 b 64 v k) := fun v k => hF.chunk (by decide) v k
        have c3 : ∀ v k, toString4_ fmt 3 v k false false = .ok (body4 b 3 v k) := fun v k => hF.chunk (by decide) v k
        have cm : ∀ v k, toString4_ fmt (n % 64) v k false false = .ok (body4 b (n % 64) v k) :=
          fun v k => hF.chunk (by omega) v k
        rw [toStringBig4, hf, res_bind_ok, hfb]
        simp only [c64, c3, cm]
    by_cases hc : (s && x.value.negative && isDec b) = true
    · obtain ⟨m, hm, -⟩ := Bits.negate_wide h64 x.value
      obtain ⟨body, h1, h2⟩ := key (m.bg h64).vals (x.xz.bg h64).vals true
      refine ⟨true, body, h1, fun fmt f hd hf hfb hF => ?_⟩
      rw [Lg.str, dif_neg h64, hd, if_pos hc, ← h2 fmt f hf hfb hF, hm, res_bind_ok]
    · obtain ⟨body, h1, h2⟩ := key (x.value.bg h64).vals (x.xz.bg h64).vals false
      refine ⟨false, body, h1, fun fmt f hd hf hfb hF => ?_⟩
      rw [Lg.str, dif_neg h64, hd, if_neg hc, ← h2 fmt f hf hfb hF]

/-- the text of a native `bit` before padding depends on the base letter only -/
theorem Bits.str_form (h64 : n ≤ 64) (x : Bits n s) (b : Char) :
    ∃ (neg : Bool) (body : Res (List Char)), (isDec b = true → ∀ t, body = .ok t → '-' ∉ t) ∧
      ∀ fmt f, decimalFmt fmt = isDec b → parseFmt fmt n = .ok f → f.base = b →
        x.str fmt = body.bind (padResult neg f) := by
  have key : ∀ (m : Res (BitVec 64)) (neg : Bool), ∃ (body : Res (List Char)),
      (isDec b = true → ∀ t, body = .ok t → '-' ∉ t) ∧
      ∀ fmt f, parseFmt fmt n = .ok f → f.base = b →
        (m.bind fun v => toString2 fmt n v neg) = body.bind (padResult neg f) := by
    intro m neg
    refine ⟨m.bind fun v => (if b = 'b' ∨ b = 'B' then
        .ok ((List.range n).map fun i => if v.getLsbD i then '1' else '0')
      else if isPow2Base b then .ok (formatPow2 b v)
      else if b = 's' ∨ b = 'S' then str2Loop v n 64 0
      else if isDec b then .ok (lsDecimal v.toNat)
      else .ok []), ?_, ?_⟩
    · intro hd t ht
      have hb : b = 'd' ∨ b = 'D' := by simpa [isDec] using hd
      cases m with
      | error e => simp [Except.bind] at ht
      | ok v =>
        rw [res_bind_ok] at ht
        have : t = lsDecimal v.toNat := by
          rcases hb with rfl | rfl <;> exact (Except.ok.inj ht).symm
        rw [this]; exact lsDecimal_no_minus _
    · intro fmt f hf hfb
      cases m with
      | error e => rfl
      | ok v => rw [res_bind_ok, res_bind_ok, toString2, hf, res_bind_ok, hfb]
  by_cases hc : (s && x.negative && isDec b) = true
  · obtain ⟨body, h1, h2⟩ := key (x.negate.map fun m => BitVec.ofInt 64 m.nv.v) true
    refine ⟨true, body, h1, fun fmt f hd hf hfb => ?_⟩
    rw [Bits.str, dif_pos h64, hd, if_pos hc, ← h2 fmt f hf hfb]
    cases x.negate <;> rfl
  · obtain ⟨body, h1, h2⟩ := key (.ok (BitVec.ofInt 64 x.nv.v)) false
    refine ⟨false, body, h1, fun fmt f hd hf hfb => ?_⟩
    rw [Bits.str, dif_pos h64, hd, if_neg hc, ← h2 fmt f hf hfb, res_bind_ok]

theorem padResult_none (neg : Bool) (b : Char) (p : Nat) (t : List Char) :
    padResult neg ⟨b, p, false⟩ t = .ok (minusText neg b t) := padResult_full (by simp)

/-- characters missing up to `w`, not counting the minus sign of a decimal number; the width has 64 bits -/
def padMissing (b : Char) (w : Nat) (t : List Char) : Nat :=
  (w + if b ∈ ['d', 'D'] ∧ t.head? = some '-' then 1 else 0) % 2 ^ 64 - t.length

theorem padResult_missing {neg : Bool} {b : Char} (hb : b ∈ fmtLetters) {p : Nat} (hp : p < 2 ^ 64) {t : List Char}
    (ht : isDec b = true → '-' ∉ t) : padResult neg ⟨b, p, true⟩ t =
      if 2 ^ 32 ≤ padMissing b p (minusText neg b t) then .error .diverge
      else .ok (List.replicate (padMissing b p (minusText neg b t)) (padCharOf b) ++ minusText neg b t) := by
  have h1 : (isDec b || decide (b = 's') || decide (b = 'S')) = decide (b ∈ ['d', 'D', 's', 'S']) := by
    clear ht
    revert b; decide
  have h2 : isDec b = decide (b ∈ ['d', 'D']) := by simp [isDec]
  have h3 : (if (neg && isDec b) = true then 1 else 0) =
      (if b ∈ ['d', 'D'] ∧ (minusText neg b t).head? = some '-' then 1 else 0) := by
    rw [minusText]
    by_cases hd : isDec b = true
    · have hd' : b ∈ ['d', 'D'] := by rw [h2] at hd; simpa using hd
      cases neg with
      | true => simp [hd, hd']
      | false =>
        have : ¬ t.reverse.head? = some '-' := by
          intro h
          have := List.mem_of_mem_head? (Option.mem_def.2 h)
          exact ht hd (by simpa using this)
        simp only [Bool.false_and, Bool.false_eq_true, if_false]
        rw [if_neg (fun h => this h.2)]
    · have hd' : ¬ b ∈ ['d', 'D'] := by rw [h2] at hd; simpa using hd
      rw [if_neg (by simp [hd]), if_neg (fun h => hd' h.1)]
  have h4 : padMissing b p (minusText neg b t) =
      (if neg && isDec b then (p + 1) % 2 ^ 64 else p) - (if neg && isDec b then t ++ ['-'] else t).length := by
    rw [padMissing, ← h3, minusText]
    split_ifs
    · simp
    · rw [Nat.add_zero, Nat.mod_eq_of_lt hp]; simp
  rw [padResult]
  simp only
  rw [← h4, if_pos True.intro, h1, padCharOf]
  simp only [decide_eq_true_eq]
  split_ifs <;> simp_all [minusText, List.reverse_append]

/-- the width padded to: the natural width, but one character per bit for decimal text of more
than 128 bits -/
def padWidth (b : Char) (n : Nat) : Nat := if b ∈ ['d', 'D'] ∧ 128 < n then n else natWidth b n

theorem natWidth_le (hn : 0 < n) (b : Char) : natWidth b n ≤ n := by
  rw [natWidth]
  split_ifs
  · omega
  · have hr : 1 < radixOf b := by unfold radixOf; split_ifs <;> decide
    rw [Nat.digits_length_le_iff hr]
    have h2 : 2 ^ n ≤ radixOf b ^ n := Nat.pow_le_pow_left (by omega) n
    have h3 : 0 < 2 ^ n := by positivity
    omega

theorem padWidth_le (hn : 0 < n) (b : Char) : padWidth b n ≤ n := by
  rw [padWidth]; split_ifs
  · exact Nat.le_refl _
  · exact natWidth_le hn b

/-- pads up to `w` characters, which does not end when `2^32` characters or more are missing -/
def padRun (b : Char) (w : Nat) (t : List Char) : Res (List Char) :=
  if 2 ^ 32 ≤ padMissing b w t then .error .diverge
  else .ok (List.replicate (padMissing b w t) (padCharOf b) ++ t)

theorem padRun_small {b : Char} {w : Nat} (hw : w < 2 ^ 32) {t : List Char} : padRun b w t = .ok (padTo b w t) := by
  have e : padMissing b w t = w + (if b ∈ ['d', 'D'] ∧ t.head? = some '-' then 1 else 0) - t.length := by
    rw [padMissing, Nat.mod_eq_of_lt (by split_ifs <;> omega)]
  have hl : (if b ∈ ['d', 'D'] ∧ t.head? = some '-' then 1 else 0) ≤ t.length := by
    split_ifs with h
    · cases t with
      | nil => simp at h
      | cons a l => simp
    · omega
  have : ¬ 2 ^ 32 ≤ padMissing b w t := by rw [e]; omega
  rw [padRun, if_neg this, e, padTo]

theorem pad_core (hn : 0 < n) (hn64 : n < 2 ^ 64) {b : Char} (hb : b ∈ fmtLetters) (h128 : ¬ (b ∈ ['d', 'D'] ∧ n = 128))
    {ds : List Char} (hd : ∀ c ∈ ds, '0' ≤ c ∧ c ≤ '9') (h0 : ds ≠ []) (hN : fmtNum ds < 2 ^ 64) (rest : List Char)
    {str : List Char → Res (List Char)} {neg : Bool} {body : Res (List Char)}
    (hm : isDec b = true → ∀ t, body = .ok t → '-' ∉ t)
    (hstr : ∀ fmt f, decimalFmt fmt = isDec b → parseFmt fmt n = .ok f → f.base = b → FmtBase fmt b →
        str fmt = body.bind (padResult neg f)) :
    str (b :: rest) = (str ('0' :: b :: rest)).bind (padRun b (padWidth b n)) ∧
    str (ds ++ b :: rest) = if fmtNum ds = 0 then str ('0' :: b :: rest)
      else (str ('0' :: b :: rest)).bind (padRun b (max (padWidth b n) (fmtNum ds))) := by
  have hnd := letters_notDigit hb
  have hp := possibleSize_nat hn hb h128
  rw [← padWidth] at hp
  have hle := padWidth_le hn b
  have d0 : ∀ c ∈ ['0'], '0' ≤ c ∧ c ≤ '9' := by decide
  have z0 : fmtNum ['0'] = 0 := by decide
  have p0 : parseFmt (['0'] ++ b :: rest) n = .ok ⟨b, padWidth b n, false⟩ := by
    rw [parseFmt_num hnd d0 (by decide) (by decide), hp, res_map_ok, if_pos z0]
  have s0 := hstr (['0'] ++ b :: rest) _ (decimalFmt_letter hnd d0 rest) p0 rfl (fmtBase_num hnd d0 (by decide) (by decide) rest)
  have s0 : str ('0' :: b :: rest) = body.bind (padResult neg ⟨b, padWidth b n, false⟩) := s0
  have hbody : ∀ w, w < 2 ^ 64 → body.bind (padResult neg ⟨b, w, true⟩) =
      (body.bind (padResult neg ⟨b, padWidth b n, false⟩)).bind (padRun b w) := by
    intro w hw
    cases hbd : body with
    | error e => rfl
    | ok t =>
      rw [res_bind_ok, res_bind_ok, padResult_none, res_bind_ok, padResult_missing hb hw, padRun]
      exact fun h => hm h t hbd
  constructor
  · have p1 : parseFmt (b :: rest) n = .ok ⟨b, padWidth b n, true⟩ := by rw [parseFmt_letter hnd, hp, res_map_ok]
    rw [hstr (b :: rest) _ (decimalFmt_letter hnd (ds := []) (by simp) rest) p1 rfl (fmtBase_any hnd rest), s0, hbody _ (by omega)]
  · have p1 : parseFmt (ds ++ b :: rest) n = .ok (if fmtNum ds = 0 then ⟨b, padWidth b n, false⟩
        else ⟨b, max (padWidth b n) (fmtNum ds), true⟩) := by rw [parseFmt_num hnd hd h0 hN, hp, res_map_ok]
    rw [hstr (ds ++ b :: rest) _ (decimalFmt_letter hnd hd rest) p1 (by split_ifs <;> rfl) (fmtBase_num hnd hd h0 hN rest), s0]
    split_ifs
    · rfl
    · rw [hbody _ (by omega)]

theorem padRun_map {b : Char} {w : Nat} (hw : w < 2 ^ 32) (r : Res (List Char)) : r.bind (padRun b w) = r.map (padTo b w) := by
  cases r with
  | error e => rfl
  | ok t => rw [res_bind_ok, res_map_ok, padRun_small hw]

/-- **C75, 4-state, exact.** Any width, any letter, any requested width `N` of 64 bits: `str("0b…")` is the bare
text, `str("Nb…")` pads it to the larger of `N` and the natural width, `N = 0` not at all. The padding
loop counts in 32 bits: it does not end when `2^32` characters or more are missing. Excluded: decimal
text of exactly 128 bits, see `C75_refuted`. -/
theorem C75_exact (hn : 0 < n) (hn64 : n < 2 ^ 64) (x : Lg n s) {b : Char} (hb : b ∈ fmtLetters) (h128 : ¬ (b ∈ ['d', 'D'] ∧ n = 128))
    {ds : List Char} (hd : ∀ c ∈ ds, '0' ≤ c ∧ c ≤ '9') (h0 : ds ≠ []) (hN : fmtNum ds < 2 ^ 64) (rest : List Char) :
    x.str (b :: rest) = (x.str ('0' :: b :: rest)).bind (padRun b (padWidth b n)) ∧
    x.str (ds ++ b :: rest) = if fmtNum ds = 0 then x.str ('0' :: b :: rest)
      else (x.str ('0' :: b :: rest)).bind (padRun b (max (padWidth b n) (fmtNum ds))) := by
  obtain ⟨neg, body, hm, hstr⟩ := Lg.str_form x (letters_notDigit hb)
  exact pad_core hn hn64 hb h128 hd h0 hN rest hm hstr

/-- **C75, partial, 4-state.** Any width, any letter: `str("0b…")` is the bare text, `str("b…")` pads it
to the natural width and `str("Nb…")` to the larger of `N` and the natural width, `N = 0` not at all;
the minus sign is not counted. Missing: decimal text of exactly 128 bits, see `C75_refuted`, and requests
of `2^32` characters and more, see `C75_huge_refuted`. -/
theorem C75_padding_partial (hn : 0 < n) (hn32 : n < 2 ^ 32) (x : Lg n s) {b : Char} (hb : b ∈ fmtLetters)
    (h128 : ¬ (b ∈ ['d', 'D'] ∧ n = 128))
    {ds : List Char} (hd : ∀ c ∈ ds, '0' ≤ c ∧ c ≤ '9') (h0 : ds ≠ []) (hN : fmtNum ds < 2 ^ 32) (rest : List Char) :
    x.str (b :: rest) = (x.str ('0' :: b :: rest)).map (padTo b (padWidth b n)) ∧
    x.str (ds ++ b :: rest) = if fmtNum ds = 0 then x.str ('0' :: b :: rest)
      else (x.str ('0' :: b :: rest)).map (padTo b (max (padWidth b n) (fmtNum ds))) := by
  have hle := padWidth_le hn b
  have h := C75_exact hn (by omega) x hb h128 hd h0 (by omega) rest
  rwa [padRun_map (by omega), padRun_map (by omega)] at h

/-- **C75, refuted.** A request for `2^32` characters more than the bare text has is never answered: the
32-bit counter of the padding loop never reaches the number of missing characters. -/
theorem C75_huge_refuted (hn : 0 < n) (hn32 : n < 2 ^ 32) (x : Lg n s) {b : Char} (hb : b ∈ fmtLetters)
    (h128 : ¬ (b ∈ ['d', 'D'] ∧ n = 128))
    {ds : List Char} (hd : ∀ c ∈ ds, '0' ≤ c ∧ c ≤ '9') (rest : List Char)
    {t : List Char} (ht : x.str ('0' :: b :: rest) = .ok t) (hlo : t.length + 2 ^ 32 ≤ fmtNum ds) (hN : fmtNum ds < 2 ^ 64 - 1) :
    x.str (ds ++ b :: rest) = .error .diverge := by
  have hne : ds ≠ [] := by rintro rfl; exact absurd hlo (by simp [fmtNum])
  have hle := padWidth_le hn b
  have h := (C75_exact hn (by omega) x hb h128 hd hne (by omega) rest).2
  rw [if_neg (by omega), ht, res_bind_ok] at h
  rw [h, padRun, if_pos]
  rw [padMissing, Nat.mod_eq_of_lt (by split_ifs <;> omega)]
  omega

example : ∃ x : Lg 12 true, Lg.ofInt (-5) = x ∧ x.str "0d".toList = .ok "-5".toList ∧
    x.str "4294967298d".toList = .error .diverge ∧ x.str "18446744073709551615d".toList = .ok "-5".toList :=
  ⟨_, rfl, by decide +kernel, by decide +kernel, by decide +kernel⟩

/-- **C75, native 2-state, exact.** -/
theorem C75_2state_exact (hn : 0 < n) (h64 : n ≤ 64) (x : Bits n s) {b : Char} (hb : b ∈ fmtLetters)
    {ds : List Char} (hd : ∀ c ∈ ds, '0' ≤ c ∧ c ≤ '9') (h0 : ds ≠ []) (hN : fmtNum ds < 2 ^ 64) (rest : List Char) :
    x.str (b :: rest) = (x.str ('0' :: b :: rest)).bind (padRun b (natWidth b n)) ∧
    x.str (ds ++ b :: rest) = if fmtNum ds = 0 then x.str ('0' :: b :: rest)
      else (x.str ('0' :: b :: rest)).bind (padRun b (max (natWidth b n) (fmtNum ds))) := by
  obtain ⟨neg, body, hm, hstr⟩ := Bits.str_form h64 x b
  have hw : padWidth b n = natWidth b n := by rw [padWidth, if_neg (by omega)]
  have := pad_core hn (by omega) hb (by omega) hd h0 hN rest hm (fun fmt f h1 h2 h3 _ => hstr fmt f h1 h2 h3)
  rwa [hw] at this

/-- **C75, partial, native 2-state.**. Missing: wide values, where it is false
(`C75_wide_2state_refuted`), the empty format (`C75_empty_refuted`) and requests of `2^32`
characters and more (`C75_2state_exact`). -/
theorem C75_padding_2state_partial (hn : 0 < n) (h64 : n ≤ 64) (x : Bits n s) {b : Char} (hb : b ∈ fmtLetters)
    {ds : List Char} (hd : ∀ c ∈ ds, '0' ≤ c ∧ c ≤ '9') (h0 : ds ≠ []) (hN : fmtNum ds < 2 ^ 32) (rest : List Char) :
    x.str (b :: rest) = (x.str ('0' :: b :: rest)).map (padTo b (natWidth b n)) ∧
    x.str (ds ++ b :: rest) = if fmtNum ds = 0 then x.str ('0' :: b :: rest)
      else (x.str ('0' :: b :: rest)).map (padTo b (max (natWidth b n) (fmtNum ds))) := by
  have hle := natWidth_le hn b
  have h := C75_2state_exact hn h64 x hb hd h0 (by omega) rest
  rwa [padRun_map (by omega), padRun_map (by omega)] at h

/-- **C75, partial.** The padded text ends in the bare text, has only padding characters in front, and is
at least as long as `N` and as the natural width. Missing: decimal text of 128 bits (`C75_refuted`)
and requests of `2^32` characters and more (`C75_huge_refuted`). -/
theorem C75_bounds_partial (hn : 0 < n) (hn32 : n < 2 ^ 32) (x : Lg n s) {b : Char} (hb : b ∈ fmtLetters)
    (h128 : ¬ (b ∈ ['d', 'D'] ∧ n = 128))
    {ds : List Char} (hd : ∀ c ∈ ds, '0' ≤ c ∧ c ≤ '9') (h0 : fmtNum ds ≠ 0) (hN : fmtNum ds < 2 ^ 32) (rest : List Char)
    {t : List Char} (ht : x.str ('0' :: b :: rest) = .ok t) :
    ∃ k, x.str (ds ++ b :: rest) = .ok (List.replicate k (padCharOf b) ++ t) ∧
      natWidth b n ≤ k + t.length ∧ fmtNum ds ≤ k + t.length := by
  have hne : ds ≠ [] := by rintro rfl; exact h0 rfl
  have h := (C75_padding_partial hn hn32 x hb h128 hd hne hN rest).2
  rw [if_neg h0, ht, res_map_ok, padTo] at h
  refine ⟨_, h, ?_⟩
  have h1 : natWidth b n ≤ padWidth b n := by
    rw [padWidth]; split_ifs
    · exact natWidth_le hn b
    · exact Nat.le_refl _
  have h2 := Nat.le_max_left (padWidth b n) (fmtNum ds)
  have h3 := Nat.le_max_right (padWidth b n) (fmtNum ds)
  omega

example : ∃ x : Lg 12 true, Lg.ofInt (-5) = x ∧ x.str "0d".toList = .ok "-5".toList ∧ x.str "d".toList = .ok "   -5".toList ∧
    x.str "7d".toList = .ok "      -5".toList ∧ x.str "2h".toList = .ok "ffb".toList :=
  ⟨_, rfl, by decide +kernel, by decide +kernel, by decide +kernel, by decide +kernel⟩

/-- **C75, refuted.** No decimal text of a 128-bit object can be produced: the table of decimal widths has 128
entries and is read at index 128. -/
theorem C75_refuted (x : Lg 128 s) {b : Char} (hb : b = 'd' ∨ b = 'D') (rest : List Char) :
    x.str (b :: rest) = .error .oob := by
  have hp : parseFmt (b :: rest) 128 = .error .oob := by
    rw [parseFmt_letter (by rcases hb with rfl | rfl <;> decide)]
    rcases hb with rfl | rfl <;> rfl
  rw [Lg.str, dif_neg (by decide)]
  split_ifs
  · rw [Bits.negate, dif_neg (by decide), res_bind_ok, toStringBig4, hp]; rfl
  · rw [toStringBig4, hp]; rfl

/-- **C75, refuted.** An empty format throws. -/
theorem C75_empty_refuted (x : Lg n s) (hx : s = false) : x.str [] = .error .throws := by
  subst hx
  rw [Lg.str]
  split_ifs <;> first | rfl | (rename_i h; exact absurd h (by simp))

theorem appendAll_length {α : Type} (f : α → Res (List Char)) (w : Nat) (l : List α)
    (hf : ∀ a ∈ l, ∃ t, f a = .ok t ∧ t.length = w) : ∃ t, appendAll f l = .ok t ∧ t.length = l.length * w := by
  induction l with
  | nil => exact ⟨[], rfl, by simp⟩
  | cons a l ih =>
    obtain ⟨t, h1, h2⟩ := hf a (by simp)
    obtain ⟨u, h3, h4⟩ := ih (fun a ha => hf a (by simp [ha]))
    refine ⟨t ++ u, by rw [appendAll, h1, res_bind_ok, h3, res_map_ok], ?_⟩
    rw [List.length_append, h2, h4, List.length_cons]; ring

/-- **C75, refuted, wide 2-state.** Each limb is padded to the requested width: `str("Nb")` with
`64 ≤ N` has `N` characters per limb. -/
theorem C75_wide_2state_refuted (hn : ¬ n ≤ 64) (h0 : n % 64 ≠ 0) (x : Bits n true) {ds : List Char} (hd : ∀ c ∈ ds, '0' ≤ c ∧ c ≤ '9')
    (h64 : 64 ≤ fmtNum ds) (hN : fmtNum ds < 2 ^ 32) :
    ∃ t, x.str (ds ++ ['b']) = .ok t ∧ t.length = limbs n * fmtNum ds ∧ max n (fmtNum ds) < t.length := by
  have hne : ds ≠ [] := by rintro rfl; exact absurd h64 (by decide)
  have hz : fmtNum ds ≠ 0 := by omega
  have hnd : ¬ ('0' ≤ 'b' ∧ 'b' ≤ '9') := by decide
  have hps : ∀ size, parseFmt (ds ++ 'b' :: []) size = .ok ⟨'b', max size (fmtNum ds), true⟩ := by
    intro size
    rw [parseFmt_num hnd hd hne (by omega), show possibleSize 'b' size = .ok size from rfl, res_map_ok, if_neg hz]
  have hchunk : ∀ size (v : BitVec 64), size ≤ 64 → ∃ t, toString2 (ds ++ 'b' :: []) size v false = .ok t ∧ t.length = fmtNum ds := by
    intro size v hs
    rw [toString2, hps, res_bind_ok, if_pos (Or.inl rfl), res_bind_ok, padResult_eq (by intro _; simp; omega) (by simp [isDec])]
    refine ⟨_, rfl, ?_⟩
    rw [padText, minusText]
    simp; omega
  have hdf : decimalFmt (ds ++ 'b' :: []) = false := by rw [decimalFmt_letter hnd hd]; rfl
  have hl : limbs n - 1 = n / 64 := by unfold limbs; rw [if_neg h0]; omega
  have hl2 : limbs n = n / 64 + 1 := by unfold limbs; rw [if_neg h0]
  obtain ⟨a, ha, hal⟩ := appendAll_length (fun i => (ptrGet (x.bg hn).vals i).bind fun v => toString2 (ds ++ 'b' :: []) 64 v false)
    (fmtNum ds) (List.range (limbs n - 1)) (by
      intro i hi
      have hi := List.mem_range.1 hi
      rw [ptrGet_limb _ (by omega), res_bind_ok]
      exact hchunk 64 _ (by decide))
  obtain ⟨c, hc, hcl⟩ := hchunk (n % 64) ((x.bg hn).limb (limbs n - 1)) (by omega)
  have hle : n ≤ limbs n * fmtNum ds := by
    have := le_limbs n
    have := Nat.mul_le_mul_left (limbs n) h64
    omega
  have hlen : (a ++ c).length = limbs n * fmtNum ds := by
    rw [List.length_append, hal, hcl, List.length_range, hl, hl2]; ring
  have hge : 2 * fmtNum ds ≤ limbs n * fmtNum ds := Nat.mul_le_mul_right _ (limbs_ge_two hn)
  refine ⟨(a ++ c).reverse, ?_, by rw [List.length_reverse, hlen], ?_⟩
  · rw [Bits.str, dif_neg hn, if_neg (by decide), hdf, Bool.and_false, if_neg (by decide), toStringBig2, hps, res_bind_ok]
    simp only
    rw [if_pos (by decide), if_neg (by decide), ha, res_bind_ok, if_pos h0, ptrGet_limb _ (by omega), res_bind_ok, hc, res_map_ok,
      res_bind_ok, padResult_full (by intro _; rw [hlen]; simp only; omega)]
    rfl
  · rw [List.length_reverse, hlen]
    have hlt : n < limbs n * fmtNum ds := by
      rcases Nat.lt_or_ge n (limbs n * fmtNum ds) with h | h
      · exact h
      · have h1 := le_limbs n
        have h2 := Nat.mul_le_mul_left (limbs n) h64
        omega
    omega

end Verif
