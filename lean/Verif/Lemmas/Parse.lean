import Verif.Model.Parse
import Verif.Lemmas.OfBV
import Mathlib.Data.Nat.Digits.Defs

/-! Literal parsing. -/

namespace Verif

/-- the digits of a literal, last one first, underscores left out -/
def digitsOf (body : List Char) : List Char := (body.filter (· ≠ '_')).reverse

/-- how many digits stand to the right of a position -/
theorem digitsOf_reverse (body : List Char) : digitsOf body = body.reverse.filter (· ≠ '_') := by
  rw [digitsOf, List.filter_reverse]

/-- the contribution of a character -/
def digVal (d : Char → Option (BitVec 64)) (c : Char) : BitVec 64 := (d c).getD 0

/-- a bit of the number a digit list denotes -/
def posBit (st : Nat) (f : Char → BitVec 64) (D : List Char) (i : Nat) : Bool :=
  match D[i / st]? with
  | some c => (f c).getLsbD (i % st)
  | none => false

theorem posBit_nil (st : Nat) (f : Char → BitVec 64) (i : Nat) : posBit st f [] i = false := rfl

theorem posBit_cons_lt {st : Nat} (f : Char → BitVec 64) (c : Char) (D : List Char) {i : Nat} (h : i < st) :
    posBit st f (c :: D) i = (f c).getLsbD i := by
  rw [posBit, Nat.div_eq_of_lt h, Nat.mod_eq_of_lt h]; rfl

theorem posBit_cons_ge {st : Nat} (hst : 0 < st) (f : Char → BitVec 64) (c : Char) (D : List Char) {i : Nat}
    (h : st ≤ i) : posBit st f (c :: D) i = posBit st f D (i - st) := by
  rw [posBit, posBit, Nat.div_eq_sub_div hst h, List.getElem?_cons_succ, Nat.mod_eq_sub_mod h]

/-- The positional loop. `hsh`: no shift reaches 64; `hd`: digits have `st` bits;
`hu`: an underscore adds nothing. -/
theorem parsePos_fold {st : Nat} (hst : 0 < st) (d : Char → Option (BitVec 64)) (hu : digVal d '_' = 0) (L : List Char)
    (hd : ∀ c ∈ L, (digVal d c).toNat < 2 ^ st) (r : BitVec 64) (k : Nat)
    (hsh : ∀ L1 c L2, L = L1 ++ c :: L2 → (d c).isSome = true → (k + (L1.filter (· ≠ '_')).length) * st < 64) :
    ∃ r', L.foldlM (fun s c => parsePos st (d c) c s) (r, k) = .ok (r', k + (L.filter (· ≠ '_')).length) ∧
      ∀ i, i < 64 → r'.getLsbD i =
        (r.getLsbD i || (decide (k * st ≤ i) && posBit st (digVal d) (L.filter (· ≠ '_')) (i - k * st))) := by
  induction L generalizing r k with
  | nil => exact ⟨r, rfl, fun i _ => by simp [posBit_nil]⟩
  | cons c L ih =>
    have hstep : ∃ r1, parsePos st (d c) c (r, k) = .ok (r1, if c ≠ '_' then k + 1 else k) ∧
        ∀ i, i < 64 → r1.getLsbD i = (r.getLsbD i || (decide (k * st ≤ i) && (digVal d c).getLsbD (i - k * st))) := by
      cases hc : d c with
      | none =>
        refine ⟨r, rfl, fun i _ => ?_⟩
        rw [digVal, hc]; simp
      | some v =>
        have h64 := hsh [] c L rfl (by rw [hc]; rfl)
        simp only [List.filter_nil, List.length_nil, Nat.add_zero] at h64
        refine ⟨r ||| v <<< (k * st), ?_, fun i hi => ?_⟩
        · simp only [parsePos, shl64, if_pos h64]
          rfl
        · rw [digVal, hc, BitVec.getLsbD_or, BitVec.getLsbD_shiftLeft]
          simp only [hi, decide_true, Bool.true_and, Option.getD_some]
          congr 2
          rw [Bool.eq_iff_iff]; simp
    obtain ⟨r1, h1, hb1⟩ := hstep
    rw [List.foldlM_cons]
    show ∃ r', Except.bind _ _ = _ ∧ _
    rw [h1, res_bind_ok]
    by_cases hc : c = '_'
    · subst hc
      obtain ⟨r', h2, hb2⟩ := ih (fun c hc => hd c (by simp [hc])) r1 k (by
        intro L1 c' L2 hL hs
        have := hsh ('_' :: L1) c' L2 (by rw [hL]; rfl) hs
        simpa using this)
      refine ⟨r', ?_, fun i hi => ?_⟩
      · simpa using h2
      · rw [hb2 i hi, hb1 i hi, hu]
        simp
    · obtain ⟨r', h2, hb2⟩ := ih (fun c hc => hd c (by simp [hc])) r1 (k + 1) (by
        intro L1 c' L2 hL hs
        have := hsh (c :: L1) c' L2 (by rw [hL]; rfl) hs
        simp only [ne_eq, hc, not_false_eq_true, decide_true, List.filter_cons_of_pos, List.length_cons] at this
        simp only [ne_eq]
        rw [show k + 1 + (L1.filter fun x => decide (¬ x = '_')).length =
          k + ((L1.filter fun x => decide (¬ x = '_')).length + 1) by omega]
        exact this)
      have hf : (c :: L).filter (· ≠ '_') = c :: L.filter (· ≠ '_') := by simp [hc]
      refine ⟨r', ?_, fun i hi => ?_⟩
      · rw [hf, List.length_cons, if_pos hc, h2, show k + 1 + (L.filter (· ≠ '_')).length =
          k + ((L.filter (· ≠ '_')).length + 1) by omega]
      · rw [hb2 i hi, hb1 i hi, hf]
        have hdc := hd c (by simp)
        have e : (k + 1) * st = k * st + st := by ring
        rw [e, Bool.or_assoc]
        congr 1
        by_cases hk : k * st ≤ i
        · by_cases hk1 : i - k * st < st
          · rw [posBit_cons_lt _ _ _ hk1, decide_eq_false (show ¬ k * st + st ≤ i by omega)]
            simp
          · rw [posBit_cons_ge hst _ _ _ (by omega), decide_eq_true (show k * st + st ≤ i by omega),
              show i - k * st - st = i - (k * st + st) by omega]
            have : (digVal d c).getLsbD (i - k * st) = false := by
              rw [BitVec.getLsbD]
              exact Nat.testBit_lt_two_pow (lt_of_lt_of_le hdc (Nat.pow_le_pow_right (by decide) (by omega)))
            simp [this, hk]
        · rw [decide_eq_false hk, decide_eq_false (show ¬ k * st + st ≤ i by omega)]
          simp

/-- a shift that reaches 64 is undefined, whatever stands to its left -/
theorem parsePos_fault {st : Nat} (d : Char → Option (BitVec 64)) (L1 : List Char) (c : Char) (L2 : List Char)
    (r : BitVec 64) (k : Nat) (hc : (d c).isSome = true) (h : 64 ≤ (k + (L1.filter (· ≠ '_')).length) * st) :
    (L1 ++ c :: L2).foldlM (fun s c => parsePos st (d c) c s) (r, k) = .error .shift := by
  induction L1 generalizing r k with
  | nil =>
    obtain ⟨v, hv⟩ := Option.isSome_iff_exists.1 hc
    rw [List.nil_append, List.foldlM_cons]
    simp only [List.filter_nil, List.length_nil, Nat.add_zero] at h
    show Except.bind _ _ = _
    simp only [parsePos, hv, shl64, if_neg (show ¬ k * st < 64 by omega)]
    rfl
  | cons b L1 ih =>
    rw [List.cons_append, List.foldlM_cons]
    have hstep : (∃ r1, parsePos st (d b) b (r, k) = .ok (r1, if b ≠ '_' then k + 1 else k)) ∨
        parsePos st (d b) b (r, k) = .error .shift := by
      cases hb : d b with
      | none => exact Or.inl ⟨r, rfl⟩
      | some v =>
        by_cases h64 : k * st < 64
        · left; exact ⟨r ||| v <<< (k * st), by simp only [parsePos, shl64, if_pos h64]; rfl⟩
        · right; simp only [parsePos, shl64, if_neg h64]; rfl
    show Except.bind _ _ = _
    rcases hstep with ⟨r1, h1⟩ | h1
    · rw [h1, res_bind_ok]
      apply ih
      by_cases hb : b = '_'
      · subst hb; simpa using h
      · rw [if_pos hb]
        have hf : (b :: L1).filter (· ≠ '_') = b :: L1.filter (· ≠ '_') := by simp [hb]
        rw [hf, List.length_cons] at h
        rw [show k + 1 + (L1.filter (· ≠ '_')).length = k + ((L1.filter (· ≠ '_')).length + 1) by omega]
        exact h
    · rw [h1]; rfl

/-- the x/z loop of the binary base -/
theorem parseXzBin_fold (L : List Char) (r : BitVec 64) (k : Nat)
    (hsh : ∀ L1 c L2, L = L1 ++ c :: L2 → c = 'x' ∨ c = 'z' → k + (L1.filter (· ≠ '_')).length < 32) :
    ∃ r', L.foldlM (fun s c => parseXzBin c s) (r, k) = .ok (r', k + (L.filter (· ≠ '_')).length) ∧
      ∀ i, i < 64 → r'.getLsbD i =
        (r.getLsbD i || (decide (k ≤ i) && posBit 1 (fun c => if c = 'x' ∨ c = 'z' then 1 else 0)
          (L.filter (· ≠ '_')) (i - k))) := by
  induction L generalizing r k with
  | nil => exact ⟨r, rfl, fun i _ => by simp [posBit_nil]⟩
  | cons c L ih =>
    have hstep : ∃ r1, parseXzBin c (r, k) = .ok (r1, if c ≠ '_' then k + 1 else k) ∧
        ∀ i, i < 64 → r1.getLsbD i = (r.getLsbD i || (decide (i = k) && decide (c = 'x' ∨ c = 'z'))) := by
      by_cases hc : c = 'x' ∨ c = 'z'
      · have h32 := hsh [] c L rfl hc
        simp only [List.filter_nil, List.length_nil, Nat.add_zero] at h32
        refine ⟨r ||| (1#32 <<< k).setWidth 64, ?_, fun i hi => ?_⟩
        · simp only [parseXzBin, if_pos hc, if_pos h32]
          rfl
        · rw [BitVec.getLsbD_or, BitVec.getLsbD_setWidth, BitVec.getLsbD_shiftLeft, decide_eq_true hc]
          congr 1
          rw [BitVec.getLsbD_one, Bool.eq_iff_iff]
          simp
          omega
      · refine ⟨r, ?_, fun i _ => ?_⟩
        · simp only [parseXzBin, if_neg hc]; rfl
        · rw [decide_eq_false hc]; simp
    obtain ⟨r1, h1, hb1⟩ := hstep
    rw [List.foldlM_cons]
    show ∃ r', Except.bind _ _ = _ ∧ _
    rw [h1, res_bind_ok]
    by_cases hc : c = '_'
    · subst hc
      obtain ⟨r', h2, hb2⟩ := ih r1 k (by
        intro L1 c' L2 hL hs
        have := hsh ('_' :: L1) c' L2 (by rw [hL]; rfl) hs
        simpa using this)
      refine ⟨r', ?_, fun i hi => ?_⟩
      · simpa using h2
      · rw [hb2 i hi, hb1 i hi]
        simp
    · obtain ⟨r', h2, hb2⟩ := ih r1 (k + 1) (by
        intro L1 c' L2 hL hs
        have := hsh (c :: L1) c' L2 (by rw [hL]; rfl) hs
        have hf : (c :: L1).filter (· ≠ '_') = c :: L1.filter (· ≠ '_') := by simp [hc]
        rw [hf, List.length_cons] at this
        omega)
      have hf : (c :: L).filter (· ≠ '_') = c :: L.filter (· ≠ '_') := by simp [hc]
      refine ⟨r', ?_, fun i hi => ?_⟩
      · rw [hf, List.length_cons, if_pos hc, h2, show k + 1 + (L.filter (· ≠ '_')).length =
          k + ((L.filter (· ≠ '_')).length + 1) by omega]
      · rw [hb2 i hi, hb1 i hi, hf, Bool.or_assoc]
        congr 1
        by_cases hk : k ≤ i
        · by_cases hk1 : i = k
          · subst hk1
            rw [posBit_cons_lt _ _ _ (by omega), decide_eq_false (show ¬ i + 1 ≤ i by omega)]
            by_cases hx : c = 'x' ∨ c = 'z' <;> simp [hx]
          · rw [posBit_cons_ge (by decide) _ _ _ (by omega), decide_eq_true (show k + 1 ≤ i by omega),
              show i - k - 1 = i - (k + 1) by omega]
            simp [hk, hk1]
        · rw [decide_eq_false hk, decide_eq_false (show ¬ k + 1 ≤ i by omega),
            decide_eq_false (show ¬ i = k by omega)]
          simp

theorem parseXzBin_fault (L1 : List Char) (c : Char) (L2 : List Char) (r : BitVec 64) (k : Nat)
    (hc : c = 'x' ∨ c = 'z') (h : 32 ≤ k + (L1.filter (· ≠ '_')).length) :
    (L1 ++ c :: L2).foldlM (fun s c => parseXzBin c s) (r, k) = .error .shift := by
  induction L1 generalizing r k with
  | nil =>
    rw [List.nil_append, List.foldlM_cons]
    simp only [List.filter_nil, List.length_nil, Nat.add_zero] at h
    show Except.bind _ _ = _
    simp only [parseXzBin, if_pos hc, if_neg (show ¬ k < 32 by omega)]
    rfl
  | cons b L1 ih =>
    rw [List.cons_append, List.foldlM_cons]
    have hstep : (∃ r1, parseXzBin b (r, k) = .ok (r1, if b ≠ '_' then k + 1 else k)) ∨
        parseXzBin b (r, k) = .error .shift := by
      by_cases hb : b = 'x' ∨ b = 'z'
      · by_cases h32 : k < 32
        · left; exact ⟨r ||| (1#32 <<< k).setWidth 64, by simp only [parseXzBin, if_pos hb, if_pos h32]; rfl⟩
        · right; simp only [parseXzBin, if_pos hb, if_neg h32]; rfl
      · left; exact ⟨r, by simp only [parseXzBin, if_neg hb]; rfl⟩
    show Except.bind _ _ = _
    rcases hstep with ⟨r1, h1⟩ | h1
    · rw [h1, res_bind_ok]
      apply ih
      by_cases hb : b = '_'
      · subst hb; simpa using h
      · rw [if_pos hb]
        have hf : (b :: L1).filter (· ≠ '_') = b :: L1.filter (· ≠ '_') := by simp [hb]
        rw [hf, List.length_cons] at h
        omega
    · rw [h1]; rfl

/-! ### decimal -/

/-- the decimal digits of a string, last one first -/
def decDigits (body : List Char) : List Nat :=
  (body.reverse.filter fun c => decide ('0' ≤ c ∧ c ≤ '9')).map fun c => c.toNat - 48

theorem parseDec_fold (L : List Char) (r b : BitVec 64) :
    (L.foldl parseDec (r, b)).1 =
      r + b * BitVec.ofNat 64 (Nat.ofDigits 10
        ((L.filter fun c => decide ('0' ≤ c ∧ c ≤ '9')).map fun c => c.toNat - 48)) := by
  induction L generalizing r b with
  | nil => simp
  | cons c L ih =>
    rw [List.foldl_cons]
    by_cases hc : '0' ≤ c ∧ c ≤ '9'
    · rw [parseDec, if_pos hc, ih, List.filter_cons_of_pos (by simpa using hc), List.map_cons, Nat.ofDigits_cons]
      simp only
      rw [BitVec.ofNat_add, BitVec.ofNat_mul, BitVec.mul_add, BitVec.mul_assoc, BitVec.add_assoc,
        BitVec.mul_comm (BitVec.ofNat 64 (c.toNat - 48)) b]
      congr 2
    · rw [parseDec, if_neg hc, ih, List.filter_cons_of_neg (by simpa using hc)]

/-! ### digit lists as numbers -/

theorem testBit_ofDigits {st : Nat} (hst : 0 < st) (D : List Nat) (hD : ∀ x ∈ D, x < 2 ^ st) (i : Nat) :
    (Nat.ofDigits (2 ^ st) D).testBit i = (match D[i / st]? with | some x => x.testBit (i % st) | none => false) := by
  induction D generalizing i with
  | nil => simp
  | cons x D ih =>
    rw [Nat.ofDigits_cons]
    have hx := hD x (by simp)
    rw [Nat.add_comm]
    by_cases h : i < st
    · rw [Nat.testBit_two_pow_mul_add _ hx, if_pos h, Nat.div_eq_of_lt h, Nat.mod_eq_of_lt h]
      rfl
    · rw [Nat.testBit_two_pow_mul_add _ hx, if_neg h, ih (fun y hy => hD y (by simp [hy])),
        Nat.div_eq_sub_div (a := i) hst (by omega), List.getElem?_cons_succ, Nat.mod_eq_sub_mod (a := i) (by omega)]

/-! ### the prefix -/

theorem getInputBase_quote (pre mid body : List Char) (b : Char) (hp : ∀ c ∈ pre, c ≠ '\'')
    (hm : ∀ c ∈ mid, '0' ≤ c ∧ c ≤ '9') (hb : ¬ ('0' ≤ b ∧ b ≤ '9')) :
    getInputBase (pre ++ '\'' :: (mid ++ b :: body)) = (b, pre.length + 1 + mid.length + 1) := by
  have h1 : (pre ++ '\'' :: (mid ++ b :: body)).findIdx? (· == '\'') = some pre.length := by
    rw [List.findIdx?_append]
    have : pre.findIdx? (· == '\'') = none := by
      rw [List.findIdx?_eq_none_iff]
      intro c hc
      simpa using hp c hc
    rw [this]
    simp [List.findIdx?_cons]
  have h2 : findNonDigit (mid ++ b :: body) = some mid.length := by
    rw [findNonDigit, List.findIdx?_append]
    have : mid.findIdx? (fun c => !decide ('0' ≤ c ∧ c ≤ '9')) = none := by
      rw [List.findIdx?_eq_none_iff]
      intro c hc
      simpa using hm c hc
    rw [this]
    simp only [List.findIdx?_cons]
    rw [if_pos (by rw [decide_eq_false hb]; rfl)]
    simp
  have h3 : (pre ++ '\'' :: (mid ++ b :: body)).drop (pre.length + 1) = mid ++ b :: body := by
    rw [← List.drop_drop, List.drop_left]; rfl
  rw [getInputBase, h1]
  simp only
  rw [h3, h2]
  simp only
  congr 1
  · simp [List.getD_eq_getElem?_getD]
  · omega

theorem drop_quote (pre mid body : List Char) (b : Char) :
    (pre ++ '\'' :: (mid ++ b :: body)).drop (pre.length + 1 + mid.length + 1) = body := by
  rw [show pre.length + 1 + mid.length + 1 = pre.length + (1 + (mid.length + 1)) by omega, ← List.drop_drop,
    List.drop_left, ← List.drop_drop, ← List.drop_drop]
  simp

theorem getInputBase_none (v : List Char) (h : ∀ c ∈ v, c ≠ '\'') : getInputBase v = ('s', 0) := by
  have : v.findIdx? (· == '\'') = none := by
    rw [List.findIdx?_eq_none_iff]
    intro c hc
    simpa using h c hc
  rw [getInputBase, this]

/-! ### batches -/

/-- the k-th batch from the right -/
def chunk (v : List Char) (b k : Nat) : List Char := ((v.reverse.drop (k * b)).take b).reverse

theorem chunk_reverse (v : List Char) (b k : Nat) : (chunk v b k).reverse = (v.reverse.drop (k * b)).take b := by
  rw [chunk, List.reverse_reverse]

theorem batch_slice (v : List Char) (b r : Nat) (hr : r ≤ v.length) :
    (v.drop (r - b)).take (r - (r - b)) = ((v.reverse.drop (v.length - r)).take b).reverse := by
  apply List.ext_getElem?
  intro i
  rw [List.getElem?_take]
  by_cases hi : i < r - (r - b)
  · rw [if_pos hi, List.getElem?_drop, List.getElem?_reverse (by simp; omega), List.getElem?_take,
      List.getElem?_drop, List.getElem?_reverse (by simp; omega)]
    rw [if_pos (by simp; omega)]
    congr 1
    simp
    omega
  · rw [if_neg hi, List.getElem?_eq_none]
    simp; omega

theorem batchLoop_ok (p : List Char → Res (BitVec 64)) (hp : p [] = .ok 0) (v : List Char) {b : Nat} (hb : 0 < b) (f : Nat → BitVec 64)
    (K : Nat) : ∀ j, (∀ k, k < K → p (chunk v b (j + k)) = .ok (f (j + k))) →
    batchLoop p v b K (v.length - j * b) (v.length - j * b) = .ok ((List.range K).map fun k => f (j + k)) := by
  induction K with
  | zero => intro j _; rfl
  | succ K ih =>
    intro j hf
    rw [batchLoop]
    by_cases hr : v.length - j * b > 0
    · rw [if_pos hr]
      have hbeg : (if v.length - j * b ≥ b then v.length - j * b - b else 0) = v.length - j * b - b := by
        split_ifs <;> omega
      have hrem : (if v.length - j * b > b then v.length - j * b - b else 0) = v.length - j * b - b := by
        split_ifs <;> omega
      simp only [hbeg, hrem]
      have h0 := hf 0 (by omega)
      rw [Nat.add_zero] at h0
      rw [batch_slice v b (v.length - j * b) (by omega), show v.length - (v.length - j * b) = j * b by omega]
      have hn : v.length - j * b - b = v.length - (j + 1) * b := by
        rw [Nat.add_mul]; omega
      rw [← chunk, h0, res_bind_ok, hn, ih (j + 1) (fun k hk => by
        rw [show j + 1 + k = j + (k + 1) by omega]; exact hf (k + 1) (by omega)), res_map_ok]
      congr 1
      rw [List.range_succ_eq_map, List.map_cons, List.map_map]
      congr 1
      apply List.map_congr_left
      intro k _
      simp only [Function.comp]
      congr 1; omega
    · rw [if_neg hr]
      congr 1
      apply List.ext_getElem
      · simp
      · intro i h1 h2
        simp only [List.length_replicate] at h1
        rw [List.getElem_replicate, List.getElem_map, List.getElem_range]
        have hi := hf i h1
        have hch : chunk v b (j + i) = [] := by
          rw [chunk, List.drop_eq_nil_of_le, List.take_nil]
          · rfl
          · rw [List.length_reverse]
            have : j * b ≤ (j + i) * b := Nat.mul_le_mul_right b (by omega)
            omega
        rw [hch, hp] at hi
        injection hi

theorem batchLoop_error (p : List Char → Res (BitVec 64)) (hp : p [] = .ok 0) (v : List Char) {b : Nat} (hb : 0 < b)
    (f : Nat → BitVec 64) (e : Fault) (K : Nat) : ∀ j i, i < K → (∀ k, k < i → p (chunk v b (j + k)) = .ok (f (j + k))) →
    p (chunk v b (j + i)) = .error e →
    batchLoop p v b K (v.length - j * b) (v.length - j * b) = .error e := by
  induction K with
  | zero => intro j i hi; omega
  | succ K ih =>
    intro j i hi hf he
    have hne : v.length - j * b > 0 := by
      by_contra hc
      have hch : chunk v b (j + i) = [] := by
        rw [chunk, List.drop_eq_nil_of_le, List.take_nil]
        · rfl
        · rw [List.length_reverse]
          have : j * b ≤ (j + i) * b := Nat.mul_le_mul_right b (by omega)
          omega
      rw [hch, hp] at he
      exact absurd he (by simp)
    rw [batchLoop, if_pos hne]
    have hbeg : (if v.length - j * b ≥ b then v.length - j * b - b else 0) = v.length - j * b - b := by
      split_ifs <;> omega
    have hrem : (if v.length - j * b > b then v.length - j * b - b else 0) = v.length - j * b - b := by
      split_ifs <;> omega
    simp only [hbeg, hrem]
    rw [batch_slice v b (v.length - j * b) (by omega), show v.length - (v.length - j * b) = j * b by omega]
    have hn : v.length - j * b - b = v.length - (j + 1) * b := by
      rw [Nat.add_mul]; omega
    rw [← chunk]
    cases i with
    | zero =>
      rw [Nat.add_zero] at he
      rw [he]; rfl
    | succ i =>
      have h0 := hf 0 (by omega)
      rw [Nat.add_zero] at h0
      rw [h0, res_bind_ok, hn, ih (j + 1) i (by omega) (fun k hk => by
        rw [show j + 1 + k = j + (k + 1) by omega]; exact hf (k + 1) (by omega))
        (by rw [show j + 1 + i = j + (i + 1) by omega]; exact he)]
      rfl

end Verif
