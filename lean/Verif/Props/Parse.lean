import Verif.Lemmas.Parse
import Verif.Lemmas.Planes
import Verif.Lemmas.Slice
import Verif.Lemmas.Concat
import Verif.Lemmas.Update
import Verif.Props.Compare
import Verif.Show

/-!
# Literals (C61-C69)

A literal is `pre ' mid b body`: an optional size, a quote, a base letter and the
digits. `digitsOf body` lists the digits from the right, without underscores.
-/

namespace Verif

variable {n : Nat} {s : Bool}

/-- the value of a hexadecimal (octal, binary, decimal) digit character -/
def charVal (c : Char) : Nat :=
  if '0' ≤ c ∧ c ≤ '9' then c.toNat - '0'.toNat
  else if 'a' ≤ c ∧ c ≤ 'f' then c.toNat - 'a'.toNat + 10
  else if 'A' ≤ c ∧ c ≤ 'F' then c.toNat - 'A'.toNat + 10
  else 0

/-- bit `j` of a digit character: an x/z digit marks all its bits -/
def charBit (c : Char) (j : Nat) : V4 :=
  if c = 'x' ∨ c = 'X' then .x else if c = 'z' ∨ c = 'Z' then .z else V4.ofBool ((charVal c).testBit j)

/-- bit `i` of a literal body in base `2^st` -/
def litAt (st : Nat) (body : List Char) (i : Nat) : V4 :=
  match (digitsOf body)[i / st]? with
  | some c => charBit c (i % st)
  | none => .b0

/-- characters of binary, octal and upper case hexadecimal literals -/
def binChars : List Char := ['0', '1', 'x', 'z', '_']
def octChars : List Char := ['0', '1', '2', '3', '4', '5', '6', '7', 'x', 'X', 'z', 'Z', '_']
def hexChars : List Char :=
  ['0', '1', '2', '3', '4', '5', '6', '7', '8', '9', 'A', 'B', 'C', 'D', 'E', 'F', 'x', 'X', 'z', 'Z', '_']

/-- a literal -/
def lit (pre mid : List Char) (b : Char) (body : List Char) : List Char := pre ++ '\'' :: (mid ++ b :: body)

/-- the parts of a literal: no quote in the size, digits only before the base letter -/
structure LitOk (pre mid : List Char) (b : Char) : Prop where
  pre : ∀ c ∈ pre, c ≠ '\''
  mid : ∀ c ∈ mid, '0' ≤ c ∧ c ≤ '9'
  base : ¬ ('0' ≤ b ∧ b ≤ '9')

/-- **C66.** The base letter is the first non-digit after the first quote; what is parsed
are the base letter and the characters after it, whatever the size prefix. -/
theorem C66_prefix {pre mid : List Char} {b : Char} (h : LitOk pre mid b) (body : List Char) (size : Nat) :
    parseRawStr (lit pre mid b body) = parseRaw body b ∧
    parseXzStr (lit pre mid b body) = parseXz body b ∧
    parseRawBig (lit pre mid b body) size =
      batchLoop (parseRaw · b) body (64 / getStride b) (limbs size) body.length body.length ∧
    parseXzBig (lit pre mid b body) size =
      batchLoop (parseXz · b) body (64 / getStride b) (limbs size) body.length body.length := by
  have e := getInputBase_quote pre mid body b h.pre h.mid h.base
  have d := drop_quote pre mid body b
  refine ⟨?_, ?_, ?_, ?_⟩
  · rw [parseRawStr, lit, e]; simp only; rw [d]
  · rw [parseXzStr, lit, e]; simp only; rw [d]
  · rw [parseRawBig, lit, e]; simp only; rw [d]
  · rw [parseXzBig, lit, e]; simp only; rw [d]

/-- **C66, objects.** Two literals that differ in the size prefix only denote the same
object (and fault alike). -/
theorem C66_size {pre mid pre' mid' : List Char} {b : Char} (h : LitOk pre mid b) (h' : LitOk pre' mid' b)
    (body : List Char) :
    (Lg.ofString (lit pre mid b body) : Res (Lg n s)) = Lg.ofString (lit pre' mid' b body) ∧
    (Bits.ofString (lit pre mid b body) : Res (Bits n s)) = Bits.ofString (lit pre' mid' b body) := by
  obtain ⟨a1, a2, a3, a4⟩ := C66_prefix h body n
  obtain ⟨b1, b2, b3, b4⟩ := C66_prefix h' body n
  constructor
  · rw [Lg.ofString, Lg.ofString, a1, a2, a3, a4, b1, b2, b3, b4]
  · rw [Bits.ofString, Bits.ofString, a1, a3, b1, b3]

example : LitOk ['1', '2'] [] 'h' ∧ lit ['1', '2'] [] 'h' ['F', 'F'] = "12'hFF".toList :=
  ⟨⟨by decide, by decide, by decide⟩, by decide⟩

/-! ### one limb -/

/-- position of a character of the reversed body among the digits -/
theorem digits_split {body L1 L2 : List Char} {c : Char} (h : body.reverse = L1 ++ c :: L2) (hc : c ≠ '_') :
    (L1.filter (· ≠ '_')).length < (digitsOf body).length := by
  rw [digitsOf_reverse, h, List.filter_append, List.length_append, List.filter_cons_of_pos (by simpa using hc),
    List.length_cons]
  omega

theorem digits_split_le {body L1 L2 : List Char} {c : Char} (h : body.reverse = L1 ++ c :: L2) :
    (L1.filter (· ≠ '_')).length ≤ (digitsOf body).length := by
  rw [digitsOf_reverse, h, List.filter_append, List.length_append]
  omega

/-- an underscore with all digits to its right: the body starts with an underscore -/
theorem digits_split_eq {body L1 L2 : List Char} {c : Char} (h : body.reverse = L1 ++ c :: L2)
    (he : (L1.filter (· ≠ '_')).length = (digitsOf body).length) : body.head? = some '_' := by
  rw [digitsOf_reverse, h, List.filter_append, List.length_append] at he
  have hz : (c :: L2).filter (· ≠ '_') = [] := List.eq_nil_of_length_eq_zero (by omega)
  rw [List.filter_eq_nil_iff] at hz
  have hb : body = (c :: L2).reverse ++ L1.reverse := by
    rw [← List.reverse_append, ← h, List.reverse_reverse]
  rw [hb, List.head?_append]
  have : (c :: L2).reverse ≠ [] := by simp
  obtain ⟨x, xs, hx⟩ := List.exists_cons_of_ne_nil this
  rw [hx]
  have hm : x ∈ c :: L2 := by rw [← List.mem_reverse, hx]; simp
  have := hz x hm
  simp at this
  simp [this]

theorem split_filter {p : Char → Bool} {L : List Char} {i : Nat} {c : Char} (h : (L.filter p)[i]? = some c) :
    ∃ L1 L2, L = L1 ++ c :: L2 ∧ (L1.filter p).length = i := by
  induction L generalizing i with
  | nil => simp at h
  | cons a L ih =>
    by_cases ha : p a = true
    · rw [List.filter_cons_of_pos ha] at h
      cases i with
      | zero => simp at h; subst h; exact ⟨[], L, rfl, rfl⟩
      | succ i =>
        rw [List.getElem?_cons_succ] at h
        obtain ⟨L1, L2, e1, e2⟩ := ih h
        exact ⟨a :: L1, L2, by rw [e1]; rfl, by rw [List.filter_cons_of_pos ha, List.length_cons, e2]⟩
    · rw [List.filter_cons_of_neg ha] at h
      obtain ⟨L1, L2, e1, e2⟩ := ih h
      exact ⟨a :: L1, L2, by rw [e1]; rfl, by rw [List.filter_cons_of_neg ha, e2]⟩

/-- the literal fits a `uint64_t`: no shift reaches 64 -/
def Fits64 (st : Nat) (body : List Char) : Prop :=
  (digitsOf body).length * st < 64 ∨ ((digitsOf body).length * st = 64 ∧ body.head? ≠ some '_')

theorem parse_pos (st : Nat) (hst : 0 < st) (d : Char → Option (BitVec 64)) (hu : digVal d '_' = 0) (body : List Char)
    (hd : ∀ c ∈ body, (digVal d c).toNat < 2 ^ st)
    (hf : Fits64 st body ∨ (d '_' = none ∧ (digitsOf body).length * st ≤ 64)) :
    ∃ r, (body.reverse.foldlM (fun s c => parsePos st (d c) c s) (0, 0)).map (·.1) = .ok r ∧
      ∀ i, i < 64 → r.getLsbD i = posBit st (digVal d) (digitsOf body) i := by
  obtain ⟨r, hr, hb⟩ := parsePos_fold hst d hu body.reverse (fun c hc => hd c (by simpa using hc)) 0 0 (by
    intro L1 c L2 hL hs
    rw [Nat.zero_add]
    by_cases hc : c = '_'
    · subst hc
      rcases hf with hf | hf
      · have hle := digits_split_le hL
        rcases hf with hf | ⟨hf, hh⟩
        · exact lt_of_le_of_lt (Nat.mul_le_mul_right st hle) hf
        · have hlt : (L1.filter (· ≠ '_')).length < (digitsOf body).length := by
            rcases Nat.lt_or_ge (L1.filter (· ≠ '_')).length (digitsOf body).length with h | h
            · exact h
            · exact absurd (digits_split_eq hL (by omega)) hh
          rw [← hf]
          exact Nat.mul_lt_mul_of_pos_right hlt hst
      · rw [hf.1] at hs; exact absurd hs (by decide)
    · have hlt := digits_split hL hc
      have : (digitsOf body).length * st ≤ 64 := by
        rcases hf with hf | hf
        · rcases hf with hf | hf <;> omega
        · exact hf.2
      exact lt_of_lt_of_le (Nat.mul_lt_mul_of_pos_right hlt hst) this)
  refine ⟨r, by rw [hr, res_map_ok], fun i hi => ?_⟩
  rw [hb i hi, digitsOf_reverse]
  simp

theorem parse_xzBin (body : List Char) (hf : ∀ i c, (digitsOf body)[i]? = some c → c = 'x' ∨ c = 'z' → i < 32) :
    ∃ r, parseXz body 'b' = .ok r ∧
      ∀ i, i < 64 → r.getLsbD i = posBit 1 (fun c => if c = 'x' ∨ c = 'z' then 1 else 0) (digitsOf body) i := by
  obtain ⟨r, hr, hb⟩ := parseXzBin_fold body.reverse 0 0 (by
    intro L1 c L2 hL hs
    rw [Nat.zero_add]
    have hc : c ≠ '_' := by rcases hs with rfl | rfl <;> decide
    apply hf _ c _ hs
    rw [digitsOf_reverse, hL, List.filter_append, List.filter_cons_of_pos (by simpa using hc)]
    rw [List.getElem?_append_right (le_refl _)]
    simp)
  refine ⟨r, by rw [parseXz, if_pos (Or.inl rfl), hr, res_map_ok], fun i hi => ?_⟩
  rw [hb i hi, digitsOf_reverse]
  simp

/-- a literal body that one `uint64_t` can hold: base letter, digit width, digits; the
x/z loop of the binary base shifts a 32-bit one (`util.cc` 136) -/
inductive LimbOk : Char → Nat → List Char → Prop
  | bin {b : Char} {body : List Char} : (b = 'b' ∨ b = 'B') → (∀ c ∈ body, c ∈ binChars) →
      (digitsOf body).length ≤ 64 →
      (∀ i c, (digitsOf body)[i]? = some c → c = 'x' ∨ c = 'z' → i < 32) → LimbOk b 1 body
  | oct {b : Char} {body : List Char} : (b = 'o' ∨ b = 'O') → (∀ c ∈ body, c ∈ octChars) →
      (digitsOf body).length ≤ 21 → LimbOk b 3 body
  | hex {b : Char} {body : List Char} : (b = 'h' ∨ b = 'H') → (∀ c ∈ body, c ∈ hexChars) →
      Fits64 4 body → LimbOk b 4 body

theorem mem_digitsOf {body : List Char} {c : Char} (h : c ∈ digitsOf body) : c ∈ body ∧ c ≠ '_' := by
  rw [digitsOf, List.mem_reverse, List.mem_filter] at h
  exact ⟨h.1, by simpa using h.2⟩

/-- digit by digit agreement of the two planes with the literal -/
theorem litAt_of_pos {st : Nat} {body : List Char} {f g : Char → BitVec 64} (hst : 0 < st)
    (h : ∀ c ∈ digitsOf body, ∀ j, j < st → V4.mk ((f c).getLsbD j) ((g c).getLsbD j) = charBit c j) (i : Nat) :
    V4.mk (posBit st f (digitsOf body) i) (posBit st g (digitsOf body) i) = litAt st body i := by
  unfold posBit litAt
  cases e : (digitsOf body)[i / st]? with
  | none => rfl
  | some c => exact h c (List.mem_of_getElem? e) _ (Nat.mod_lt _ hst)

theorem limb_ok {b : Char} {st : Nat} {body : List Char} (h : LimbOk b st body) :
    ∃ r k, parseRaw body b = .ok r ∧ parseXz body b = .ok k ∧
      ∀ i, i < 64 → V4.mk (r.getLsbD i) (k.getLsbD i) = litAt st body i := by
  cases h with
  | bin hb hc hl hx =>
    obtain ⟨r, hr, er⟩ := parse_pos 1 (by decide) binDigit (by decide) body
      (fun c h => by
        have : ∀ c ∈ binChars, (digVal binDigit c).toNat < 2 ^ 1 := by decide
        exact this c (hc c h)) (Or.inr ⟨by decide, by omega⟩)
    obtain ⟨k, hk, ek⟩ := parse_xzBin body hx
    refine ⟨r, k, ?_, ?_, fun i hi => ?_⟩
    · rw [← hr]; rcases hb with rfl | rfl <;> rfl
    · rw [← hk]; rcases hb with rfl | rfl <;> rfl
    · rw [er i hi, ek i hi]
      refine litAt_of_pos (by decide) (fun c h j hj => ?_) i
      have : ∀ c ∈ binChars, c ≠ '_' → ∀ j, j < 1 →
          V4.mk ((digVal binDigit c).getLsbD j) ((if c = 'x' ∨ c = 'z' then (1 : BitVec 64) else 0).getLsbD j) = charBit c j := by
        decide
      exact this c (hc c (mem_digitsOf h).1) (mem_digitsOf h).2 j hj
  | oct hb hc hl =>
    obtain ⟨r, hr, er⟩ := parse_pos 3 (by decide) octDigit (by decide) body
      (fun c h => by
        have : ∀ c ∈ octChars, (digVal octDigit c).toNat < 2 ^ 3 := by decide
        exact this c (hc c h)) (Or.inl (Or.inl (by omega)))
    obtain ⟨k, hk, ek⟩ := parse_pos 3 (by decide) (xzDigit 7) (by decide) body
      (fun c h => by
        have : ∀ c ∈ octChars, (digVal (xzDigit 7) c).toNat < 2 ^ 3 := by decide
        exact this c (hc c h)) (Or.inl (Or.inl (by omega)))
    refine ⟨r, k, ?_, ?_, fun i hi => ?_⟩
    · rw [← hr]; rcases hb with rfl | rfl <;> rfl
    · rw [← hk]; rcases hb with rfl | rfl <;> rfl
    · rw [er i hi, ek i hi]
      refine litAt_of_pos (by decide) (fun c h j hj => ?_) i
      have : ∀ c ∈ octChars, c ≠ '_' → ∀ j, j < 3 →
          V4.mk ((digVal octDigit c).getLsbD j) ((digVal (xzDigit 7) c).getLsbD j) = charBit c j := by
        decide +kernel
      exact this c (hc c (mem_digitsOf h).1) (mem_digitsOf h).2 j hj
  | hex hb hc hl =>
    obtain ⟨r, hr, er⟩ := parse_pos 4 (by decide) hexDigit (by decide) body
      (fun c h => by
        have : ∀ c ∈ hexChars, (digVal hexDigit c).toNat < 2 ^ 4 := by decide +kernel
        exact this c (hc c h)) (Or.inl hl)
    obtain ⟨k, hk, ek⟩ := parse_pos 4 (by decide) (xzDigit 15) (by decide) body
      (fun c h => by
        have : ∀ c ∈ hexChars, (digVal (xzDigit 15) c).toNat < 2 ^ 4 := by decide +kernel
        exact this c (hc c h)) (Or.inl hl)
    refine ⟨r, k, ?_, ?_, fun i hi => ?_⟩
    · rw [← hr]; rcases hb with rfl | rfl <;> rfl
    · rw [← hk]; rcases hb with rfl | rfl <;> rfl
    · rw [er i hi, ek i hi]
      refine litAt_of_pos (by decide) (fun c h j hj => ?_) i
      have : ∀ c ∈ hexChars, c ≠ '_' → ∀ j, j < 4 →
          V4.mk ((digVal hexDigit c).getLsbD j) ((digVal (xzDigit 15) c).getLsbD j) = charBit c j := by
        decide +kernel
      exact this c (hc c (mem_digitsOf h).1) (mem_digitsOf h).2 j hj

/-- bits past the digits are zero -/
theorem litAt_ge {st : Nat} {body : List Char} (hst : 0 < st) {i : Nat} (h : (digitsOf body).length * st ≤ i) :
    litAt st body i = .b0 := by
  unfold litAt
  rw [List.getElem?_eq_none ((Nat.le_div_iff_mul_le hst).2 h)]

theorem V4.mk_eq_b0 {a b : Bool} (h : V4.mk a b = .b0) : a = false ∧ b = false := by
  revert h; cases a <;> cases b <;> decide

/-- bits of a native object made from a limb -/
theorem raw_limb (hn : 0 < n) (h64 : n ≤ 64) (v : BitVec 64) (hv : 1 < n ∨ ∀ i, 1 ≤ i → i < 64 → v.getLsbD i = false)
    (i : Nat) : (Bits.mkN h64 ⟨tU64, v.toNat⟩ : Bits n s).raw i = (decide (i < hw n) && v.getLsbD i) := by
  rcases Nat.lt_or_ge 1 n with h1 | h1
  · rw [Bits.raw_mkN h64 h1, ibit_toNat]
  · have : n = 1 := by omega
    subst this
    have hz : ∀ j, 1 ≤ j → v.getLsbD j = false := by
      intro j hj
      rcases hv with hv | hv
      · omega
      · rcases Nat.lt_or_ge j 64 with h | h
        · exact hv j hj h
        · exact BitVec.getLsbD_of_ge _ _ h
    rw [Bits.mkN_slice h64 (by decide) (P := v.getLsbD) (fun j => ibit_toNat v j) hz i]
    rcases Nat.lt_or_ge i 1 with h | h
    · have : i < hw 1 := by rw [hw_one (by decide)]; exact h
      simp [this]
    · rw [hz i h]; simp

/-- a native literal of any positional base -/
theorem lit_native (hn : 0 < n) (h64 : n ≤ 64) {pre mid body : List Char} {b : Char} {st : Nat} (hl : LitOk pre mid b)
    (h : LimbOk b st body) (hfit : 1 < n ∨ ∀ i, 1 ≤ i → litAt st body i = .b0) :
    ∃ z : Lg n s, Lg.ofString (lit pre mid b body) = .ok z ∧ Bits.ofString (lit pre mid b body) = .ok z.value ∧
      (∀ i, i < n → z.at i = litAt st body i) ∧
      (s = false → (∀ i, n ≤ i → litAt st body i = .b0) → z.Clean) := by
  obtain ⟨p1, p2, -, -⟩ := C66_prefix hl body n
  have hst : 0 < st := by cases h <;> decide
  obtain ⟨r, k, hr, hk, e⟩ := limb_ok h
  have hz : ∀ i, litAt st body i = .b0 → i < 64 → r.getLsbD i = false ∧ k.getLsbD i = false := by
    intro i h1 h2
    exact V4.mk_eq_b0 (by rw [e i h2, h1])
  have rv := raw_limb (s := s) hn h64 r (hfit.imp id fun h i h1 h2 => (hz i (h i h1) h2).1)
  have rk := raw_limb (s := false) hn h64 k (hfit.imp id fun h i h1 h2 => (hz i (h i h1) h2).2)
  refine ⟨⟨Bits.mkN h64 ⟨tU64, r.toNat⟩, Bits.mkN h64 ⟨tU64, k.toNat⟩⟩, ?_, ?_, fun i hi => ?_, ?_⟩
  · rw [Lg.ofString, dif_pos h64, p1, p2, hr, hk]; rfl
  · rw [Bits.ofString, dif_pos h64, p1, hr]; rfl
  · rw [Lg.at_of_raw hi]
    show V4.mk (Bits.raw (Bits.mkN h64 _) i) (Bits.raw (Bits.mkN h64 _) i) = _
    rw [rv, rk, ← e i (by omega)]
    simp [show i < hw n from lt_of_lt_of_le hi (le_hw h64)]
  · rintro rfl hd
    have key : ∀ i, n ≤ i → (Bits.mkN h64 ⟨tU64, r.toNat⟩ : Bits n false).raw i = false ∧
        (Bits.mkN h64 ⟨tU64, k.toNat⟩ : Bits n false).raw i = false := by
      intro i hi
      rw [rv, rk]
      rcases Nat.lt_or_ge i 64 with h | h
      · rw [(hz i (hd i hi) h).1, (hz i (hd i hi) h).2]; simp
      · rw [BitVec.getLsbD_of_ge _ _ h, BitVec.getLsbD_of_ge _ _ h]; simp
    constructor
    · exact (Bits.clean_unsigned_iff _).2 fun i hi => (key i hi).1
    · exact (Bits.clean_unsigned_iff _).2 fun i hi => (key i hi).2

/-- **C61, partial.** A native binary literal of at most `n` digits sets bit `i` from the
`i`-th digit from the right, in both planes, and no other bit. Not covered: x/z digits at
positions 32 and above, see `C61_refuted`. -/
theorem C61_binary_partial (hn : 0 < n) (h64 : n ≤ 64) {pre mid body : List Char} {b : Char} (hb : b = 'b' ∨ b = 'B')
    (hl : LitOk pre mid b) (hc : ∀ c ∈ body, c ∈ binChars) (hd : (digitsOf body).length ≤ n)
    (hx : ∀ i c, (digitsOf body)[i]? = some c → c = 'x' ∨ c = 'z' → i < 32) :
    ∃ z : Lg n s, Lg.ofString (lit pre mid b body) = .ok z ∧ Bits.ofString (lit pre mid b body) = .ok z.value ∧
      (∀ i, i < n → z.at i = match (digitsOf body)[i]? with
        | some '1' => .b1 | some 'x' => .x | some 'z' => .z | _ => .b0) ∧
      (s = false → z.Clean) := by
  obtain ⟨z, h1, h2, h3, h4⟩ := lit_native (s := s) hn h64 hl (.bin hb hc (by omega) hx)
    (by
      rcases Nat.lt_or_ge 1 n with h | h
      · exact Or.inl h
      · exact Or.inr fun i hi => litAt_ge (by decide) (by omega))
  refine ⟨z, h1, h2, fun i hi => ?_, fun hs => h4 hs fun i hi => litAt_ge (by decide) (by omega)⟩
  rw [h3 i hi, litAt, Nat.div_one, Nat.mod_one]
  cases e : (digitsOf body)[i]? with
  | none => rfl
  | some c =>
    have hm := hc c (mem_digitsOf (List.mem_of_getElem? e)).1
    have : ∀ c ∈ binChars, charBit c 0 = match some c with
        | some '1' => .b1 | some 'x' => .x | some 'z' => .z | _ => .b0 := by decide
    exact this c hm

example : ∃ z : Lg 6 false, Lg.ofString "6'b1_0x".toList = .ok z ∧
    (List.range 6).map z.at = [.x, .b0, .b1, .b0, .b0, .b0] := ⟨_, rfl, by decide +kernel⟩

theorem xz_fault {body : List Char} {b : Char} (hb : b = 'b' ∨ b = 'B') {i : Nat} {c : Char}
    (e : (digitsOf body)[i]? = some c) (hxz : c = 'x' ∨ c = 'z') (hi : 32 ≤ i) : parseXz body b = .error .shift := by
  obtain ⟨L1, L2, hL, hlen⟩ := split_filter (p := (· ≠ '_')) (L := body.reverse) (by rw [← digitsOf_reverse]; exact e)
  have := parseXzBin_fault L1 c L2 0 0 hxz (by omega)
  rw [← hL] at this
  have e2 : parseXz body b = (body.reverse.foldlM (fun st c => parseXzBin c st) (0, 0)).map (·.1) := by
    rcases hb with rfl | rfl <;> rfl
  rw [e2, this]; rfl

/-- **C61, refuted.** Any literal with an x or z digit at position 32 or above makes the
constructor shift a 32-bit one by 32 or more. -/
theorem C61_refuted (h64 : n ≤ 64) {pre mid body : List Char} {b : Char} (hb : b = 'b' ∨ b = 'B')
    (hl : LitOk pre mid b) (hc : ∀ c ∈ body, c ∈ binChars) (hd : (digitsOf body).length ≤ n)
    (hx : ∃ i c, (digitsOf body)[i]? = some c ∧ (c = 'x' ∨ c = 'z') ∧ 32 ≤ i) :
    (Lg.ofString (lit pre mid b body) : Res (Lg n s)) = .error .shift := by
  obtain ⟨p1, p2, -, -⟩ := C66_prefix hl body n
  obtain ⟨r, hr, -⟩ := parse_pos 1 (by decide) binDigit (by decide) body
    (fun c h => by
      have : ∀ c ∈ binChars, (digVal binDigit c).toNat < 2 ^ 1 := by decide
      exact this c (hc c h)) (Or.inr ⟨by decide, by omega⟩)
  have hr' : parseRaw body b = .ok r := by rw [← hr]; rcases hb with rfl | rfl <;> rfl
  have hk : parseXz body b = .error .shift := by
    obtain ⟨i, c, e, hxz, hi⟩ := hx
    exact xz_fault hb e hxz hi
  rw [Lg.ofString, dif_pos h64, p1, p2, hr', hk]; rfl

/-! ### hexadecimal and octal -/

/-- a literal without x/z digits is a number -/
theorem number_of_at {z : Lg n s} {st : Nat} {body : List Char} (hst : 0 < st)
    (hat : ∀ i, i < n → z.at i = litAt st body i) (hp : ∀ c ∈ body, c ∉ ['x', 'X', 'z', 'Z'])
    (hv : ∀ c ∈ digitsOf body, charVal c < 2 ^ st) :
    z.value.bv = BitVec.ofNat n (Nat.ofDigits (2 ^ st) ((digitsOf body).map charVal)) ∧ z.xz.bv = 0 := by
  have key : ∀ i, litAt st body i =
      V4.mk ((Nat.ofDigits (2 ^ st) ((digitsOf body).map charVal)).testBit i) false := by
    intro i
    rw [testBit_ofDigits hst _ (by simpa using hv), litAt, List.getElem?_map]
    cases e : (digitsOf body)[i / st]? with
    | none => rfl
    | some c =>
      have hm := hp c (mem_digitsOf (List.mem_of_getElem? e)).1
      simp only [List.mem_cons, List.not_mem_nil, or_false, not_or] at hm
      simp only [Option.map_some, charBit]
      rw [if_neg (by tauto), if_neg (by tauto)]
      cases (charVal c).testBit (i % st) <;> rfl
  constructor
  · apply BitVec.eq_of_getLsbD_eq
    intro i hi
    have := hat i hi
    rw [key, Lg.at, V4.mk_inj] at this
    rw [this.1, BitVec.getLsbD_ofNat]; simp [hi]
  · apply BitVec.eq_of_getLsbD_eq
    intro i hi
    have := hat i hi
    rw [key, Lg.at, V4.mk_inj] at this
    rw [this.2]; simp

/-- **C62, partial.** A native hexadecimal literal with upper case digits that fits 64 bits:
every digit gives four bits, x/z digits mark four bits, and without x/z digits the value is
the denoted number (modulo `2^n`). Not covered: lower case digits (`C62_refuted`) and a
leading underscore before sixteen digits (`C62_underscore_refuted`). -/
theorem C62_hex_partial (hn : 0 < n) (h64 : n ≤ 64) {pre mid body : List Char} {b : Char} (hb : b = 'h' ∨ b = 'H')
    (hl : LitOk pre mid b) (hc : ∀ c ∈ body, c ∈ hexChars) (hd : (digitsOf body).length ≤ 16)
    (hu : (digitsOf body).length = 16 → body.head? ≠ some '_')
    (hfit : 1 < n ∨ ∀ i, 1 ≤ i → litAt 4 body i = .b0) :
    ∃ z : Lg n s, Lg.ofString (lit pre mid b body) = .ok z ∧ Bits.ofString (lit pre mid b body) = .ok z.value ∧
      (∀ i, i < n → z.at i = litAt 4 body i) ∧
      ((∀ c ∈ body, c ∉ ['x', 'X', 'z', 'Z']) →
        z.value.bv = BitVec.ofNat n (Nat.ofDigits 16 ((digitsOf body).map charVal)) ∧ z.xz.bv = 0) ∧
      (s = false → (∀ i, n ≤ i → litAt 4 body i = .b0) → z.Clean) := by
  have hf : Fits64 4 body := by
    rcases Nat.lt_or_ge (digitsOf body).length 16 with h | h
    · exact Or.inl (by omega)
    · exact Or.inr ⟨by omega, hu (by omega)⟩
  obtain ⟨z, h1, h2, h3, h4⟩ := lit_native (s := s) hn h64 hl (.hex hb hc hf) hfit
  refine ⟨z, h1, h2, h3, fun hp => ?_, h4⟩
  refine number_of_at (st := 4) (by decide) h3 hp fun c h => ?_
  have : ∀ c ∈ hexChars, charVal c < 2 ^ 4 := by decide +kernel
  exact this c (hc c (mem_digitsOf h).1)

example : ∃ z : Lg 12 false, Lg.ofString "12'hA_x3".toList = .ok z ∧
    (List.range 12).map z.at = [.b1, .b1, .b0, .b0, .x, .x, .x, .x, .b0, .b1, .b0, .b1] := ⟨_, rfl, by decide +kernel⟩

/-- **C62, refuted.** A lower case hexadecimal digit is read ten too small
(`util.cc` 100: `c - 'a'`). -/
theorem C62_refuted (h4 : 4 ≤ n) (h64 : n ≤ 64) {c : Char} (hc : c ∈ ['a', 'b', 'c', 'd', 'e', 'f']) :
    ∃ z : Lg n s, Lg.ofString ['\'', 'h', c] = .ok z ∧ z.value.bv = BitVec.ofNat n (charVal c - 10) ∧
      z.value.bv ≠ BitVec.ofNat n (charVal c) := by
  have hp : parseRawStr ['\'', 'h', c] = .ok (BitVec.ofNat 64 (charVal c - 10)) ∧ parseXzStr ['\'', 'h', c] = .ok 0 ∧
      10 ≤ charVal c ∧ charVal c < 16 := by
    simp only [List.mem_cons, List.not_mem_nil, or_false] at hc
    rcases hc with rfl | rfl | rfl | rfl | rfl | rfl <;> exact ⟨by decide +kernel, by decide +kernel, by decide, by decide⟩
  obtain ⟨p1, p2, l1, l2⟩ := hp
  have ev : (Bits.mkN h64 ⟨tU64, (BitVec.ofNat 64 (charVal c - 10)).toNat⟩ : Bits n s).bv = BitVec.ofNat n (charVal c - 10) := by
    rw [Bits.bv_mkN h64 (by omega), BitVec.toNat_ofNat, Nat.mod_eq_of_lt (by omega), BitVec.ofInt_natCast]
  refine ⟨⟨_, _⟩, by rw [Lg.ofString, dif_pos h64, p1, p2]; rfl, ev, ?_⟩
  show (Bits.mkN h64 _ : Bits n s).bv ≠ _
  rw [ev]
  intro e
  have e := congrArg BitVec.toNat e
  have hp : 2 ^ 4 ≤ 2 ^ n := Nat.pow_le_pow_right (by decide) h4
  rw [BitVec.toNat_ofNat, BitVec.toNat_ofNat, Nat.mod_eq_of_lt (by omega), Nat.mod_eq_of_lt (by omega)] at e
  omega

/-- **C62, refuted for underscores.** A leading underscore before sixteen digits is shifted
by 64 (`util.cc` 91-106 treats it as a zero digit before skipping it). -/
theorem C62_underscore_refuted (h64 : n ≤ 64) {pre mid body : List Char} {b : Char} (hb : b = 'h' ∨ b = 'H')
    (hl : LitOk pre mid b) (hd : (digitsOf body).length = 16) :
    (Bits.ofString (lit pre mid b ('_' :: body)) : Res (Bits n s)) = .error .shift ∧
    (Lg.ofString (lit pre mid b ('_' :: body)) : Res (Lg n s)) = .error .shift := by
  obtain ⟨p1, p2, -, -⟩ := C66_prefix hl ('_' :: body) n
  have h := parsePos_fault (st := 4) hexDigit body.reverse '_' [] 0 0 (by decide)
    (by rw [← digitsOf_reverse, hd])
  have hr : parseRaw ('_' :: body) b = .error .shift := by
    have e2 : parseRaw ('_' :: body) b =
        (('_' :: body).reverse.foldlM (fun st c => parsePos 4 (hexDigit c) c st) (0, 0)).map (·.1) := by
      rcases hb with rfl | rfl <;> rfl
    rw [e2, List.reverse_cons, h]; rfl
  constructor
  · rw [Bits.ofString, dif_pos h64, p1, hr]; rfl
  · rw [Lg.ofString, dif_pos h64, p1, hr]; rfl

example : (Bits.ofString "64'h_0123456701234567".toList : Res (Bits 64 false)) = .error .shift :=
  (C62_underscore_refuted (pre := ['6', '4']) (mid := []) (body := "0123456701234567".toList) (by decide) (Or.inl rfl)
    ⟨by decide, by decide, by decide⟩ (by decide)).1

/-- **C63, partial.** A native octal literal of at most 21 digits: every digit gives three bits, x/z
digits mark three bits, and without x/z digits the value is the denoted number
(modulo `2^n`). Missing: one bit objects and digits above the lowest bit (`C63_one_bit_refuted`). Wide objects are C68. -/
theorem C63_octal_partial (hn : 0 < n) (h64 : n ≤ 64) {pre mid body : List Char} {b : Char} (hb : b = 'o' ∨ b = 'O')
    (hl : LitOk pre mid b) (hc : ∀ c ∈ body, c ∈ octChars) (hd : (digitsOf body).length ≤ 21)
    (hfit : 1 < n ∨ ∀ i, 1 ≤ i → litAt 3 body i = .b0) :
    ∃ z : Lg n s, Lg.ofString (lit pre mid b body) = .ok z ∧ Bits.ofString (lit pre mid b body) = .ok z.value ∧
      (∀ i, i < n → z.at i = litAt 3 body i) ∧
      ((∀ c ∈ body, c ∉ ['x', 'X', 'z', 'Z']) →
        z.value.bv = BitVec.ofNat n (Nat.ofDigits 8 ((digitsOf body).map charVal)) ∧ z.xz.bv = 0) ∧
      (s = false → (∀ i, n ≤ i → litAt 3 body i = .b0) → z.Clean) := by
  obtain ⟨z, h1, h2, h3, h4⟩ := lit_native (s := s) hn h64 hl (.oct hb hc hd) hfit
  refine ⟨z, h1, h2, h3, fun hp => ?_, h4⟩
  refine number_of_at (st := 3) (by decide) h3 hp fun c h => ?_
  have hm := hp c (mem_digitsOf h).1
  have : ∀ c ∈ octChars, charVal c < 2 ^ 3 := by decide +kernel
  exact this c (hc c (mem_digitsOf h).1)

example : ∃ z : Lg 9 true, Lg.ofString "9'o7_z1".toList = .ok z ∧
    (List.range 9).map z.at = [.b1, .b0, .b0, .z, .z, .z, .b1, .b1, .b1] := ⟨_, rfl, by decide +kernel⟩

/-- **C63 is false of one bit**: the holder is a `bool`, so the even digits 2, 4 and 6 give 1. -/
theorem C63_one_bit_refuted {c : Char} (hc : c ∈ ['2', '4', '6']) :
    ∃ z : Lg 1 s, Lg.ofString (lit [] [] 'o' [c]) = .ok z ∧ Bits.ofString (lit [] [] 'o' [c]) = .ok z.value ∧ z.at 0 = .b1 ∧
      litAt 3 [c] 0 = .b0 := by
  simp only [List.mem_cons, List.not_mem_nil, or_false] at hc
  rcases hc with rfl | rfl | rfl <;> cases s <;> exact ⟨_, rfl, rfl, by decide +kernel, by decide +kernel⟩

/-! ### decimal and raw strings -/

theorem parse_dec (body : List Char) {b : Char} (hb : b = 'd' ∨ b = 'D') :
    parseRaw body b = .ok (BitVec.ofNat 64 (Nat.ofDigits 10 (decDigits body))) ∧ parseXz body b = .ok 0 := by
  have h := parseDec_fold body.reverse 0 1
  have e : parseRaw body b = .ok (body.reverse.foldl parseDec (0, 1)).1 := by rcases hb with rfl | rfl <;> rfl
  refine ⟨?_, by rcases hb with rfl | rfl <;> rfl⟩
  rw [e, h]
  congr 1
  show 0#64 + 1#64 * _ = _
  rw [BitVec.zero_add, BitVec.one_mul]
  rfl

/-- **C64, native.** A decimal literal of any length is the denoted number modulo `2^64`
(then modulo `2^n`); characters that are not digits are skipped. -/
theorem C64_decimal (h1 : 1 < n) (h64 : n ≤ 64) {pre mid : List Char} {b : Char} (hb : b = 'd' ∨ b = 'D')
    (hl : LitOk pre mid b) (body : List Char) :
    ∃ z : Lg n s, Lg.ofString (lit pre mid b body) = .ok z ∧ Bits.ofString (lit pre mid b body) = .ok z.value ∧
      z.value.bv = BitVec.ofNat n (Nat.ofDigits 10 (decDigits body) % 2 ^ 64) ∧ z.xz.bv = 0 := by
  obtain ⟨p1, p2, -, -⟩ := C66_prefix hl body n
  obtain ⟨hr, hk⟩ := parse_dec body hb
  refine ⟨⟨Bits.mkN h64 ⟨tU64, _⟩, Bits.mkN h64 ⟨tU64, _⟩⟩, by rw [Lg.ofString, dif_pos h64, p1, p2, hr, hk]; rfl,
    by rw [Bits.ofString, dif_pos h64, p1, hr]; rfl, ?_, ?_⟩
  · show (Bits.mkN h64 _ : Bits n s).bv = _
    rw [Bits.bv_mkN h64 (by omega), BitVec.toNat_ofNat, BitVec.ofInt_natCast]
  · show (Bits.mkN h64 _ : Bits n false).bv = _
    rw [Bits.bv_mkN h64 (by omega)]; rfl

/-- **C64, one bit.** The object holds a `bool`: a number that fits one bit is stored. -/
theorem C64_decimal_one {pre mid : List Char} {b : Char} (hb : b = 'd' ∨ b = 'D')
    (hl : LitOk pre mid b) (body : List Char) (hv : Nat.ofDigits 10 (decDigits body) < 2) :
    ∃ z : Lg 1 s, Lg.ofString (lit pre mid b body) = .ok z ∧ Bits.ofString (lit pre mid b body) = .ok z.value ∧
      z.value.bv = BitVec.ofNat 1 (Nat.ofDigits 10 (decDigits body)) ∧ z.xz.bv = 0 := by
  obtain ⟨p1, p2, -, -⟩ := C66_prefix hl body 1
  obtain ⟨hr, hk⟩ := parse_dec body hb
  have h64 : 1 ≤ 64 := by decide
  refine ⟨⟨Bits.mkN h64 ⟨tU64, _⟩, Bits.mkN h64 ⟨tU64, _⟩⟩, by rw [Lg.ofString, dif_pos h64, p1, p2, hr, hk]; rfl,
    by rw [Bits.ofString, dif_pos h64, p1, hr]; rfl, ?_, ?_⟩
  · show (Bits.mkN h64 _ : Bits 1 s).bv = _
    generalize Nat.ofDigits 10 (decDigits body) = v at hv
    rw [Bits.bv_mkN_one (by decide) (by decide)]
    interval_cases v <;> rfl
  · show (Bits.mkN h64 _ : Bits 1 false).bv = _
    rw [Bits.bv_mkN_one (by decide) (by decide)]; rfl

example : ∃ z : Lg 16 false, Lg.ofString "16'd1_234".toList = .ok z ∧ z.value.bv = 1234 ∧ z.xz.bv = 0 :=
  ⟨_, rfl, by decide +kernel, by decide +kernel⟩

/-- bit `i` of a raw string: byte `i / 8` is the `i / 8`-th character from the right -/
def byteAt (v : List Char) (i : Nat) : Bool :=
  match v.reverse[i / 8]? with
  | some c => c.toNat.testBit (i % 8)
  | none => false

theorem parse_raw (v : List Char) :
    ∃ r, parseRaw v 's' = .ok r ∧ parseXz v 's' = .ok 0 ∧ ∀ i, i < 64 → r.getLsbD i = byteAt v i := by
  refine ⟨_, rfl, rfl, ?_⟩
  have := loop_induct 0 (min 8 v.length) (0 : BitVec 64) (fun i r =>
      r ||| (BitVec.ofNat 64 ((v.getD (v.length - i - 1) 'a').toNat % 256) <<< (i * 8)))
    (fun k r => ∀ i, i < 64 → r.getLsbD i = (decide (i < 8 * k) && byteAt v i)) (Nat.zero_le _)
    (by intro i hi; simp)
    (by
      intro k r _ hk ih i hi
      rw [BitVec.getLsbD_or, ih i hi, BitVec.getLsbD_shiftLeft, BitVec.getLsbD_ofNat]
      have hk8 : k < 8 ∧ k < v.length := by omega
      by_cases h1 : i < 8 * k
      · simp [h1, show i < k * 8 by omega, show i < 8 * (k + 1) by omega]
      · by_cases h2 : i < 8 * (k + 1)
        · have hdiv : i / 8 = k := by omega
          have hmod : i - k * 8 = i % 8 := by omega
          have hch : v.reverse[k]? = some (v.getD (v.length - k - 1) 'a') := by
            rw [List.getElem?_reverse hk8.2, List.getD_eq_getElem?_getD, Nat.sub_right_comm,
              List.getElem?_eq_getElem (by omega)]
            rfl
          rw [byteAt, hdiv, hch]
          rw [hmod, show (256 : Nat) = 2 ^ 8 from rfl, Nat.testBit_mod_two_pow]
          simp [h1, h2, hi, show ¬ i < k * 8 by omega, show i % 8 < 64 by omega, show i % 8 < 8 by omega]
        · have hz : (BitVec.ofNat 64 ((v.getD (v.length - k - 1) 'a').toNat % 256)).getLsbD (i - k * 8) = false := by
            rw [BitVec.getLsbD_ofNat, show (256 : Nat) = 2 ^ 8 from rfl, Nat.testBit_mod_two_pow]
            simp [show ¬ i - k * 8 < 8 by omega]
          rw [BitVec.getLsbD_ofNat] at hz
          rw [hz]
          simp [h1, h2])
  intro i hi
  rw [this i hi]
  by_cases h : i < 8 * min 8 v.length
  · simp [h]
  · rw [byteAt, List.getElem?_eq_none (by rw [List.length_reverse]; omega)]
    simp

/-- **C65, native, partial.** A string without a quote is stored as its last eight bytes, the last
character in the low byte, with no x/z bit. Missing: one bit (`C65_one_bit`, `C65_one_bit_refuted`). -/
theorem C65_raw_partial (h1 : 1 < n) (h64 : n ≤ 64) {v : List Char} (hv : ∀ c ∈ v, c ≠ '\'') :
    ∃ z : Lg n s, Lg.ofString v = .ok z ∧ Bits.ofString v = .ok z.value ∧
      (∀ i, i < n → z.value.bv.getLsbD i = byteAt v i) ∧ z.xz.bv = 0 := by
  have hb := getInputBase_none v hv
  obtain ⟨r, hr, hk, e⟩ := parse_raw v
  have p1 : parseRawStr v = .ok r := by rw [parseRawStr, hb]; simp only [List.drop_zero]; exact hr
  have p2 : parseXzStr v = .ok 0 := by rw [parseXzStr, hb]; simp only [List.drop_zero]; exact hk
  refine ⟨⟨Bits.mkN h64 ⟨tU64, _⟩, Bits.mkN h64 ⟨tU64, _⟩⟩, by rw [Lg.ofString, dif_pos h64, p1, p2]; rfl,
    by rw [Bits.ofString, dif_pos h64, p1]; rfl, fun i hi => ?_, ?_⟩
  · show (Bits.mkN h64 _ : Bits n s).bv.getLsbD i = _
    rw [Bits.bv_mkN h64 (by omega), BitVec.ofInt_natCast, BitVec.getLsbD_ofNat, ← e i (by omega)]
    simp [hi, BitVec.getLsbD]
  · show (Bits.mkN h64 _ : Bits n false).bv = _
    rw [Bits.bv_mkN h64 (by omega)]; rfl

example : ∃ z : Lg 24 false, Lg.ofString "abc".toList = .ok z ∧ z.value.bv = 0x616263 := ⟨_, rfl, by decide +kernel⟩

/-- **C65, one bit, exactly.** A one bit object is 1 exactly if some of the last eight bytes is not zero. -/
theorem C65_one_bit {v : List Char} (hv : ∀ c ∈ v, c ≠ '\'') :
    ∃ z : Lg 1 s, Lg.ofString v = .ok z ∧ Bits.ofString v = .ok z.value ∧
      (z.value.bv.getLsbD 0 = true ↔ ∃ i, i < 64 ∧ byteAt v i = true) ∧ z.xz.bv = 0 := by
  have hb := getInputBase_none v hv
  obtain ⟨r, hr, hk, e⟩ := parse_raw v
  have p1 : parseRawStr v = .ok r := by rw [parseRawStr, hb]; simp only [List.drop_zero]; exact hr
  have p2 : parseXzStr v = .ok 0 := by rw [parseXzStr, hb]; simp only [List.drop_zero]; exact hk
  have h64 : 1 ≤ 64 := by decide
  refine ⟨⟨Bits.mkN h64 ⟨tU64, _⟩, Bits.mkN h64 ⟨tU64, _⟩⟩, by rw [Lg.ofString, dif_pos h64, p1, p2]; rfl,
    by rw [Bits.ofString, dif_pos h64, p1]; rfl, ?_, ?_⟩
  · show (Bits.mkN h64 _ : Bits 1 s).bv.getLsbD 0 = true ↔ _
    rw [Bits.bv_mkN_one h64 (le_refl _)]
    by_cases h0 : r = 0
    · subst h0
      refine iff_of_false (by simp) ?_
      rintro ⟨i, hi, h⟩
      rw [← e i hi] at h; simp at h
    · refine iff_of_true ?_ ?_
      · rw [if_neg]
        · rfl
        · intro h
          exact h0 (BitVec.eq_of_toNat_eq (by simpa using h))
      · by_contra hn
        push Not at hn
        apply h0
        apply BitVec.eq_of_getLsbD_eq
        intro i hi
        rw [e i hi]
        simpa using hn i hi
  · show (Bits.mkN h64 _ : Bits 1 false).bv = _
    rw [Bits.bv_mkN_one h64 (le_refl _)]; rfl

/-- **C65 is false of one bit**: the letter `b` ends in a zero bit and is stored as 1. -/
theorem C65_one_bit_refuted : ∃ z : Lg 1 s, Lg.ofString ['b'] = .ok z ∧ Bits.ofString ['b'] = .ok z.value ∧
    z.value.bv.getLsbD 0 = true ∧ byteAt ['b'] 0 = false := by
  obtain ⟨z, h1, h2, h3, -⟩ := C65_one_bit (s := s) (v := ['b']) (by decide)
  exact ⟨z, h1, h2, h3.2 ⟨1, by decide, by decide⟩, by decide⟩

/-! ### more than one limb -/

theorem raw_ofList (h : ¬ n ≤ 64) (f : Nat → BitVec 64) (i : Nat) :
    (Bits.big h (Big.ofList ((List.range (limbs n)).map f)) : Bits n s).raw i =
      (decide (i / 64 < limbs n) && (f (i / 64)).getLsbD (i % 64)) := by
  show (Big.ofList _ : Big n s).raw i = _
  unfold Big.raw Big.limb Big.ofList
  rw [List.getD_eq_getElem?_getD, List.getElem?_map]
  by_cases hi : i / 64 < limbs n
  · simp [hi, List.getD_eq_getElem?_getD]
  · simp [hi]

/-- the batch loop from the start -/
theorem batch_start (p : List Char → Res (BitVec 64)) (hp : p [] = .ok 0) (v : List Char) {b : Nat} (hb : 0 < b)
    (f : Nat → BitVec 64) (K : Nat) (hf : ∀ k, k < K → p (chunk v b k) = .ok (f k)) :
    batchLoop p v b K v.length v.length = .ok ((List.range K).map f) := by
  have := batchLoop_ok p hp v hb f K 0 (fun k hk => by rw [Nat.zero_add]; exact hf k hk)
  simpa using this

/-- limb `k` of a wide object is what `k`-th batch of characters from the right parses to -/
theorem wide_limbs (h : ¬ n ≤ 64) {v body : List Char} {b : Char}
    (e1 : parseRawBig v n = batchLoop (parseRaw · b) body (64 / getStride b) (limbs n) body.length body.length)
    (e2 : parseXzBig v n = batchLoop (parseXz · b) body (64 / getStride b) (limbs n) body.length body.length)
    (hp : parseRaw [] b = .ok 0) (hq : parseXz [] b = .ok 0)
    (f g : Nat → BitVec 64) (hf : ∀ k, k < limbs n → parseRaw (chunk body (64 / getStride b) k) b = .ok (f k))
    (hg : ∀ k, k < limbs n → parseXz (chunk body (64 / getStride b) k) b = .ok (g k)) :
    ∃ z : Lg n s, Lg.ofString v = .ok z ∧ Bits.ofString v = .ok z.value ∧
      (∀ i, z.value.raw i = (decide (i / 64 < limbs n) && (f (i / 64)).getLsbD (i % 64))) ∧
      (∀ i, z.xz.raw i = (decide (i / 64 < limbs n) && (g (i / 64)).getLsbD (i % 64))) := by
  have hb : 0 < 64 / getStride b := by unfold getStride; split_ifs <;> decide
  rw [batch_start (parseRaw · b) hp body hb f _ hf] at e1
  rw [batch_start (parseXz · b) hq body hb g _ hg] at e2
  refine ⟨⟨_, _⟩, by rw [Lg.ofString, dif_neg h, e1, e2]; rfl, by rw [Bits.ofString, dif_neg h, e1]; rfl, ?_, ?_⟩
  · exact raw_ofList h f
  · exact raw_ofList h g

/-- **C65, wide.** The same with eight bytes per limb, so every byte lands at its place. -/
theorem C65_raw_wide (h : ¬ n ≤ 64) {v : List Char} (hv : ∀ c ∈ v, c ≠ '\'') :
    ∃ z : Lg n s, Lg.ofString v = .ok z ∧ Bits.ofString v = .ok z.value ∧
      (∀ i, i < n → z.value.bv.getLsbD i = byteAt v i) ∧ z.xz.bv = 0 := by
  have hb := getInputBase_none v hv
  choose r hr hk e using parse_raw
  obtain ⟨z, h1, h2, h3, h4⟩ := wide_limbs (s := s) h (v := v) (body := v) (b := 's')
    (by rw [parseRawBig, hb]; simp only [List.drop_zero]) (by rw [parseXzBig, hb]; simp only [List.drop_zero])
    (by decide) (by decide) (fun k => r (chunk v 8 k)) (fun _ => 0) (fun k _ => hr _) (fun k _ => hk _)
  refine ⟨z, h1, h2, fun i hi => ?_, ?_⟩
  · rw [Bits.getLsbD_bv, decide_eq_true hi, Bool.true_and, h3, e _ _ (Nat.mod_lt _ (by decide)), byteAt, byteAt, chunk_reverse,
      List.getElem?_take, if_pos (by omega), List.getElem?_drop, decide_eq_true (div_lt_limbs hi),
      show i / 64 * 8 + i % 64 / 8 = i / 8 by omega, show i % 64 % 8 = i % 8 by omega, Bool.true_and]
  · apply BitVec.eq_of_getLsbD_eq
    intro i hi
    rw [Bits.getLsbD_bv, h4]; simp

/-- **C64, wide, exact.** Each batch of 64 characters is a number of its own. -/
theorem C64_wide_exact (h : ¬ n ≤ 64) {pre mid : List Char} {b : Char} (hb : b = 'd' ∨ b = 'D')
    (hl : LitOk pre mid b) (body : List Char) :
    ∃ z : Lg n s, Lg.ofString (lit pre mid b body) = .ok z ∧ Bits.ofString (lit pre mid b body) = .ok z.value ∧
      (∀ i, i < n → z.value.bv.getLsbD i =
        (Nat.ofDigits 10 (decDigits (chunk body 64 (i / 64)))).testBit (i % 64)) ∧ z.xz.bv = 0 := by
  obtain ⟨-, -, p3, p4⟩ := C66_prefix hl body n
  have hs : 64 / getStride b = 64 := by rcases hb with rfl | rfl <;> rfl
  obtain ⟨z, h1, h2, h3, h4⟩ := wide_limbs (s := s) h p3 p4 (by rcases hb with rfl | rfl <;> decide)
    (by rcases hb with rfl | rfl <;> decide)
    (fun k => BitVec.ofNat 64 (Nat.ofDigits 10 (decDigits (chunk body 64 k)))) (fun _ => 0)
    (fun k _ => by rw [hs]; exact (parse_dec _ hb).1) (fun k _ => (parse_dec _ hb).2)
  refine ⟨z, h1, h2, fun i hi => ?_, ?_⟩
  · rw [Bits.getLsbD_bv, decide_eq_true hi, Bool.true_and, h3, decide_eq_true (div_lt_limbs hi), Bool.true_and,
      BitVec.getLsbD_ofNat, decide_eq_true (Nat.mod_lt _ (by decide)), Bool.true_and]
  · apply BitVec.eq_of_getLsbD_eq
    intro i hi
    rw [Bits.getLsbD_bv, h4]; simp

theorem chunk_zero {v : List Char} {b : Nat} (h : v.length ≤ b) : chunk v b 0 = v := by
  rw [chunk, Nat.zero_mul, List.drop_zero, List.take_of_length_le (by rwa [List.length_reverse]), List.reverse_reverse]

theorem chunk_succ {v : List Char} {b k : Nat} (h : v.length ≤ b) (hk : 0 < k) : chunk v b k = [] := by
  rw [chunk, List.drop_eq_nil_of_le, List.take_nil]
  · rfl
  · rw [List.length_reverse]
    exact le_trans h (Nat.le_mul_of_pos_left b hk)

/-- **C64, wide, partial.** Up to 64 characters a wide decimal literal is the number modulo
`2^64` as well. Longer ones are not, see `C64_refuted`. -/
theorem C64_wide_partial (h : ¬ n ≤ 64) {pre mid : List Char} {b : Char} (hb : b = 'd' ∨ b = 'D')
    (hl : LitOk pre mid b) {body : List Char} (hlen : body.length ≤ 64) :
    ∃ z : Lg n s, Lg.ofString (lit pre mid b body) = .ok z ∧ Bits.ofString (lit pre mid b body) = .ok z.value ∧
      z.value.bv = BitVec.ofNat n (Nat.ofDigits 10 (decDigits body) % 2 ^ 64) ∧ z.xz.bv = 0 := by
  obtain ⟨z, h1, h2, h3, h4⟩ := C64_wide_exact (s := s) h hb hl body
  refine ⟨z, h1, h2, ?_, h4⟩
  apply BitVec.eq_of_getLsbD_eq
  intro i hi
  rw [h3 i hi, BitVec.getLsbD_ofNat, decide_eq_true hi, Bool.true_and, Nat.testBit_mod_two_pow]
  rcases Nat.lt_or_ge i 64 with h | h
  · rw [Nat.div_eq_of_lt h, Nat.mod_eq_of_lt h, chunk_zero hlen]; simp [h]
  · rw [chunk_succ hlen (by omega)]
    simp [decDigits, show ¬ i < 64 by omega]

/-- **C64, refuted.** The number 10^64, which is 0 modulo 2^64, sets bit 64 of every wide
object. -/
theorem C64_refuted (h : ¬ n ≤ 64) :
    ∃ z : Lg n s, Lg.ofString (lit [] [] 'd' ('1' :: List.replicate 64 '0')) = .ok z ∧
      z.value.bv.getLsbD 64 = true ∧
      Nat.ofDigits 10 (decDigits ('1' :: List.replicate 64 '0')) = 10 ^ 64 ∧ 10 ^ 64 % 2 ^ 64 = 0 := by
  obtain ⟨z, h1, h2, h3, h4⟩ := C64_wide_exact (s := s) h (b := 'd') (pre := []) (mid := []) (Or.inl rfl)
    ⟨by decide, by decide, by decide⟩ ('1' :: List.replicate 64 '0')
  refine ⟨z, h1, ?_, by decide +kernel, by decide⟩
  rw [h3 64 (by omega)]
  decide +kernel

/-! positional bases -/

/-- base letter, digit width, characters -/
inductive Radix : Char → Nat → List Char → Prop
  | b : Radix 'b' 1 binChars
  | B : Radix 'B' 1 binChars
  | o : Radix 'o' 3 octChars
  | O : Radix 'O' 3 octChars
  | h : Radix 'h' 4 hexChars
  | H : Radix 'H' 4 hexChars

theorem Radix.stride {b : Char} {st : Nat} {cs : List Char} (h : Radix b st cs) : getStride b = st := by
  cases h <;> rfl

theorem Radix.pos {b : Char} {st : Nat} {cs : List Char} (h : Radix b st cs) : 0 < st ∧ 0 < 64 / st := by
  cases h <;> decide

/-- **C67-C69, the limb equation.** If every batch fits a limb, limb `k` holds the bits of
batch `k`. -/
theorem wide_lit (h : ¬ n ≤ 64) {pre mid body : List Char} {b : Char} {st : Nat} {cs : List Char}
    (hr : Radix b st cs) (hl : LitOk pre mid b) (hc : ∀ k, k < limbs n → LimbOk b st (chunk body (64 / st) k)) :
    ∃ z : Lg n s, Lg.ofString (lit pre mid b body) = .ok z ∧ Bits.ofString (lit pre mid b body) = .ok z.value ∧
      (∀ i, i < limbs n * 64 → V4.mk (z.value.raw i) (z.xz.raw i) = litAt st (chunk body (64 / st) (i / 64)) (i % 64)) := by
  obtain ⟨-, -, p3, p4⟩ := C66_prefix hl body n
  have hc' : ∀ k, ∃ r g, k < limbs n → parseRaw (chunk body (64 / getStride b) k) b = .ok r ∧
      parseXz (chunk body (64 / getStride b) k) b = .ok g ∧
      ∀ i, i < 64 → V4.mk (r.getLsbD i) (g.getLsbD i) = litAt st (chunk body (64 / st) k) i := by
    intro k
    by_cases hk : k < limbs n
    · obtain ⟨r, g, h1, h2, h3⟩ := limb_ok (hc k hk)
      rw [hr.stride]
      exact ⟨r, g, fun _ => ⟨h1, h2, h3⟩⟩
    · exact ⟨0, 0, fun h => absurd h hk⟩
  choose f g hfg using hc'
  obtain ⟨z, h1, h2, h3, h4⟩ := wide_limbs (s := s) h p3 p4 (by cases hr <;> decide) (by cases hr <;> decide) f g
    (fun k hk => (hfg k hk).1) (fun k hk => (hfg k hk).2.1)
  refine ⟨z, h1, h2, fun i hi => ?_⟩
  have hk : i / 64 < limbs n := by omega
  rw [h3, h4, decide_eq_true hk, Bool.true_and, Bool.true_and]
  exact (hfg _ hk).2.2 _ (Nat.mod_lt _ (by decide))

theorem digitsOf_plain {v : List Char} (h : ∀ c ∈ v, c ≠ '_') : digitsOf v = v.reverse := by
  rw [digitsOf_reverse, List.filter_eq_self]
  intro c hc
  simpa using h c (by simpa using hc)

theorem mem_chunk {v : List Char} {b k : Nat} {c : Char} (h : c ∈ chunk v b k) : c ∈ v := by
  rw [chunk, List.mem_reverse] at h
  exact List.mem_reverse.1 (List.mem_of_mem_drop (List.mem_of_mem_take h))

theorem length_chunk (v : List Char) (b k : Nat) : (chunk v b k).length ≤ b := by
  rw [chunk, List.length_reverse, List.length_take]; omega

/-- the batches of a literal without underscores all fit -/
theorem chunks_fit {body : List Char} {b : Char} {st : Nat} {cs : List Char} (hr : Radix b st cs)
    (hc : ∀ c ∈ body, c ∈ cs) (hu : ∀ c ∈ body, c ≠ '_')
    (hx : st = 1 → ∀ i c, (digitsOf body)[i]? = some c → c = 'x' ∨ c = 'z' → i % 64 < 32) (k : Nat) :
    LimbOk b st (chunk body (64 / st) k) := by
  have hc' : ∀ c ∈ chunk body (64 / st) k, c ∈ cs := fun c h => hc c (mem_chunk h)
  have hu' : ∀ c ∈ chunk body (64 / st) k, c ≠ '_' := fun c h => hu c (mem_chunk h)
  have hlen : (digitsOf (chunk body (64 / st) k)).length ≤ 64 / st := by
    rw [digitsOf_plain hu', List.length_reverse]; exact length_chunk _ _ _
  have hbin : st = 1 → ∀ i c, (digitsOf (chunk body (64 / st) k))[i]? = some c → c = 'x' ∨ c = 'z' → i < 32 := by
    intro h1 i c hi hxz
    have hil : i < (digitsOf (chunk body (64 / st) k)).length := (List.getElem?_eq_some_iff.1 hi).1
    rw [digitsOf_plain hu', chunk_reverse, List.getElem?_take] at hi
    subst h1
    rw [if_pos (by omega), List.getElem?_drop, ← digitsOf_plain hu] at hi
    have := hx rfl _ c hi hxz
    omega
  have hhex : st = 4 → Fits64 4 (chunk body (64 / st) k) := by
    rintro rfl
    rcases Nat.lt_or_ge (digitsOf (chunk body (64 / 4) k)).length 16 with h | h
    · exact Or.inl (by omega)
    · refine Or.inr ⟨by omega, ?_⟩
      intro he
      exact hu' '_' (List.mem_of_mem_head? (by rw [he]; rfl)) rfl
  cases hr with
  | b => exact .bin (Or.inl rfl) hc' hlen (hbin rfl)
  | B => exact .bin (Or.inr rfl) hc' hlen (hbin rfl)
  | o => exact .oct (Or.inl rfl) hc' hlen
  | O => exact .oct (Or.inr rfl) hc' hlen
  | h => exact .hex (Or.inl rfl) hc' (hhex rfl)
  | H => exact .hex (Or.inr rfl) hc' (hhex rfl)

/-- bits of a batch of a literal without underscores -/
theorem litAt_chunk {body : List Char} (hu : ∀ c ∈ body, c ≠ '_') {st B k j : Nat} (hst : 0 < st) :
    litAt st (chunk body B k) j = if j < B * st then litAt st body (k * (B * st) + j) else .b0 := by
  have hu' : ∀ c ∈ chunk body B k, c ≠ '_' := fun c h => hu c (mem_chunk h)
  unfold litAt
  rw [digitsOf_plain hu', digitsOf_plain hu, chunk_reverse, List.getElem?_take]
  by_cases hj : j < B * st
  · rw [if_pos ((Nat.div_lt_iff_lt_mul hst).2 hj), if_pos hj, List.getElem?_drop]
    have e1 : (k * (B * st) + j) / st = k * B + j / st := by
      rw [← Nat.mul_assoc, Nat.add_comm, Nat.add_mul_div_right _ _ hst, Nat.add_comm]
    have e2 : (k * (B * st) + j) % st = j % st := by
      rw [← Nat.mul_assoc, Nat.add_comm, Nat.add_mul_mod_self_right]
    rw [e1, e2]
  · rw [if_neg (fun h => hj ((Nat.div_lt_iff_lt_mul hst).1 h)), if_neg hj]

/-- wide literals without underscores, every base: `64 / st` digits per limb -/
theorem wide_plain (h : ¬ n ≤ 64) {pre mid body : List Char} {b : Char} {st : Nat} {cs : List Char}
    (hr : Radix b st cs) (hl : LitOk pre mid b) (hc : ∀ c ∈ body, c ∈ cs) (hu : ∀ c ∈ body, c ≠ '_')
    (hx : st = 1 → ∀ i c, (digitsOf body)[i]? = some c → c = 'x' ∨ c = 'z' → i % 64 < 32) :
    ∃ z : Lg n s, Lg.ofString (lit pre mid b body) = .ok z ∧ Bits.ofString (lit pre mid b body) = .ok z.value ∧
      (∀ i, i < limbs n * 64 → V4.mk (z.value.raw i) (z.xz.raw i) =
        if i % 64 < 64 / st * st then litAt st body (i / 64 * (64 / st * st) + i % 64) else .b0) := by
  obtain ⟨z, h1, h2, h3⟩ := wide_lit (s := s) h hr hl (fun k _ => chunks_fit hr hc hu hx k)
  exact ⟨z, h1, h2, fun i hi => by rw [h3 i hi, litAt_chunk hu hr.pos.1]⟩

/-- characters of literals without x/z digits -/
def IsXZ (c : Char) : Prop := c ∈ ['x', 'X', 'z', 'Z']

/-- **C67, partial.** A wide binary or hexadecimal literal of known (upper case) digits without
underscores is the denoted number (modulo `2^n`), whatever its length. Not covered: lower
case hexadecimal digits, see `C67_refuted`. -/
theorem C67_wide_partial (h : ¬ n ≤ 64) {pre mid body : List Char} {b : Char} {st : Nat} {cs : List Char}
    (hr : Radix b st cs) (hst : st = 1 ∨ st = 4) (hl : LitOk pre mid b) (hc : ∀ c ∈ body, c ∈ cs ∧ ¬ IsXZ c ∧ c ≠ '_') :
    ∃ z : Lg n s, Lg.ofString (lit pre mid b body) = .ok z ∧ Bits.ofString (lit pre mid b body) = .ok z.value ∧
      z.value.bv = BitVec.ofNat n (Nat.ofDigits (2 ^ st) (body.reverse.map charVal)) ∧ z.xz.bv = 0 ∧
      (body.length * st ≤ n → z.Clean) := by
  have hu : ∀ c ∈ body, c ≠ '_' := fun c hc' => (hc c hc').2.2
  obtain ⟨z, h1, h2, h3⟩ := wide_plain (s := s) h hr hl (fun c h => (hc c h).1) hu
    (fun _ i c hi hxz => absurd (show IsXZ c by rcases hxz with rfl | rfl <;> simp [IsXZ])
      (hc c (mem_digitsOf (List.mem_of_getElem? hi)).1).2.1)
  have hm : 64 / st * st = 64 := by rcases hst with rfl | rfl <;> rfl
  have h4 : ∀ i, i < limbs n * 64 → V4.mk (z.value.raw i) (z.xz.raw i) = litAt st body i := by
    intro i hi
    rw [h3 i hi, hm, if_pos (Nat.mod_lt _ (by decide)), show i / 64 * 64 + i % 64 = i by omega]
  have hnum := number_of_at (z := z) hr.pos.1 (fun i hi => by
    rw [Lg.at_of_raw hi]; exact h4 i (lt_of_lt_of_le hi (le_limbs n))) (fun c h => (hc c h).2.1) (fun c h => by
    have h' := hc c (mem_digitsOf h).1
    cases hr with
    | b => exact (by decide : ∀ c ∈ binChars, charVal c < 2 ^ 1) c h'.1
    | B => exact (by decide : ∀ c ∈ binChars, charVal c < 2 ^ 1) c h'.1
    | o => exact (by decide : ∀ c ∈ octChars, charVal c < 2 ^ 3) c h'.1
    | O => exact (by decide : ∀ c ∈ octChars, charVal c < 2 ^ 3) c h'.1
    | h => exact (by decide : ∀ c ∈ hexChars, charVal c < 2 ^ 4) c h'.1
    | H => exact (by decide : ∀ c ∈ hexChars, charVal c < 2 ^ 4) c h'.1)
  rw [digitsOf_plain hu] at hnum
  refine ⟨z, h1, h2, hnum.1, hnum.2, fun hlen => ?_⟩
  have hz : ∀ i, n ≤ i → z.value.raw i = false ∧ z.xz.raw i = false := by
    intro i hi
    rcases Nat.lt_or_ge i (limbs n * 64) with hlt | hge
    · exact V4.mk_eq_b0 (by
        rw [h4 i hlt, litAt_ge hr.pos.1]
        rw [digitsOf_plain hu, List.length_reverse]; omega)
    · exact ⟨by rw [Bits.raw_big h]; exact Big.raw_of_ge _ hge, by rw [Bits.raw_big h]; exact Big.raw_of_ge _ hge⟩
  constructor
  · rw [Bits.clean_big h, Big.clean_iff]
    intro i hi; rw [← Bits.raw_big h]; exact (hz i hi).1
  · rw [Bits.clean_big h, Big.clean_iff]
    intro i hi; rw [← Bits.raw_big h]; exact (hz i hi).2

example : ∃ z : Lg 72 false, Lg.ofString "72'hAB0123456789ABCDEF".toList = .ok z ∧
    z.value.bv = 0xAB0123456789ABCDEF#72 ∧ z.xz.bv = 0 := ⟨_, rfl, by decide +kernel, by decide +kernel⟩

/-- **C67, refuted.** Lower case hexadecimal digits are ten too small in wide literals too. -/
theorem C67_refuted (h : ¬ n ≤ 64) {c : Char} (hc : c ∈ ['a', 'b', 'c', 'd', 'e', 'f']) :
    ∃ z : Bits n s, Bits.ofString (lit [] [] 'h' [c]) = .ok z ∧ z.bv = BitVec.ofNat n (charVal c - 10) ∧
      z.bv ≠ BitVec.ofNat n (charVal c) := by
  have hp : parseRaw [c] 'h' = .ok (BitVec.ofNat 64 (charVal c - 10)) ∧ parseXz [c] 'h' = .ok 0 ∧
      10 ≤ charVal c ∧ charVal c < 16 := by
    simp only [List.mem_cons, List.not_mem_nil, or_false] at hc
    rcases hc with rfl | rfl | rfl | rfl | rfl | rfl <;> exact ⟨by decide +kernel, by decide +kernel, by decide, by decide⟩
  obtain ⟨p1, p2, l1, l2⟩ := hp
  obtain ⟨-, -, p3, p4⟩ := C66_prefix (pre := []) (mid := []) (b := 'h') ⟨by decide, by decide, by decide⟩ [c] n
  obtain ⟨z, -, h2, h3, -⟩ := wide_limbs (s := s) h p3 p4 (by decide) (by decide)
    (fun k => if k = 0 then BitVec.ofNat 64 (charVal c - 10) else 0) (fun _ => 0)
    (fun k _ => by
      rcases Nat.eq_zero_or_pos k with rfl | hk
      · rw [chunk_zero (show [c].length ≤ _ by simp [getStride]), p1]; rfl
      · rw [chunk_succ (show [c].length ≤ _ by simp [getStride]) hk, if_neg (by omega)]; rfl)
    (fun k _ => by
      rcases Nat.eq_zero_or_pos k with rfl | hk
      · rw [chunk_zero (show [c].length ≤ _ by simp [getStride]), p2]
      · rw [chunk_succ (show [c].length ≤ _ by simp [getStride]) hk]; rfl)
  have ev : z.value.bv = BitVec.ofNat n (charVal c - 10) := by
    apply BitVec.eq_of_getLsbD_eq
    intro i hi
    rw [Bits.getLsbD_bv, decide_eq_true hi, Bool.true_and, h3, decide_eq_true (div_lt_limbs hi), Bool.true_and,
      BitVec.getLsbD_ofNat, decide_eq_true hi, Bool.true_and]
    rcases Nat.lt_or_ge i 64 with h | h
    · rw [if_pos (by omega), BitVec.getLsbD_ofNat, Nat.mod_eq_of_lt h]; simp [h]
    · rw [if_neg (by omega), Nat.testBit_lt_two_pow]
      · simp
      · exact lt_of_lt_of_le (show charVal c - 10 < 2 ^ 4 by omega) (Nat.pow_le_pow_right (by decide) (by omega))
  refine ⟨z.value, h2, ev, ?_⟩
  rw [ev]
  intro e
  have e := congrArg BitVec.toNat e
  have hp : 2 ^ 4 ≤ 2 ^ n := Nat.pow_le_pow_right (by decide) (by omega)
  rw [BitVec.toNat_ofNat, BitVec.toNat_ofNat, Nat.mod_eq_of_lt (by omega), Nat.mod_eq_of_lt (by omega)] at e
  omega

/-- **C68, exact.** A wide octal literal without underscores puts 21 digits into each limb:
bit 63 of every limb is zero and the digits above are displaced by one bit per limb. -/
theorem C68_octal_exact (h : ¬ n ≤ 64) {pre mid body : List Char} {b : Char} (hb : b = 'o' ∨ b = 'O')
    (hl : LitOk pre mid b) (hc : ∀ c ∈ body, c ∈ octChars) (hu : ∀ c ∈ body, c ≠ '_') :
    ∃ z : Lg n s, Lg.ofString (lit pre mid b body) = .ok z ∧ Bits.ofString (lit pre mid b body) = .ok z.value ∧
      (∀ i, i < n → z.at i = if i % 64 < 63 then litAt 3 body (i / 64 * 63 + i % 64) else .b0) := by
  have hr : Radix b 3 octChars := by rcases hb with rfl | rfl; exacts [.o, .O]
  obtain ⟨z, h1, h2, h3⟩ := wide_plain (s := s) h hr hl hc hu (fun h => absurd h (by decide))
  refine ⟨z, h1, h2, fun i hi => ?_⟩
  rw [Lg.at_of_raw hi, h3 i (lt_of_lt_of_le hi (le_limbs n))]

/-- **C68, partial.** Up to 21 digits a wide octal literal denotes what a narrow one does.
Longer ones do not, see `C68_refuted`. -/
theorem C68_octal_partial (h : ¬ n ≤ 64) {pre mid body : List Char} {b : Char} (hb : b = 'o' ∨ b = 'O')
    (hl : LitOk pre mid b) (hc : ∀ c ∈ body, c ∈ octChars) (hu : ∀ c ∈ body, c ≠ '_') (hd : body.length ≤ 21) :
    ∃ z : Lg n s, Lg.ofString (lit pre mid b body) = .ok z ∧ Bits.ofString (lit pre mid b body) = .ok z.value ∧
      (∀ i, i < n → z.at i = litAt 3 body i) ∧
      ((∀ c ∈ body, ¬ IsXZ c) →
        z.value.bv = BitVec.ofNat n (Nat.ofDigits 8 (body.reverse.map charVal)) ∧ z.xz.bv = 0) := by
  obtain ⟨z, h1, h2, h3⟩ := C68_octal_exact (s := s) h hb hl hc hu
  have hlen : (digitsOf body).length = body.length := by rw [digitsOf_plain hu, List.length_reverse]
  have h4 : ∀ i, i < n → z.at i = litAt 3 body i := by
    intro i hi
    rw [h3 i hi]
    rcases Nat.lt_or_ge i 63 with h | h
    · rw [Nat.mod_eq_of_lt (by omega), if_pos h, Nat.div_eq_of_lt (by omega)]; simp
    · rw [litAt_ge (by decide) (show (digitsOf body).length * 3 ≤ i by omega)]
      split_ifs with h'
      · exact litAt_ge (by decide) (by omega)
      · rfl
  refine ⟨z, h1, h2, h4, fun hp => ?_⟩
  have := number_of_at (z := z) (st := 3) (by decide) h4 hp (fun c h =>
    (by decide : ∀ c ∈ octChars, charVal c < 2 ^ 3) c (hc c (mem_digitsOf h).1))
  rwa [digitsOf_plain hu] at this

example : ∃ z : Lg 72 false, Lg.ofString "72'o765x".toList = .ok z ∧ z.at 0 = .x ∧ z.at 3 = .b1 ∧ z.at 4 = .b0 :=
  ⟨_, rfl, by decide +kernel, by decide +kernel, by decide +kernel⟩

/-- **C68, refuted.** The octal literal 8^21 = 2^63 sets bit 64 instead of bit 63 of every
wide object. -/
theorem C68_refuted (h : ¬ n ≤ 64) :
    ∃ z : Lg n s, Lg.ofString (lit [] [] 'o' ('1' :: List.replicate 21 '0')) = .ok z ∧ z.at 63 = .b0 ∧ z.at 64 = .b1 ∧
      Nat.ofDigits 8 (('1' :: List.replicate 21 '0').reverse.map charVal) = 2 ^ 63 := by
  obtain ⟨z, h1, h2, h3⟩ := C68_octal_exact (s := s) h (b := 'o') (pre := []) (mid := []) (Or.inl rfl)
    ⟨by decide, by decide, by decide⟩ (body := '1' :: List.replicate 21 '0') (by decide) (by decide)
  refine ⟨z, h1, ?_, ?_, by decide +kernel⟩
  · rw [h3 63 (by omega)]; rfl
  · rw [h3 64 (by omega)]; decide +kernel

/-- **C69, partial.** In a wide binary or hexadecimal literal without underscores the digit at
position `i` sets exactly its bits, x/z digits included. Not covered: underscores
(`C69_underscore_refuted`) and binary x/z digits in the upper half of a limb
(`C69_refuted`). -/
theorem C69_xz_partial (h : ¬ n ≤ 64) {pre mid body : List Char} {b : Char} {st : Nat} {cs : List Char}
    (hr : Radix b st cs) (hst : st = 1 ∨ st = 4) (hl : LitOk pre mid b) (hc : ∀ c ∈ body, c ∈ cs) (hu : ∀ c ∈ body, c ≠ '_')
    (hx : st = 1 → ∀ i c, (digitsOf body)[i]? = some c → c = 'x' ∨ c = 'z' → i % 64 < 32) :
    ∃ z : Lg n s, Lg.ofString (lit pre mid b body) = .ok z ∧ Bits.ofString (lit pre mid b body) = .ok z.value ∧
      (∀ i, i < n → z.at i = litAt st body i) := by
  obtain ⟨z, h1, h2, h3⟩ := wide_plain (s := s) h hr hl hc hu hx
  have hm : 64 / st * st = 64 := by rcases hst with rfl | rfl <;> rfl
  refine ⟨z, h1, h2, fun i hi => ?_⟩
  rw [Lg.at_of_raw hi, h3 i (lt_of_lt_of_le hi (le_limbs n)), hm, if_pos (Nat.mod_lt _ (by decide)),
    show i / 64 * 64 + i % 64 = i by omega]

/-- **C69, short literals.** A literal that fits one batch may contain underscores. Missing: longer
literals with underscores, for which it is false (`C69_underscore_refuted`, `C69_exact`). -/
theorem C69_short_partial (h : ¬ n ≤ 64) {pre mid body : List Char} {b : Char} {st : Nat} {cs : List Char}
    (hr : Radix b st cs) (hl : LitOk pre mid b) (hlen : body.length ≤ 64 / st) (hc : LimbOk b st body) :
    ∃ z : Lg n s, Lg.ofString (lit pre mid b body) = .ok z ∧ Bits.ofString (lit pre mid b body) = .ok z.value ∧
      (∀ i, i < n → z.at i = litAt st body i) := by
  have hnil : LimbOk b st [] := by
    cases hr with
    | b => exact .bin (Or.inl rfl) (by simp) (by decide) (by simp [digitsOf])
    | B => exact .bin (Or.inr rfl) (by simp) (by decide) (by simp [digitsOf])
    | o => exact .oct (Or.inl rfl) (by simp) (by decide)
    | O => exact .oct (Or.inr rfl) (by simp) (by decide)
    | h => exact .hex (Or.inl rfl) (by simp) (Or.inl (by decide))
    | H => exact .hex (Or.inr rfl) (by simp) (Or.inl (by decide))
  obtain ⟨z, h1, h2, h3⟩ := wide_lit (s := s) h hr hl (body := body) (fun k _ => by
    rcases Nat.eq_zero_or_pos k with rfl | hk
    · rw [chunk_zero hlen]; exact hc
    · rw [chunk_succ hlen hk]; exact hnil)
  refine ⟨z, h1, h2, fun i hi => ?_⟩
  rw [Lg.at_of_raw hi, h3 i (lt_of_lt_of_le hi (le_limbs n))]
  rcases Nat.lt_or_ge i 64 with h' | h'
  · rw [Nat.div_eq_of_lt h', Nat.mod_eq_of_lt h', chunk_zero hlen]
  · rw [chunk_succ hlen (by omega), litAt_ge hr.pos.1 (by simp [digitsOf])]
    rw [litAt_ge hr.pos.1]
    have hd : (digitsOf body).length ≤ body.length := by
      rw [digitsOf, List.length_reverse]; exact List.length_filter_le _ _
    have h1 := Nat.mul_le_mul_right st (le_trans hd hlen)
    have h2 := Nat.div_mul_le_self 64 st
    omega

example : ∃ z : Lg 70 false, Lg.ofString "70'bz_x1".toList = .ok z ∧
    (List.range 4).map z.at = [.b1, .x, .z, .b0] := ⟨_, rfl, by decide +kernel⟩

/-- **C69, refuted.** A binary x or z digit in the upper half of any limb of a wide object
makes the constructor shift a 32-bit one by 32 or more. -/
theorem C69_refuted (h : ¬ n ≤ 64) {pre mid body : List Char} {b : Char} (hb : b = 'b' ∨ b = 'B')
    (hl : LitOk pre mid b) (hc : ∀ c ∈ body, c ∈ binChars) (hu : ∀ c ∈ body, c ≠ '_')
    (hx : ∃ i c, i < limbs n * 64 ∧ (digitsOf body)[i]? = some c ∧ (c = 'x' ∨ c = 'z') ∧ 32 ≤ i % 64) :
    (Lg.ofString (lit pre mid b body) : Res (Lg n s)) = .error .shift := by
  obtain ⟨-, -, p3, p4⟩ := C66_prefix hl body n
  have hs : 64 / getStride b = 64 := by rcases hb with rfl | rfl <;> rfl
  rw [hs] at p3 p4
  have hu' : ∀ k, ∀ c ∈ chunk body 64 k, c ≠ '_' := fun k c h => hu c (mem_chunk h)
  have hlen : ∀ k, (digitsOf (chunk body 64 k)).length ≤ 64 := by
    intro k; rw [digitsOf_plain (hu' k), List.length_reverse]; exact length_chunk _ _ _
  have hraw : ∀ k, ∃ r, parseRaw (chunk body 64 k) b = .ok r := by
    intro k
    obtain ⟨r, hr, -⟩ := parse_pos 1 (by decide) binDigit (by decide) (chunk body 64 k)
      (fun c h => by
        have : ∀ c ∈ binChars, (digVal binDigit c).toNat < 2 ^ 1 := by decide
        exact this c (hc c (mem_chunk h))) (Or.inr ⟨by decide, by have := hlen k; omega⟩)
    exact ⟨r, by rw [← hr]; rcases hb with rfl | rfl <;> rfl⟩
  choose f hf using hraw
  have hxz : ∀ k, (∃ r, parseXz (chunk body 64 k) b = .ok r) ∨ parseXz (chunk body 64 k) b = .error .shift := by
    intro k
    by_cases hk : ∀ i c, (digitsOf (chunk body 64 k))[i]? = some c → c = 'x' ∨ c = 'z' → i < 32
    · obtain ⟨r, hr, -⟩ := parse_xzBin (chunk body 64 k) hk
      exact Or.inl ⟨r, by rw [← hr]; rcases hb with rfl | rfl <;> rfl⟩
    · right
      push Not at hk
      obtain ⟨i, c, h1, h2, h3⟩ := hk
      exact xz_fault hb h1 h2 h3
  have hbad : ∃ k, k < limbs n ∧ parseXz (chunk body 64 k) b = .error .shift := by
    obtain ⟨i, c, h1, h2, h3, h4⟩ := hx
    refine ⟨i / 64, by omega, xz_fault (i := i % 64) (c := c) hb ?_ h3 h4⟩
    rw [digitsOf_plain (hu' _), chunk_reverse, List.getElem?_take, if_pos (Nat.mod_lt _ (by decide)),
      List.getElem?_drop, show i / 64 * 64 + i % 64 = i by omega, ← digitsOf_plain hu]
    exact h2
  have hb2 : batchLoop (parseXz · b) body 64 (limbs n) body.length body.length = .error .shift := by
    classical
    obtain ⟨k1, k2⟩ := Nat.find_spec hbad
    have hmin : ∀ k, k < Nat.find hbad → ∃ r, parseXz (chunk body 64 k) b = .ok r := by
      intro k hk
      rcases hxz k with h | h
      · exact h
      · exact absurd ⟨by omega, h⟩ (Nat.find_min hbad hk)
    have := batchLoop_error (parseXz · b) (by rcases hb with rfl | rfl <;> rfl) body (b := 64) (by decide)
      (fun k => if h : k < Nat.find hbad then (hmin k h).choose else 0) .shift (limbs n) 0 (Nat.find hbad) k1
      (fun k hk => by
        rw [Nat.zero_add]
        show parseXz _ b = _
        rw [dif_pos hk]
        exact (hmin k hk).choose_spec) (by rw [Nat.zero_add]; exact k2)
    simpa using this
  rw [Lg.ofString, dif_neg h, p3, p4, batch_start (parseRaw · b) (by rcases hb with rfl | rfl <;> rfl) body (by decide) f _
    (fun k _ => hf k), hb2]
  rfl

example : (Lg.ofString ("'b".toList ++ 'x' :: List.replicate 96 '0') : Res (Lg 100 false)) = .error .shift :=
  C69_refuted (pre := []) (mid := []) (body := 'x' :: List.replicate 96 '0') (by decide) (Or.inl rfl)
    ⟨by decide, by decide, by decide⟩ (by decide) (by decide) ⟨96, 'x', by decide, by decide, Or.inl rfl, by decide⟩

/-- **C69, refuted for underscores.** Batches are counted in characters, so an underscore moves
the digits left of it into the next limb: the digit at position 63 sets bit 64. -/
theorem C69_underscore_refuted (h : ¬ n ≤ 64) :
    ∃ z : Lg n s, Lg.ofString (lit [] [] 'b' ('1' :: '_' :: List.replicate 63 '0')) = .ok z ∧
      z.at 63 = .b0 ∧ z.at 64 = .b1 ∧
      litAt 1 ('1' :: '_' :: List.replicate 63 '0') 63 = .b1 ∧ litAt 1 ('1' :: '_' :: List.replicate 63 '0') 64 = .b0 := by
  have hch : ∀ k, 2 ≤ k → chunk ('1' :: '_' :: List.replicate 63 '0') 64 k = [] := by
    intro k hk
    rw [chunk, List.drop_eq_nil_of_le, List.take_nil]
    · rfl
    · rw [List.length_reverse]; simp; omega
  have hok : ∀ v : List Char, v = [] ∨ v = ['1'] ∨ v = '_' :: List.replicate 63 '0' → LimbOk 'b' 1 v := by
    rintro v (rfl | rfl | rfl)
    · exact .bin (Or.inl rfl) (by simp) (by decide) (by simp [digitsOf])
    · exact .bin (Or.inl rfl) (by decide) (by decide) (fun i c h hx => by
        have := List.mem_of_getElem? h
        have : c = '1' := by simpa [digitsOf] using this
        subst this; exact absurd hx (by decide))
    · exact .bin (Or.inl rfl) (by decide) (by decide) (fun i c h hx => by
        have h2 := List.mem_of_getElem? h
        have h3 : ∀ c ∈ digitsOf ('_' :: List.replicate 63 '0'), ¬ (c = 'x' ∨ c = 'z') := by decide
        exact absurd hx (h3 c h2))
  obtain ⟨z, h1, h2, h3⟩ := wide_lit (s := s) h (pre := []) (mid := []) (body := '1' :: '_' :: List.replicate 63 '0')
    Radix.b ⟨by decide, by decide, by decide⟩ (fun k _ => by
      rw [show 64 / 1 = 64 from rfl]
      apply hok
      rcases Nat.lt_or_ge k 2 with hk | hk
      · interval_cases k
        · exact Or.inr (Or.inr (by decide))
        · exact Or.inr (Or.inl (by decide))
      · exact Or.inl (hch k hk))
  refine ⟨z, h1, ?_, ?_, by decide, by decide⟩
  · rw [Lg.at_of_raw (by omega), h3 63 (lt_of_lt_of_le (by omega) (le_limbs n))]; decide
  · rw [Lg.at_of_raw (by omega), h3 64 (lt_of_lt_of_le (by omega) (le_limbs n))]; decide

end Verif
