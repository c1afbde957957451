import Verif.Props.Tristate
import Verif.Props.Compare

/-!
# Case statements with wildcards (C198)

Client code for `case`, `casez`, `casex` (IEEE 1800, 12.5) and `==?` (11.4.6), which the library does not have. The loops
are client code; the functions that they call are the models of `logic.hh` 54-70 (`operator[]`), 139-151 (`x_set`,
`z_set`), of `operator^` and of the conversion to `bool`. The alternative to the loop for `case` is `match` (`logic.hh`).
-/

namespace Verif

variable {n : Nat} {s t : Bool}

/-- the three case statements -/
inductive CaseKind
  | plain
  | z
  | x
  deriving DecidableEq

/-- the bit stands for any bit -/
def CaseKind.wild (k : CaseKind) (isX isZ : Bool) : Bool :=
  match k with
  | .plain => false
  | .z => isZ
  | .x => isX || isZ

/-- do the bits at position `i` fit: one of them is a wildcard, both are x, both are z, or both are known and
`!bool(a[i] ^ b[i])` -/
def caseBit (k : CaseKind) (a : Lg n s) (b : Lg n t) (i : Nat) : Res Bool :=
  (a.xSet (Rng.down n) i).bind fun aX =>
  (a.zSet (Rng.down n) i).bind fun aZ =>
  (b.xSet (Rng.down n) i).bind fun bX =>
  (b.zSet (Rng.down n) i).bind fun bZ =>
  if k.wild aX aZ || k.wild bX bZ then .ok true
  else if aX || aZ || bX || bZ then .ok (aX == bX && aZ == bZ)
  else
    (a.get (Rng.down n) i).bind fun p =>
    (b.get (Rng.down n) i).bind fun q =>
    (p.xor q).map fun d => !d.toBool

/-- `bool m = true; for (i = 0; i < n; i++) if (!fits(i)) m = false;` -/
def caseMatch (k : CaseKind) (a : Lg n s) (b : Lg n t) : Res Bool :=
  loopM 0 n true fun i m => (caseBit k a b i).map fun c => if c then m else false

/-- the case statement: the number of the first item that fits, or the number of items -/
def caseStmt (k : CaseKind) (a : Lg n s) : List (Lg n t) → Res Nat
  | [] => .ok 0
  | b :: bs => (caseMatch k a b).bind fun m => if m then .ok 0 else (caseStmt k a bs).map (· + 1)

/-- which pairs of bits fit, IEEE 1800, 12.5 -/
def V4.fits : CaseKind → V4 → V4 → Prop
  | .plain, a, b => a = b
  | .z, a, b => a = b ∨ a = .z ∨ b = .z
  | .x, a, b => a = b ∨ a.isKnown = false ∨ b.isKnown = false

instance (k : CaseKind) (a b : V4) : Decidable (V4.fits k a b) := by
  cases k <;> simp only [V4.fits] <;> infer_instance

theorem bit_differs (hn : 0 < n) (hN : n ≤ 2 ^ 32) (a : Lg n s) (b : Lg n t) (i : Nat) (hi : i < n)
    (ka : (a.at i).isKnown = true) (kb : (b.at i).isKnown = true) :
    ((a.get (Rng.down n) i).bind fun p => (b.get (Rng.down n) i).bind fun q => (p.xor q).map fun d => !d.toBool) =
      .ok (decide (a.at i = b.at i)) := by
  obtain ⟨p, hp, ep⟩ := Lg.get_down hn hN a i hi (Or.inr ka)
  obtain ⟨q, hq, eq⟩ := Lg.get_down hn hN b i hi (Or.inr kb)
  obtain ⟨d, hd, ed⟩ := C08_xor_table Nat.one_pos p q
  rw [hp, res_bind_ok, hq, res_bind_ok, hd, res_map_ok, Lg.toBool_vec,
    show d.vec 0 = d.at 0 from rfl, ed 0 Nat.one_pos, ep, eq]
  revert ka kb
  cases a.at i <;> cases b.at i <;> decide

theorem caseBit_ok (hn : 0 < n) (hN : n ≤ 2 ^ 32) (k : CaseKind) (a : Lg n s) (b : Lg n t) (i : Nat) (hi : i < n) :
    caseBit k a b i = .ok (decide (V4.fits k (a.at i) (b.at i))) := by
  obtain ⟨ax, az⟩ := Lg.xzSet_down hn hN a i hi
  obtain ⟨bx, bz⟩ := Lg.xzSet_down hn hN b i hi
  have hd := bit_differs hn hN a b i hi
  rw [caseBit, ax, res_bind_ok, az, res_bind_ok, bx, res_bind_ok, bz, res_bind_ok]
  generalize ((a.get (Rng.down n) i).bind fun p => (b.get (Rng.down n) i).bind fun q => (p.xor q).map fun d => !d.toBool) = r at *
  revert hd
  cases a.at i <;> cases b.at i <;> cases k <;> simp [CaseKind.wild, V4.fits, V4.isKnown, V4.known?]

/-- **C198, the match.** At every width and for all contents the loop never faults and tells whether every position
fits by the rules of `case`, `casez` or `casex`. -/
theorem C198_match (hn : 0 < n) (hN : n ≤ 2 ^ 32) (k : CaseKind) (a : Lg n s) (b : Lg n t) :
    caseMatch k a b = .ok (decide (∀ i, i < n → V4.fits k (a.at i) (b.at i))) := by
  obtain ⟨m, hm, e⟩ : ∃ m, caseMatch k a b = .ok m ∧ _ := loopM_induct 0 n true _
    (fun j (m : Bool) => m = true ↔ ∀ i, i < j → V4.fits k (a.at i) (b.at i)) (Nat.zero_le n) (by simp)
    (by
      rintro i m - hi h
      rw [caseBit_ok hn hN k a b i hi]
      refine ⟨_, rfl, ?_⟩
      beta_reduce
      by_cases c : V4.fits k (a.at i) (b.at i)
      · rw [if_pos (decide_eq_true c), h]
        exact ⟨fun q j hj => by
          rcases Nat.lt_succ_iff_lt_or_eq.1 hj with q' | q'
          · exact q j q'
          · rw [q']; exact c, fun q j hj => q j (by omega)⟩
      · rw [if_neg (by simpa using c)]
        exact iff_of_false (by decide) (fun q => c (q i (by omega))))
  rw [hm]
  congr 1
  rw [Bool.eq_iff_iff, e, decide_eq_true_iff]

/-- **C198, the statement.** The case statement never faults and takes the first item that fits, or none if none does. -/
theorem C198_statement (hn : 0 < n) (hN : n ≤ 2 ^ 32) (k : CaseKind) (a : Lg n s) (items : List (Lg n t)) :
    ∃ j, caseStmt k a items = .ok j ∧ j ≤ items.length ∧
      (∀ b, items[j]? = some b → ∀ i, i < n → V4.fits k (a.at i) (b.at i)) ∧
      (∀ l < j, ∀ b, items[l]? = some b → ∃ i, i < n ∧ ¬ V4.fits k (a.at i) (b.at i)) := by
  induction items with
  | nil => exact ⟨0, rfl, Nat.le_refl _, by simp, by simp⟩
  | cons b bs ih =>
    rw [caseStmt, C198_match hn hN, res_bind_ok]
    by_cases c : ∀ i, i < n → V4.fits k (a.at i) (b.at i)
    · rw [if_pos (decide_eq_true c)]
      refine ⟨0, rfl, Nat.zero_le _, ?_, by simp⟩
      intro b' hb'
      rw [List.getElem?_cons_zero] at hb'
      cases hb'
      exact c
    · rw [if_neg (by simpa using c)]
      obtain ⟨j, hj, hl, h1, h2⟩ := ih
      refine ⟨j + 1, by rw [hj]; rfl, by simpa using hl, ?_, ?_⟩
      · intro b' hb'
        rw [List.getElem?_cons_succ] at hb'
        exact h1 b' hb'
      · intro l hl b' hb'
        cases l with
        | zero =>
          rw [List.getElem?_cons_zero] at hb'
          cases hb'
          push Not at c
          exact c
        | succ l =>
          rw [List.getElem?_cons_succ] at hb'
          exact h2 l (by omega) b' hb'

/-- **C198, `case` against `match`.** On canonical operands of the same signedness, unsigned ones above 64 bits, the loop for
`case` and the library's `match` agree. -/
theorem C198_library (hn : 0 < n) (hN : n ≤ 2 ^ 32) (hc : ¬ (s = true ∧ 64 < n)) (a b : Lg n s) (ha : a.Clean) (hb : b.Clean) :
    caseMatch .plain a b = .ok (a.matches' b) := by
  rw [C198_match hn hN, (C44_match_partial hn (by tauto) a b ha hb).1]
  congr 1
  rw [Bool.eq_iff_iff, decide_eq_true_iff, decide_eq_true_iff]
  simp [V4.fits]

/-- **C198, soundness of `casex`.** If `casex` passes an item over, then it is not the value of the expression, whatever
the unknown bits of both turn out to be; if there are no unknown bits, it is passed over exactly if it differs. -/
theorem C198_sound (hn : 0 < n) (hN : n ≤ 2 ^ 32) (a a' : Lg n s) (b b' : Lg n t) (ha : a.Allows a') (hb : b.Allows b') :
    (caseMatch .x a b = .ok false → caseMatch .x a' b' = .ok false) ∧
    (a'.Def → b'.Def → (caseMatch .x a' b' = .ok true ↔ ∀ i, i < n → a'.at i = b'.at i)) := by
  constructor
  · rw [C198_match hn hN, C198_match hn hN]
    intro h
    injection h with h
    rw [decide_eq_false_iff_not] at h
    congr 1
    rw [decide_eq_false_iff_not]
    intro q
    apply h
    intro i hi
    have := q i hi
    have h1 := ha i hi
    have h2 := hb i hi
    simp only [V4.fits] at this ⊢
    by_cases k1 : (a.at i).isKnown = true
    · by_cases k2 : (b.at i).isKnown = true
      · rw [h1 k1, h2 k2] at this
        exact this
      · exact Or.inr (Or.inr (by simpa using k2))
    · exact Or.inr (Or.inl (by simpa using k1))
  · intro da db
    rw [C198_match hn hN]
    constructor
    · intro h i hi
      injection h with h
      have := (decide_eq_true_iff.1 h) i hi
      simpa [V4.fits, da i hi, db i hi] using this
    · intro h
      congr 1
      exact decide_eq_true fun i hi => Or.inl (h i hi)

/-! ## `==?` -/

/-- one position of `a ==? b`: x and z of `b` are wildcards; `st` is (some bits differ, some bit of `a` is unknown) -/
def wildBit (a : Lg n s) (b : Lg n t) (i : Nat) (st : Bool × Bool) : Res (Bool × Bool) :=
  (b.xSet (Rng.down n) i).bind fun bX =>
  (b.zSet (Rng.down n) i).bind fun bZ =>
  if bX || bZ then .ok st
  else
    (a.xSet (Rng.down n) i).bind fun aX =>
    (a.zSet (Rng.down n) i).bind fun aZ =>
    if aX || aZ then .ok (st.1, true)
    else
      ((a.get (Rng.down n) i).bind fun p => (b.get (Rng.down n) i).bind fun q => (p.xor q).map fun d => !d.toBool).map
        fun c => if c then st else (true, st.2)

/-- `a ==? b` as a one-bit vector: 0 if known bits differ, otherwise x if a bit of `a` is unknown, otherwise 1 -/
def wildEq (a : Lg n s) (b : Lg n t) : Res (Lg 1 false) :=
  (loopM 0 n (false, false) (wildBit a b)).map fun st =>
    if st.1 then Lg.zero1 else if st.2 then Lg.x1 else Lg.one1

theorem wildBit_ok (hn : 0 < n) (hN : n ≤ 2 ^ 32) (a : Lg n s) (b : Lg n t) (i : Nat) (hi : i < n) (st : Bool × Bool) :
    wildBit a b i st = .ok
      (st.1 || decide ((b.at i).isKnown = true ∧ (a.at i).isKnown = true ∧ a.at i ≠ b.at i),
       st.2 || decide ((b.at i).isKnown = true ∧ (a.at i).isKnown = false)) := by
  obtain ⟨ax, az⟩ := Lg.xzSet_down hn hN a i hi
  obtain ⟨bx, bz⟩ := Lg.xzSet_down hn hN b i hi
  have hd := bit_differs hn hN a b i hi
  rw [wildBit, ax, res_bind_ok, az, res_bind_ok, bx, res_bind_ok, bz, res_bind_ok]
  generalize ((a.get (Rng.down n) i).bind fun p => (b.get (Rng.down n) i).bind fun q => (p.xor q).map fun d => !d.toBool) = r at *
  obtain ⟨s1, s2⟩ := st
  revert hd
  cases a.at i <;> cases b.at i <;> simp [V4.isKnown, V4.known?]
  all_goals rintro rfl; rfl

/-- **C198, `==?`.** At every width and for all contents: 0 exactly if some bits are both known and differ; otherwise 1
exactly if every bit of `a` is known where the bit of `b` is; otherwise x. -/
theorem C198_wild (hn : 0 < n) (hN : n ≤ 2 ^ 32) (a : Lg n s) (b : Lg n t) :
    ∃ r, wildEq a b = .ok r ∧
      (r.at 0 = .b0 ↔ ∃ i, i < n ∧ (a.at i).isKnown = true ∧ (b.at i).isKnown = true ∧ a.at i ≠ b.at i) ∧
      (r.at 0 = .b1 ↔ ∀ i, i < n → (b.at i).isKnown = true → a.at i = b.at i) ∧ r.at 0 ≠ .z := by
  obtain ⟨st, hst, h1, h2⟩ := loopM_induct 0 n (false, false) (wildBit a b)
    (fun j (st : Bool × Bool) =>
      (st.1 = true ↔ ∃ i, i < j ∧ (a.at i).isKnown = true ∧ (b.at i).isKnown = true ∧ a.at i ≠ b.at i) ∧
      (st.2 = true ↔ ∃ i, i < j ∧ (b.at i).isKnown = true ∧ (a.at i).isKnown = false)) (Nat.zero_le n) (by simp)
    (by
      rintro i st - hi ⟨h1, h2⟩
      refine ⟨_, wildBit_ok hn hN a b i hi st, ?_, ?_⟩
      · simp only [Bool.or_eq_true, decide_eq_true_iff, h1]
        constructor
        · rintro (⟨j, hj, q⟩ | q)
          · exact ⟨j, by omega, q⟩
          · exact ⟨i, by omega, q.2.1, q.1, q.2.2⟩
        · rintro ⟨j, hj, q⟩
          by_cases e : j = i
          · subst e; exact Or.inr ⟨q.2.1, q.1, q.2.2⟩
          · exact Or.inl ⟨j, by omega, q⟩
      · simp only [Bool.or_eq_true, decide_eq_true_iff, h2]
        constructor
        · rintro (⟨j, hj, q⟩ | q)
          · exact ⟨j, by omega, q⟩
          · exact ⟨i, by omega, q⟩
        · rintro ⟨j, hj, q⟩
          by_cases e : j = i
          · subst e; exact Or.inr q
          · exact Or.inl ⟨j, by omega, q⟩)
  rw [wildEq, hst]
  refine ⟨_, rfl, ?_⟩
  beta_reduce
  have e0 : Lg.zero1.at 0 = .b0 := by decide +kernel
  have e1 : Lg.one1.at 0 = .b1 := by decide +kernel
  have ex : Lg.x1.at 0 = .x := by decide +kernel
  by_cases c1 : st.1 = true
  · rw [if_pos c1, e0]
    refine ⟨iff_of_true rfl (h1.1 c1), iff_of_false (by decide) ?_, by decide⟩
    obtain ⟨i, hi, -, kb, hne⟩ := h1.1 c1
    exact fun q => hne (q i hi kb)
  · rw [if_neg c1]
    have n1 := fun q => c1 (h1.2 q)
    by_cases c2 : st.2 = true
    · rw [if_pos c2, ex]
      obtain ⟨i, hi, kb, ka⟩ := h2.1 c2
      refine ⟨iff_of_false (by decide) n1, iff_of_false (by decide) fun q => ?_, by decide⟩
      rw [q i hi kb, kb] at ka
      cases ka
    · rw [if_neg c2, e1]
      have n2 := fun q => c2 (h2.2 q)
      refine ⟨iff_of_false (by decide) n1, iff_of_true rfl fun i hi kb => ?_, by decide⟩
      by_contra hne
      by_cases ka : (a.at i).isKnown = true
      · exact n1 ⟨i, hi, ka, kb, hne⟩
      · exact n2 ⟨i, hi, kb, by simpa using ka⟩

/-! ## cases -/

-- `casez (0b10x1)`: the item `1z11` does not fit, `zzx1` does; `casex` takes the first; `case` neither
example :
    caseStmt .z (⟨Bits.ofInt 9, Bits.ofInt 2⟩ : Lg 4 false) [(⟨Bits.ofInt 15, Bits.ofInt 4⟩ : Lg 4 false),
      ⟨Bits.ofInt 13, Bits.ofInt 14⟩] = .ok 1 ∧
    caseStmt .x (⟨Bits.ofInt 9, Bits.ofInt 2⟩ : Lg 4 false) [(⟨Bits.ofInt 15, Bits.ofInt 4⟩ : Lg 4 false),
      ⟨Bits.ofInt 13, Bits.ofInt 14⟩] = .ok 0 ∧
    caseStmt .plain (⟨Bits.ofInt 9, Bits.ofInt 2⟩ : Lg 4 false) [(⟨Bits.ofInt 15, Bits.ofInt 4⟩ : Lg 4 false),
      ⟨Bits.ofInt 13, Bits.ofInt 14⟩] = .ok 2 := by decide +kernel

-- `10x1 ==? 1zz1` is 1, `10x1 ==? 1z11` is x, `10x1 ==? 0z11` is 0
example :
    wildEq (⟨Bits.ofInt 9, Bits.ofInt 2⟩ : Lg 4 false) (⟨Bits.ofInt 15, Bits.ofInt 6⟩ : Lg 4 false) = .ok Lg.one1 ∧
    wildEq (⟨Bits.ofInt 9, Bits.ofInt 2⟩ : Lg 4 false) (⟨Bits.ofInt 15, Bits.ofInt 4⟩ : Lg 4 false) = .ok Lg.x1 ∧
    wildEq (⟨Bits.ofInt 9, Bits.ofInt 2⟩ : Lg 4 false) (⟨Bits.ofInt 7, Bits.ofInt 4⟩ : Lg 4 false) = .ok Lg.zero1 := by
  decide +kernel

end Verif
