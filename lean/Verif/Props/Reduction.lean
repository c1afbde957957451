import Verif.Props.Truth
import Verif.Lemmas.Access

/-!
# Reduction operators (C17 - C21, C88)
-/

namespace Verif

variable {n : Nat} {s : Bool}

/-! ## Specification -/

/-- AND reduction: 0 if any bit is 0, otherwise x if any bit is x/z, otherwise 1. -/
def redAnd (l : List V4) : V4 :=
  if .b0 ∈ l then .b0 else if ∃ a ∈ l, a.isKnown = false then .x else .b1

/-- OR reduction: 1 if any bit is 1, otherwise x if any bit is x/z, otherwise 0. -/
def redOr (l : List V4) : V4 :=
  if .b1 ∈ l then .b1 else if ∃ a ∈ l, a.isKnown = false then .x else .b0

/-- XOR reduction: x if any bit is x/z, otherwise the parity of the number of ones. -/
def redXor (l : List V4) : V4 :=
  if ∃ a ∈ l, a.isKnown = false then .x else V4.ofBool (l.count .b1 % 2 = 1)

/-- The specifications are the folds of the two-operand tables (IEEE 1800, 11.4.9). -/
theorem redAnd_fold (l : List V4) : l.foldr V4.and .b1 = redAnd l := by
  induction l with
  | nil => rfl
  | cons a l ih =>
    rw [List.foldr_cons, ih, redAnd, redAnd]
    simp only [List.mem_cons, exists_eq_or_imp]
    by_cases h0 : V4.b0 ∈ l <;> by_cases h1 : ∃ a ∈ l, a.isKnown = false <;>
      simp only [h0, h1] <;> cases a <;> decide

theorem redOr_fold (l : List V4) : l.foldr V4.or .b0 = redOr l := by
  induction l with
  | nil => rfl
  | cons a l ih =>
    rw [List.foldr_cons, ih, redOr, redOr]
    simp only [List.mem_cons, exists_eq_or_imp]
    by_cases h0 : V4.b1 ∈ l <;> by_cases h1 : ∃ a ∈ l, a.isKnown = false <;>
      simp only [h0, h1] <;> cases a <;> decide

theorem redXor_fold (l : List V4) : l.foldr V4.xor .b0 = redXor l := by
  induction l with
  | nil => rfl
  | cons a l ih =>
    rw [List.foldr_cons, ih, redXor, redXor]
    simp only [List.mem_cons, exists_eq_or_imp]
    by_cases h1 : ∃ a ∈ l, a.isKnown = false
    · rw [if_pos h1, if_pos (Or.inr h1)]
      cases a <;> decide
    · rw [if_neg h1, List.count_cons]
      simp only [h1, or_false]
      rcases Nat.mod_two_eq_zero_or_one (l.count .b1) with e | e <;>
        cases a <;> simp [e, V4.ofBool, Nat.add_mod, V4.xor] <;> decide

/-- the bits of a 4-state object, lowest first -/
def Lg.list (x : Lg n s) : List V4 := (List.range n).map x.at

/-! ## What the loops compute -/

/-- The position that the loops of `r_and`/`r_or` visit in iteration `k`. -/
def Rng.scan (r : Rng) (k : Nat) : Nat := if r.lsb ≤ r.msb then k else r.size - 1 - k

theorem Lg.scan_get (r : Rng) (hr : r.size = n) (hN : n ≤ 2 ^ 32) (h0 : r.lsb ≤ r.msb ∨ r.lo = 0)
    (b : Bits n s) (k : Nat) (hk : k < n) : b.get r k = .ok (b.bv.getLsbD (r.scan k)) := by
  apply Bits.get_phys r b k (r.scan k) _ _ hN
  · rw [Bits.physIdx, Rng.scan, Rng.bigEndian]
    by_cases h : r.lsb ≤ r.msb
    · rw [if_pos h, if_pos (by simpa using h)]
    · rw [if_neg h, if_neg (by simpa using h)]
      have h0 := h0.resolve_left h
      rw [Rng.lo] at h0
      have : r.size = n := hr
      rw [Rng.size] at this ⊢
      omega
  · rw [Rng.scan]
    split <;> omega

/-- first bit that decides: the first one different from the neutral value -/
def firstNot (u : V4) (f : Nat → V4) (i : Nat) : Nat → V4
  | 0 => u
  | k + 1 => if f i = u then firstNot u f (i + 1) k else if (f i).isKnown then f i else .x

theorem Lg.rAndLoop_eq (r : Rng) (hr : r.size = n) (hN : n ≤ 2 ^ 32) (h0 : r.lsb ≤ r.msb ∨ r.lo = 0)
    (x : Lg n s) : ∀ k i, i + k = n →
      (x.rAndLoop r i k).map (·.at 0) = .ok (firstNot .b1 (fun j => x.at (r.scan j)) i k) := by
  intro k
  induction k with
  | zero => intro i _; rfl
  | succ k ih =>
    intro i hi
    rw [Lg.rAndLoop, Lg.scan_get r hr hN h0 _ _ (by omega), Lg.scan_get r hr hN h0 _ _ (by omega),
      res_bind_ok, res_bind_ok, firstNot]
    have ih := ih (i + 1) (by omega)
    have ha : x.at (r.scan i) = V4.mk (x.value.bv.getLsbD (r.scan i)) (x.xz.bv.getLsbD (r.scan i)) := rfl
    simp only [ha]
    generalize x.value.bv.getLsbD (r.scan i) = v
    generalize x.xz.bv.getLsbD (r.scan i) = w
    cases v <;> cases w <;> first | exact ih | rfl

theorem Lg.rOrLoop_eq (r : Rng) (hr : r.size = n) (hN : n ≤ 2 ^ 32) (h0 : r.lsb ≤ r.msb ∨ r.lo = 0)
    (x : Lg n s) : ∀ k i, i + k = n →
      (x.rOrLoop r i k).map (·.at 0) = .ok (firstNot .b0 (fun j => x.at (r.scan j)) i k) := by
  intro k
  induction k with
  | zero => intro i _; rfl
  | succ k ih =>
    intro i hi
    rw [Lg.rOrLoop, Lg.scan_get r hr hN h0 _ _ (by omega), Lg.scan_get r hr hN h0 _ _ (by omega),
      res_bind_ok, res_bind_ok, firstNot]
    have ih := ih (i + 1) (by omega)
    have ha : x.at (r.scan i) = V4.mk (x.value.bv.getLsbD (r.scan i)) (x.xz.bv.getLsbD (r.scan i)) := rfl
    simp only [ha]
    generalize x.value.bv.getLsbD (r.scan i) = v
    generalize x.xz.bv.getLsbD (r.scan i) = w
    cases v <;> cases w <;> first | exact ih | rfl

theorem firstNot_all (u : V4) (f : Nat → V4) : ∀ k i, (∀ j, i ≤ j → j < i + k → f j = u) →
    firstNot u f i k = u
  | 0, _, _ => rfl
  | k + 1, i, h => by
    rw [firstNot, if_pos (h i (by omega) (by omega))]
    exact firstNot_all u f k (i + 1) fun j h1 h2 => h j (by omega) (by omega)

theorem firstNot_at (u : V4) (f : Nat → V4) {p : Nat} (hp : f p ≠ u) : ∀ k i, i ≤ p → p < i + k →
    (∀ j, i ≤ j → j < p → f j = u) → firstNot u f i k = if (f p).isKnown then f p else .x
  | 0, _, _, _, _ => by omega
  | k + 1, i, h1, h2, h => by
    rw [firstNot]
    by_cases hi : i = p
    · subst hi; rw [if_neg hp]
    · rw [if_pos (h i (by omega) (by omega))]
      exact firstNot_at u f hp k (i + 1) (by omega) (by omega) fun j h1 h2 => h j (by omega) h2

theorem Lg.mem_list (x : Lg n s) (a : V4) : a ∈ x.list ↔ ∃ i, i < n ∧ x.at i = a := by
  simp [Lg.list]

theorem Rng.scan_lt {r : Rng} (hr : r.size = n) {k : Nat} (hk : k < n) : r.scan k < n := by
  rw [Rng.scan]; split <;> omega

theorem Rng.scan_scan {r : Rng} (hr : r.size = n) {k : Nat} (hk : k < n) : r.scan (r.scan k) = k := by
  rw [Rng.scan, Rng.scan]; split <;> omega

/-- least index with a property -/
theorem exists_first {P : Nat → Prop} {j : Nat} (hj : P j) : ∃ p, p ≤ j ∧ P p ∧ ∀ i, i < p → ¬ P i := by
  classical
  exact ⟨Nat.find ⟨j, hj⟩, Nat.find_le hj, Nat.find_spec ⟨j, hj⟩, fun i hi => Nat.find_min ⟨j, hj⟩ hi⟩

/-- `firstNot u` over the whole vector against the specification with absorbing
value `w` (0 for AND, 1 for OR) -/
theorem firstNot_spec {u w : V4} (hu : u.isKnown = true) (hw : w.isKnown = true) (huw : u ≠ w)
    (hall : ∀ a : V4, a.isKnown = true → a = u ∨ a = w) (r : Rng) (hr : r.size = n) (x : Lg n s) :
    firstNot u (fun j => x.at (r.scan j)) 0 n =
        (if w ∈ x.list then w else if ∃ a ∈ x.list, a.isKnown = false then .x else u) ↔
      ¬ ∃ k j, k < j ∧ j < n ∧ (∀ i, i < k → x.at (r.scan i) = u) ∧
        (x.at (r.scan k)).isKnown = false ∧ x.at (r.scan j) = w := by
  have hxu : (V4.x) ≠ u := by rintro rfl; exact absurd hu (by decide)
  have hxw : (V4.x) ≠ w := by rintro rfl; exact absurd hw (by decide)
  by_cases hA : ∀ j, j < n → x.at (r.scan j) = u
  · have hat : ∀ j, j < n → x.at j = u := fun j hj => by
      have := hA _ (Rng.scan_lt hr hj); rwa [Rng.scan_scan hr hj] at this
    rw [firstNot_all u _ n 0 (fun j _ hj => hA j (by omega))]
    have h1 : w ∉ x.list := by
      rw [Lg.mem_list]; rintro ⟨i, hi, e⟩; rw [hat i hi] at e; exact huw e
    have h2 : ¬ ∃ a ∈ x.list, a.isKnown = false := by
      rintro ⟨a, ha, hk⟩
      rw [Lg.mem_list] at ha
      obtain ⟨i, hi, e⟩ := ha
      rw [← e, hat i hi, hu] at hk
      exact absurd hk (by decide)
    rw [if_neg h1, if_neg h2]
    simp only [true_iff]
    rintro ⟨k, j, hkj, hj, _, hk, _⟩
    rw [hA k (by omega), hu] at hk
    exact absurd hk (by decide)
  · push Not at hA
    obtain ⟨j0, hj0, hne0⟩ := hA
    obtain ⟨p, hpj, hp, hmin⟩ := exists_first (P := fun j => x.at (r.scan j) ≠ u) hne0
    have hmin : ∀ i, i < p → x.at (r.scan i) = u := fun i hi => by
      have := hmin i hi; push Not at this; exact this
    rw [firstNot_at u (fun j => x.at (r.scan j)) hp n 0 (by omega) (by omega) (fun j _ h => hmin j h)]
    by_cases hk : (x.at (r.scan p)).isKnown = true
    · rw [if_pos hk]
      have hpw := (hall _ hk).resolve_left hp
      have h1 : w ∈ x.list := (Lg.mem_list _ _).2 ⟨_, Rng.scan_lt hr (show p < n by omega), hpw⟩
      rw [if_pos h1]
      simp only [hpw, true_iff]
      rintro ⟨k, j, hkj, hj, hb, hku, _⟩
      rcases Nat.lt_trichotomy k p with h | h | h
      · rw [hmin k h, hu] at hku; exact absurd hku (by decide)
      · subst h; rw [hk] at hku; exact absurd hku (by decide)
      · exact hp (hb p h)
    · rw [if_neg hk]
      simp only [Bool.not_eq_true] at hk
      constructor
      · intro e
        rintro ⟨k, j, hkj, hj, _, _, hjw⟩
        have h1 : w ∈ x.list := (Lg.mem_list _ _).2 ⟨_, Rng.scan_lt hr hj, hjw⟩
        rw [if_pos h1] at e
        exact hxw e
      · intro hno
        have h1 : w ∉ x.list := by
          rw [Lg.mem_list]
          rintro ⟨i, hi, e⟩
          have hsc := Rng.scan_scan hr hi
          have hsl := Rng.scan_lt hr hi
          rcases Nat.lt_trichotomy p (r.scan i) with h | h | h
          · exact hno ⟨p, r.scan i, h, hsl, hmin, hk, by rw [hsc]; exact e⟩
          · rw [h, hsc, e, hw] at hk; exact absurd hk (by decide)
          · have := hmin _ h
            rw [hsc, e] at this
            exact huw this.symm
        rw [if_neg h1, if_pos (show ∃ a ∈ x.list, a.isKnown = false from
          ⟨_, (Lg.mem_list _ _).2 ⟨_, Rng.scan_lt hr (show p < n by omega), rfl⟩, hk⟩)]

/-! ## C17, C18 -/

/-- **C17, exact.** `r_and()` never faults (any descending range, or one that starts at
0) and it is the specified reduction exactly when no x/z bit, visited before any 0,
has a 0 behind it: lines 488-496 return x at the first x/z. Missing: the values of the excepted
shape, which give x instead of 0 (`C17_refuted`), and ascending ranges with a positive low bound
(`C17_ascending_refuted`). -/
theorem C17_and_partial (r : Rng) (hr : r.size = n) (hN : n ≤ 2 ^ 32) (h0 : r.lsb ≤ r.msb ∨ r.lo = 0)
    (x : Lg n s) :
    ∃ y, x.rAnd r = .ok y ∧
      (y.at 0 = redAnd x.list ↔
        ¬ ∃ k j, k < j ∧ j < n ∧ (∀ i, i < k → x.at (r.scan i) = .b1) ∧
          (x.at (r.scan k)).isKnown = false ∧ x.at (r.scan j) = .b0) ∧
      (y.at 0 ≠ redAnd x.list → y.at 0 = .x ∧ redAnd x.list = .b0) := by
  have h := Lg.rAndLoop_eq r hr hN h0 x n 0 (by omega)
  rw [Lg.rAnd]
  cases e : x.rAndLoop r 0 n with
  | error f => rw [e] at h; exact absurd h (by simp [Except.map])
  | ok y =>
    rw [e, res_map_ok] at h
    injection h with h
    have hs := firstNot_spec (u := .b1) (w := .b0) rfl rfl (by decide)
      (by intro a; cases a <;> decide) r hr x
    rw [← h] at hs
    refine ⟨y, rfl, hs, fun hne => ?_⟩
    have hbad := not_not.1 (fun hc => hne (hs.2 hc))
    obtain ⟨k, j, hkj, hj, hb, hk, hjw⟩ := hbad
    have hk1 : x.at (r.scan k) ≠ .b1 := by intro e; rw [e] at hk; exact absurd hk (by decide)
    rw [h, firstNot_at .b1 (fun j => x.at (r.scan j)) hk1 n 0 (by omega) (by omega) (fun i _ hi => hb i hi)]
    refine ⟨by rw [if_neg (by rw [hk]; decide)], ?_⟩
    rw [redAnd, if_pos ((Lg.mem_list _ _).2 ⟨_, Rng.scan_lt hr hj, hjw⟩)]

/-- **C17 for values without x/z, and for values without 0**: the specified answer. -/
theorem C17_and_known (r : Rng) (hr : r.size = n) (hN : n ≤ 2 ^ 32) (h0 : r.lsb ≤ r.msb ∨ r.lo = 0)
    (x : Lg n s) (hx : (∀ i, i < n → (x.at i).isKnown = true) ∨ ∀ i, i < n → x.at i ≠ .b0) :
    ∃ y, x.rAnd r = .ok y ∧ y.at 0 = redAnd x.list := by
  obtain ⟨y, hy, h, _⟩ := C17_and_partial r hr hN h0 x
  refine ⟨y, hy, h.2 ?_⟩
  rintro ⟨k, j, hkj, hj, _, hk, hjw⟩
  rcases hx with hx | hx
  · rw [hx _ (Rng.scan_lt hr (by omega))] at hk; exact absurd hk (by decide)
  · exact hx _ (Rng.scan_lt hr hj) hjw

/-- **C17 is false of the code at every width above one**: with an x in bit 0 and zeros
above, the reduction must be 0 but the code says x. -/
theorem C17_refuted (h1 : 1 < n) (hN : n ≤ 2 ^ 32) : ∃ (x : Lg n s) (y : Lg 1 false), x.Clean ∧
    x.rAnd (Rng.down n) = .ok y ∧ redAnd x.list = .b0 ∧ y.at 0 = .x := by
  obtain ⟨x, hc, hx⟩ := Lg.exists_clean n s (fun i => if i = 0 then .x else .b0)
  have hle : (Rng.down n).lsb ≤ (Rng.down n).msb := by simp [Rng.down]; omega
  obtain ⟨y, hy, h, h2⟩ := C17_and_partial (Rng.down n) (Rng.size_down (by omega)) hN (Or.inl hle) x
  have hs : ∀ k, (Rng.down n).scan k = k := fun k => by rw [Rng.scan, if_pos hle]
  have hne : y.at 0 ≠ redAnd x.list := by
    intro e
    refine h.1 e ⟨0, 1, by omega, h1, by omega, ?_, ?_⟩
    · rw [hs, hx 0 (by omega)]; rfl
    · rw [hs, hx 1 h1]; rfl
  obtain ⟨e1, e2⟩ := h2 hne
  exact ⟨x, y, hc, hy, e2, e1⟩

/-- **C18, exact.** `r_or()` is the specified reduction exactly when no x/z bit, visited
before any 1, has a 1 behind it. Missing: the values of the excepted shape, which give x instead of
1 (`C18_refuted`), and ascending ranges with a positive low bound (`C18_ascending_refuted`). -/
theorem C18_or_partial (r : Rng) (hr : r.size = n) (hN : n ≤ 2 ^ 32) (h0 : r.lsb ≤ r.msb ∨ r.lo = 0)
    (x : Lg n s) :
    ∃ y, x.rOr r = .ok y ∧
      (y.at 0 = redOr x.list ↔
        ¬ ∃ k j, k < j ∧ j < n ∧ (∀ i, i < k → x.at (r.scan i) = .b0) ∧
          (x.at (r.scan k)).isKnown = false ∧ x.at (r.scan j) = .b1) ∧
      (y.at 0 ≠ redOr x.list → y.at 0 = .x ∧ redOr x.list = .b1) := by
  have h := Lg.rOrLoop_eq r hr hN h0 x n 0 (by omega)
  rw [Lg.rOr]
  cases e : x.rOrLoop r 0 n with
  | error f => rw [e] at h; exact absurd h (by simp [Except.map])
  | ok y =>
    rw [e, res_map_ok] at h
    injection h with h
    have hs := firstNot_spec (u := .b0) (w := .b1) rfl rfl (by decide)
      (by intro a; cases a <;> decide) r hr x
    rw [← h] at hs
    refine ⟨y, rfl, hs, fun hne => ?_⟩
    have hbad := not_not.1 (fun hc => hne (hs.2 hc))
    obtain ⟨k, j, hkj, hj, hb, hk, hjw⟩ := hbad
    have hk1 : x.at (r.scan k) ≠ .b0 := by intro e; rw [e] at hk; exact absurd hk (by decide)
    rw [h, firstNot_at .b0 (fun j => x.at (r.scan j)) hk1 n 0 (by omega) (by omega) (fun i _ hi => hb i hi)]
    refine ⟨by rw [if_neg (by rw [hk]; decide)], ?_⟩
    rw [redOr, if_pos ((Lg.mem_list _ _).2 ⟨_, Rng.scan_lt hr hj, hjw⟩)]

/-- **C18 for values without x/z, and for values without 1.** -/
theorem C18_or_known (r : Rng) (hr : r.size = n) (hN : n ≤ 2 ^ 32) (h0 : r.lsb ≤ r.msb ∨ r.lo = 0)
    (x : Lg n s) (hx : (∀ i, i < n → (x.at i).isKnown = true) ∨ ∀ i, i < n → x.at i ≠ .b1) :
    ∃ y, x.rOr r = .ok y ∧ y.at 0 = redOr x.list := by
  obtain ⟨y, hy, h, _⟩ := C18_or_partial r hr hN h0 x
  refine ⟨y, hy, h.2 ?_⟩
  rintro ⟨k, j, hkj, hj, _, hk, hjw⟩
  rcases hx with hx | hx
  · rw [hx _ (Rng.scan_lt hr (by omega))] at hk; exact absurd hk (by decide)
  · exact hx _ (Rng.scan_lt hr hj) hjw

/-- **C18 is false of the code at every width above one.** -/
theorem C18_refuted (h1 : 1 < n) (hN : n ≤ 2 ^ 32) : ∃ (x : Lg n s) (y : Lg 1 false), x.Clean ∧
    x.rOr (Rng.down n) = .ok y ∧ redOr x.list = .b1 ∧ y.at 0 = .x := by
  obtain ⟨x, hc, hx⟩ := Lg.exists_clean n s (fun i => if i = 0 then .x else .b1)
  have hle : (Rng.down n).lsb ≤ (Rng.down n).msb := by simp [Rng.down]; omega
  obtain ⟨y, hy, h, h2⟩ := C18_or_partial (Rng.down n) (Rng.size_down (by omega)) hN (Or.inl hle) x
  have hs : ∀ k, (Rng.down n).scan k = k := fun k => by rw [Rng.scan, if_pos hle]
  have hne : y.at 0 ≠ redOr x.list := by
    intro e
    refine h.1 e ⟨0, 1, by omega, h1, by omega, ?_, ?_⟩
    · rw [hs, hx 0 (by omega)]; rfl
    · rw [hs, hx 1 h1]; rfl
  obtain ⟨e1, e2⟩ := h2 hne
  exact ⟨x, y, hc, hy, e2, e1⟩

/-! ## C19 -/

/-- the number of ones of a canonical unsigned native value -/
theorem popcount_eq (h : n ≤ 64) (b : Bits n false) (hb : b.Clean) :
    b.popcount = (List.range n).countP fun i => b.bv.getLsbD i := by
  have hle := le_hw h
  have e : b.popcount = Bits.countOnes b.hold := by
    rw [← Bits.nat_hold h b]; rfl
  rw [e, Bits.countOnes]
  obtain ⟨d, hd⟩ := Nat.exists_eq_add_of_le hle
  have hz := (Bits.clean_unsigned_iff b).1 hb
  have e2 : ∀ w, (List.range w).countP (fun i => b.hold.getLsbD i) =
      (List.range w).countP fun i => b.raw i := by
    intro w
    apply List.countP_congr
    intro i _
    rw [Bits.raw_native h]
  rw [e2, hd, List.range_add, List.countP_append]
  have h2 : ((List.range d).map (n + ·)).countP (fun i => b.raw i) = 0 := by
    rw [List.countP_eq_zero]
    intro i hi
    rw [List.mem_map] at hi
    obtain ⟨j, _, rfl⟩ := hi
    rw [hz _ (by omega)]; decide
  rw [h2, Nat.add_zero]
  apply List.countP_congr
  intro i hi
  rw [List.mem_range] at hi
  rw [Bits.getLsbD_bv]; simp [hi]

/-- **C19, exact.** `r_xor()` of an unsigned native value of more than one bit (the
other instantiations do not compile): x if any bit is x/z; otherwise line 526 gives
the parity of the number of *zeros*. Missing: the parity of the ones at odd widths, where the two
differ (`C19_refuted`); at even widths they agree (`C19_xor_even`). -/
theorem C19_xor_partial (h : n ≤ 64) (h1 : 1 < n) (x : Lg n false) (hx : x.Clean) :
    x.rXor.at 0 = if ∃ a ∈ x.list, a.isKnown = false then .x
      else V4.ofBool (x.list.count .b0 % 2 = 1) := by
  have hxz : x.xz.anySet = true ↔ ∃ a ∈ x.list, a.isKnown = false := by
    rw [Lg.anySet_xz hx.2, Lg.SeenXZ]
    constructor
    · rintro ⟨i, hi, _, hk⟩; exact ⟨_, (Lg.mem_list _ _).2 ⟨i, hi, rfl⟩, hk⟩
    · rintro ⟨a, ha, hk⟩
      obtain ⟨i, hi, rfl⟩ := (Lg.mem_list _ _).1 ha
      exact ⟨i, hi, Or.inl h, hk⟩
  rw [Lg.rXor]
  by_cases hk : x.xz.anySet = true
  · rw [if_pos hk, if_pos (hxz.1 hk)]; decide
  · rw [if_neg hk, if_neg (fun hc => hk (hxz.2 hc)), Lg.known1_at, popcount_eq h _ hx.1]
    have hkn : ∀ i, i < n → (x.at i).isKnown = true := by
      intro i hi
      by_contra hc
      exact hk (hxz.2 ⟨_, (Lg.mem_list _ _).2 ⟨i, hi, rfl⟩, by simpa using hc⟩)
    have hc0 : x.list.count .b0 = (List.range n).countP fun i => !x.value.bv.getLsbD i := by
      rw [Lg.list, List.count, List.countP_map]
      apply List.countP_congr
      intro i hi
      rw [List.mem_range] at hi
      have := hkn i hi
      simp only [Function.comp, Lg.at] at this ⊢
      revert this
      cases x.value.bv.getLsbD i <;> cases x.xz.bv.getLsbD i <;> decide
    have hlen : (List.range n).countP (fun i => x.value.bv.getLsbD i) +
        (List.range n).countP (fun i => !x.value.bv.getLsbD i) = n := by
      have := List.length_eq_countP_add_countP (fun i => x.value.bv.getLsbD i) (l := List.range n)
      simp only [List.length_range, Bool.not_eq_true] at this
      have e : (List.range n).countP (fun i => decide (x.value.bv.getLsbD i = false)) =
          (List.range n).countP (fun i => !x.value.bv.getLsbD i) := by
        apply List.countP_congr; intro i _; cases x.value.bv.getLsbD i <;> decide
      rw [e] at this
      exact this.symm
    rw [hc0]
    generalize (List.range n).countP (fun i => x.value.bv.getLsbD i) = a at *
    generalize (List.range n).countP (fun i => !x.value.bv.getLsbD i) = b at *
    have e : (BitVec.ofNat 64 n - BitVec.ofNat 64 a).toNat = b := by
      rw [BitVec.toNat_sub, BitVec.toNat_ofNat, BitVec.toNat_ofNat]
      omega
    rw [e]
    congr 1
    rcases Nat.mod_two_eq_zero_or_one b with e | e <;> simp [e]

theorem Lg.count_known (x : Lg n s) (hk : ¬ ∃ a ∈ x.list, a.isKnown = false) :
    x.list.count .b0 + x.list.count .b1 = n := by
  have hlen : x.list.length = n := by simp [Lg.list]
  have : ∀ l : List V4, (¬ ∃ a ∈ l, a.isKnown = false) → l.count .b0 + l.count .b1 = l.length := by
    intro l
    induction l with
    | nil => intro _; rfl
    | cons a l ih =>
      intro hk
      have ih := ih (fun ⟨b, hb, h⟩ => hk ⟨b, by simp [hb], h⟩)
      have ha : a.isKnown = true := by
        by_contra hc; exact hk ⟨a, by simp, by simpa using hc⟩
      rw [List.count_cons, List.count_cons, List.length_cons]
      revert ha
      cases a <;> simp [V4.isKnown, V4.known?] <;> omega
  rw [this _ hk, hlen]

/-- **C19 for even widths**: the specified reduction. -/
theorem C19_xor_even (h : n ≤ 64) (h1 : 1 < n) (he : n % 2 = 0) (x : Lg n false) (hx : x.Clean) :
    x.rXor.at 0 = redXor x.list := by
  rw [C19_xor_partial h h1 x hx, redXor]
  by_cases hk : ∃ a ∈ x.list, a.isKnown = false
  · rw [if_pos hk, if_pos hk]
  · rw [if_neg hk, if_neg hk]
    have := x.count_known hk
    congr 1
    have : x.list.count .b0 % 2 = x.list.count .b1 % 2 := by omega
    rw [this]

/-- **C19 is false of the code at every odd width, for every value without x/z**: the
result is the negated parity. -/
theorem C19_refuted (h : n ≤ 64) (h1 : 1 < n) (ho : n % 2 = 1) (x : Lg n false) (hx : x.Clean)
    (hk : ∀ i, i < n → (x.at i).isKnown = true) :
    x.rXor.at 0 = (redXor x.list).not ∧ x.rXor.at 0 ≠ redXor x.list := by
  have hk : ¬ ∃ a ∈ x.list, a.isKnown = false := by
    rintro ⟨a, ha, hf⟩
    obtain ⟨i, hi, rfl⟩ := (Lg.mem_list _ _).1 ha
    rw [hk i hi] at hf; exact absurd hf (by decide)
  rw [C19_xor_partial h h1 x hx, redXor, if_neg hk, if_neg hk]
  have := x.count_known hk
  rcases Nat.mod_two_eq_zero_or_one (x.list.count .b0) with e | e
  · rw [e, show x.list.count .b1 % 2 = 1 by omega]; decide
  · rw [e, show x.list.count .b1 % 2 = 0 by omega]; decide

-- hypotheses of `C19_refuted` are met by the 3-bit value 011
example : (Lg.ofInt 3 : Lg 3 false).Clean ∧ (∀ i, i < 3 → ((Lg.ofInt 3 : Lg 3 false).at i).isKnown = true) ∧
    (Lg.ofInt 3 : Lg 3 false).rXor.at 0 = .b1 ∧ redXor (Lg.ofInt 3 : Lg 3 false).list = .b0 := by
  decide +kernel

/-! ## C20 -/

theorem Lg.lnot_at (y : Lg 1 false) : y.lnot.at 0 = (y.at 0).not := by
  have hv := Bits.clean_one (by decide) (by decide) y.value
  have hk := Bits.clean_one (by decide) (by decide) y.xz
  rw [Lg.lnot, Bits.anySet_native (by decide) hv, Bits.anySet_native (by decide) hk, Lg.at, Lg.at]
  generalize y.value.bv = a
  generalize y.xz.bv = b
  revert a b
  decide

/-- **C20.** `r_nand`, `r_nor`, `r_xnor` are the 4-state negations of `r_and`, `r_or`,
`r_xor`, at every width and range, for all contents. -/
theorem C20_complement (r : Rng) (x : Lg n s) :
    (x.rNand r).map (·.at 0) = ((x.rAnd r).map (·.at 0)).map V4.not ∧
    (x.rNor r).map (·.at 0) = ((x.rOr r).map (·.at 0)).map V4.not ∧
    x.rXnor.at 0 = (x.rXor.at 0).not := by
  refine ⟨?_, ?_, Lg.lnot_at _⟩
  · rw [Lg.rNand]
    cases x.rAnd r with
    | error f => rfl
    | ok y => exact congrArg Except.ok (Lg.lnot_at y)
  · rw [Lg.rNor]
    cases x.rOr r with
    | error f => rfl
    | ok y => exact congrArg Except.ok (Lg.lnot_at y)

-- 1x1 as a 3-bit value: r_nand is x, r_nor is 0
example : ∃ x : Lg 3 false, x.list = [.b1, .x, .b1] ∧ (x.rNand (Rng.down 3)).map (·.at 0) = .ok .x ∧
    (x.rNor (Rng.down 3)).map (·.at 0) = .ok .b0 :=
  ⟨⟨Bits.ofInt 5, Bits.ofInt 2⟩, by decide +kernel⟩

/-! ## C21 and the other 2-state reductions -/

theorem holderMax_shr (h : n ≤ 64) (h1 : ¬ n ≤ 1) :
    ∃ v, TV.shr (holderMax n s) (TV.u64 (sizeofBits n - n)) = .ok v ∧
      v.v = 2 ^ (if s then n - 1 else n) - 1 ∧ v.ty = (holderTy n s).promote := by
  have hwn := le_hw h
  have hge := hw_ge_eight h1
  cases s with
  | false =>
    obtain ⟨v, h1', h2, h3⟩ := Bits.bitMask_shr h h1
    exact ⟨v, h1', h2, by rw [h3, holderTy_ge h1]⟩
  | true =>
    have hw64 := hw_le n
    have hb : holderMax n true = ⟨.int (hw n) true, 2 ^ (hw n - 1) - 1⟩ := by simp [holderMax, h1]
    have hc : (TV.u64 (sizeofBits n - n)).v = ((hw n - n : Nat) : Int) := by
      rw [Bits.sizeof_eq h1]
      show tU64.conv _ = _
      rw [tU64_conv_of (by omega) (by omega)]; omega
    obtain ⟨w, sg, he, h32, ha⟩ := CTy.promote_spec (CTy.int (hw n) true)
    rw [TV.shr_ok hc (by rw [hb]; simp only [he]; simp only [CTy.width] at ha ⊢; omega)]
    refine ⟨_, rfl, ?_, by rw [hb, holderTy_ge h1]⟩
    rw [hb]
    simp only
    have hpos : (1 : Int) ≤ 2 ^ (n - 1) := one_le_pow₀ (by norm_num)
    have hle : (2 : Int) ^ (n - 1) ≤ 2 ^ (hw n - 1) := pow_le_pow_right₀ (by norm_num) (by omega)
    have hconv : ∀ a : Int, 0 ≤ a → a < 2 ^ (hw n - 1) → (CTy.int (hw n) true).promote.conv a = a := by
      intro a h0 ha
      by_cases h32 : hw n < 32
      · simp only [CTy.promote, h32, if_true]
        apply CTy.conv_signed_of_mem (by omega)
        · omega
        · have : (2 : Int) ^ (hw n - 1) ≤ 2 ^ 31 := pow_le_pow_right₀ (by norm_num) (by omega)
          norm_num at this ⊢; omega
      · simp only [CTy.promote, h32, if_false]
        have : (0 : Int) ≤ 2 ^ (hw n - 1) := by positivity
        exact CTy.conv_signed_of_mem (by omega) (by omega) ha
    have hd : ((2 : Int) ^ (hw n - 1) - 1) / 2 ^ (hw n - n) = 2 ^ (n - 1) - 1 := by
      have : (2 : Int) ^ (hw n - 1) = 2 ^ (n - 1 + (hw n - n)) := by congr 1; omega
      rw [this, ones_div]
    rw [hconv (2 ^ (hw n - 1) - 1) (by omega) (by omega), hd, hconv _ (by omega) (by omega)]
    simp

theorem usual_promote (a : CTy) : CTy.usual a a.promote = a.promote := by
  cases a with
  | bool => decide
  | int w sg =>
    by_cases h : w < 32
    · simp [CTy.usual, CTy.promote, h]
    · simp [CTy.usual, CTy.promote, h]

theorem Bits.rAnd_native (h : n ≤ 64) (h1 : 1 < n) (x : Bits n s) :
    x.rAnd = .ok (decide (x.nv.v = 2 ^ (if s then n - 1 else n) - 1)) := by
  obtain ⟨v, hv, e, ht⟩ := holderMax_shr (s := s) h (show ¬ n ≤ 1 by omega)
  rw [Bits.rAnd, dif_pos h, hv, res_map_ok, TV.eq, TV.cmp]
  simp only [Bits.nv_ty, ht, usual_promote, Bits.promote_conv_nv h]
  have hwn := le_hw h
  have hc : (holderTy n s).promote.conv v.v = v.v := by
    rw [e, holderTy_ge (by omega)]
    have hpos : ∀ k, (1 : Int) ≤ 2 ^ k := fun k => one_le_pow₀ (by norm_num)
    have hle : ∀ {a b : Nat}, a ≤ b → (2 : Int) ^ a ≤ 2 ^ b := fun hab => pow_le_pow_right₀ (by norm_num) hab
    by_cases h32 : hw n < 32
    · simp only [CTy.promote, h32, if_true]
      have h31 : (2 : Int) ^ (if s = true then n - 1 else n) ≤ 2 ^ 31 := hle (by split <;> omega)
      have := hpos (if s = true then n - 1 else n)
      apply CTy.conv_signed_of_mem (by omega)
      · have : (0 : Int) ≤ 2 ^ (32 - 1) := by positivity
        omega
      · have e31 : (2 : Int) ^ (32 - 1) = 2 ^ 31 := rfl
        omega
    · simp only [CTy.promote, h32, if_false]
      have := hpos (if s = true then n - 1 else n)
      cases s with
      | true =>
        have := hle (show n - 1 ≤ hw n - 1 by omega)
        have := hpos (hw n - 1)
        simp only [if_true] at *
        exact CTy.conv_signed_of_mem (by omega) (by omega) (by omega)
      | false =>
        have := hle hwn
        simp only [Bool.false_eq_true, if_false] at *
        exact CTy.conv_unsigned_of_lt (by omega) (by omega)
  rw [hc, e]
  congr 1

theorem all_ones_iff (b : BitVec n) : (∀ i, i < n → b.getLsbD i = true) ↔ b.toNat = 2 ^ n - 1 := by
  rw [← BitVec.toNat_allOnes, BitVec.toNat_inj]
  constructor
  · intro h
    apply BitVec.eq_of_getLsbD_eq
    intro i hi
    rw [h i hi]; simp [hi]
  · rintro rfl i hi; simp [hi]

/-- **C21 for unsigned native widths above one.**. Missing: one-bit, signed native and wide values,
for which it is false (`C21_one_bit_refuted`, `C21_signed_refuted`, `C21_wide_refuted`). -/
theorem C21_and_partial (h : n ≤ 64) (h1 : 1 < n) (x : Bits n false) (hx : x.Clean) :
    x.rAnd = .ok (decide (∀ i, i < n → x.bv.getLsbD i = true)) := by
  rw [Bits.rAnd_native h h1, Bits.clean_unsigned_num h hx]
  congr 1
  rw [decide_eq_decide, all_ones_iff]
  have : (1 : Nat) ≤ 2 ^ n := Nat.one_le_two_pow
  simp only [Bool.false_eq_true, if_false]
  rw [show ((2 : Int) ^ n) = ((2 ^ n : Nat) : Int) by norm_cast]
  omega

/-- **C21 is false for one-bit values** (both signednesses): line 462 compares with
`1 >> 7`, so the answer is inverted. -/
theorem C21_one_bit_refuted (x : Bits 1 s) : x.rAnd = .ok (decide (x.bv = 0)) := by
  have hc := Bits.clean_one (by decide) (by decide) x
  rw [Bits.clean_native (by decide)] at hc
  have e : x.rAnd = .ok (x.nv.v == 0) := by
    rw [Bits.rAnd, dif_pos (by decide)]
    rcases Bits.nv_one (by decide) (by decide) x with h | h <;> rw [h] <;> cases s <;> decide
  rw [e, hc, numOf]
  generalize x.bv = b
  revert b
  cases s <;> decide

/-- **C21 is false for signed native values**: the answer is true exactly for the
greatest number (0 followed by ones), never for all ones. -/
theorem C21_signed_refuted (h : n ≤ 64) (h1 : 1 < n) (x : Bits n true) (hx : x.Clean) :
    x.rAnd = .ok (decide (x.bv.toInt = 2 ^ (n - 1) - 1)) ∧
    ((∀ i, i < n → x.bv.getLsbD i = true) → x.rAnd = .ok false) := by
  have e : x.rAnd = .ok (decide (x.bv.toInt = 2 ^ (n - 1) - 1)) := by
    rw [Bits.rAnd_native h h1, (Bits.clean_native h x).1 hx, numOf]
    simp [show ¬ n ≤ 1 by omega]
  refine ⟨e, fun hall => ?_⟩
  rw [e]
  congr 1
  rw [decide_eq_false_iff_not]
  have : x.bv = BitVec.allOnes n := by
    apply BitVec.eq_of_getLsbD_eq
    intro i hi
    rw [hall i hi]; simp [hi]
  rw [this, BitVec.toInt_allOnes, if_pos (by omega)]
  have : (1 : Int) ≤ 2 ^ (n - 1) := one_le_pow₀ (by norm_num)
  omega

/-- parity of the number of ones -/
def parity (b : BitVec n) : Bool := ((List.range n).countP fun i => b.getLsbD i) % 2 == 1

theorem Big.rXor_eq (hn : 0 < n) (x : Big n s) : x.rXor = parity x.bv := by
  have key : x.rXor = (((List.range n).countP fun i => x.get i) % 2 == 1) := by
    rw [Big.rXor]
    refine loop_induct 1 n (x.get 0) _
      (fun k b => b = (((List.range k).countP fun i => x.get i) % 2 == 1)) hn ?_ ?_
    · show _ = (((List.range 1).countP fun i => x.get i) % 2 == 1)
      simp only [List.range_one, List.countP_cons, List.countP_nil]
      cases x.get 0 <;> rfl
    · intro i b _ hi hb
      rw [List.range_succ, List.countP_append, hb]
      simp only [List.countP_cons, List.countP_nil]
      rcases Nat.mod_two_eq_zero_or_one ((List.range i).countP fun i => x.get i) with e | e <;>
        cases x.get i <;> simp [e, Nat.add_mod]
  rw [key, parity]
  congr 2
  apply List.countP_congr
  intro i hi
  rw [List.mem_range] at hi
  rw [Big.getLsbD_bv]

/-- **C21 is false for wide values**: line 465 computes the parity. At every width
above 64 there is a value for which that differs. -/
theorem C21_wide_refuted (h : 64 < n) :
    (∀ x : Bits n s, x.rAnd = .ok (parity x.bv)) ∧
    ∃ x : Bits n s, x.Clean ∧ x.rAnd = .ok true ∧ ¬ ∀ i, i < n → x.bv.getLsbD i = true := by
  have e : ∀ x : Bits n s, x.rAnd = .ok (parity x.bv) := by
    intro x
    rw [Bits.rAnd, dif_neg (by omega), Big.rXor_eq (by omega), Bits.bv_big (by omega)]
  refine ⟨e, ?_⟩
  obtain ⟨b, hb⟩ := exists_bv (fun i => decide (i = 0)) n
  obtain ⟨x, hc, hx⟩ := Bits.exists_clean (s := s) b
  refine ⟨x, hc, ?_, fun hall => ?_⟩
  · rw [e, hx, parity]
    have : (List.range n).countP (fun i => b.getLsbD i) = 1 := by
      have : (List.range n).countP (fun i => b.getLsbD i) = (List.range n).countP (fun i => decide (i = 0)) := by
        apply List.countP_congr
        intro i hi
        rw [hb i (List.mem_range.1 hi)]
      rw [this]
      obtain ⟨k, rfl⟩ : ∃ k, n = k + 1 := ⟨n - 1, by omega⟩
      rw [List.range_succ_eq_map, List.countP_cons, List.countP_map]
      simp
    rw [this]; rfl
  · have := hall 1 (by omega)
    rw [hx, hb 1 (by omega)] at this
    exact absurd this (by decide)

/-- **C88, exact behaviour of `r_or` at every width.** `r_or`/`r_nor` say whether some bit that is seen is 1 (every bit of a
native value is), `r_nand` is the negation of `r_and`. Missing: the unseen bits, the upper halves of the limbs of a wide
value (`C88_refuted`), and what `r_and` is (C21). -/
theorem C88_or_partial (x : Bits n s) (hx : x.Clean) :
    (x.rOr = true ↔ ∃ i, i < n ∧ seen n i ∧ x.bv.getLsbD i = true) ∧ x.rNor = !x.rOr ∧
    x.rNand = x.rAnd.map (!·) :=
  ⟨Bits.anySet_bits hx, rfl, rfl⟩

/-- **C88**: `r_xor`/`r_xnor` of wide values are exactly the parity and its negation (the
native forms do not compile). -/
theorem C88_xor_wide (h : ¬ n ≤ 64) (x : Bits n s) :
    x.rXorBig h = parity x.bv ∧ x.rXnorBig h = !parity x.bv := by
  have : x.rXorBig h = parity x.bv := by
    rw [Bits.rXorBig, Big.rXor_eq (by omega), Bits.bv_big h]
  exact ⟨this, by rw [Bits.rXnorBig, this]⟩

/-- **C88 is false of `r_or` at every width above 64**: a value whose only one is bit 40
gives false. -/
theorem C88_refuted (h : 64 < n) : ∃ x : Bits n s, x.Clean ∧ x.bv.getLsbD 40 = true ∧ x.rOr = false := by
  obtain ⟨b, hb⟩ := exists_bv (fun i => decide (i = 40)) n
  obtain ⟨x, hc, hx⟩ := Bits.exists_clean (s := s) b
  refine ⟨x, hc, by rw [hx, hb 40 (by omega)]; rfl, ?_⟩
  by_contra hne
  rw [Bool.not_eq_false] at hne
  obtain ⟨i, hi, hs, hb'⟩ := (Bits.anySet_bits hc).1 hne
  rw [hx, hb i hi] at hb'
  have : i = 40 := by simpa using hb'
  rcases hs with hs | hs <;> omega

example : (Bits.ofInt 15 : Bits 4 false).rAnd = .ok true ∧ (Bits.ofInt 7 : Bits 4 false).rAnd = .ok false ∧
    (Bits.ofInt (-1) : Bits 4 true).rAnd = .ok false ∧ (Bits.ofInt 7 : Bits 4 true).rAnd = .ok true := by
  decide +kernel

end Verif
