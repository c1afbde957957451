import Verif.Model.Overload
import Mathlib.Tactic.SplitIfs
import Mathlib.Tactic.Push

/-!
# Overload sets (C191)
-/

namespace Verif

theorem viable_nil {α : Type} : viable ([] : List (Bool × α)) = [] := rfl

theorem viable_cons {α : Type} (c : Bool) (a : α) (l : List (Bool × α)) :
    viable ((c, a) :: l) = if c = true then a :: viable l else viable l := by
  cases c <;> simp [viable]

theorem viable_one (c : Bool) : viable [(c, ())] = [()] ↔ c = true := by
  cases c <;> simp [viable]

theorem inRange_false {n a b : Nat} (h : b < n) : inRange n a b = false := by
  simp only [inRange, Bool.and_eq_false_iff, decide_eq_false_iff_not]; omega

/-- the native specialisations, one for each of the 64 sizes -/
theorem holder_native : ∀ n, n ≤ 64 → 0 < n → ∀ s, viable (holderSpecs n s) = [.prim (holderTy n s)] := by decide +kernel

/-- **C191, holders.** Every size and signedness above 0 has exactly one specialisation; a native one is the smallest type that has the bits, and
has the signedness of the vector from two bits on. Size 0 has none. -/
theorem C191_holder (n : Nat) (s : Bool) :
    (n = 0 → viable (holderSpecs n s) = []) ∧
    (0 < n → n ≤ 64 → ∃ c : CTy, viable (holderSpecs n s) = [.prim c] ∧ n ≤ c.width ∧ (1 < n → c.signed = s) ∧
      ∀ w ∈ [1, 8, 16, 32, 64], n ≤ w → c.width ≤ w) ∧
    (64 < n → viable (holderSpecs n s) = [.big]) := by
  refine ⟨?_, fun h0 h => ⟨_, holder_native n h h0 s, ?_, fun h1 => ?_, ?_⟩, fun h => ?_⟩
  · rintro rfl; cases s <;> rfl
  · rw [holderTy]; split_ifs
    · exact ‹n ≤ 1›
    · show n ≤ hw n
      rw [hw]; split_ifs <;> omega
  · rw [holderTy, if_neg (by omega)]; rfl
  · intro w hw' hn
    simp only [List.mem_cons, List.not_mem_nil, or_false] at hw'
    rw [holderTy]; split_ifs
    · show 1 ≤ w
      omega
    · show hw n ≤ w
      rw [hw]; split_ifs <;> omega
  · simp only [holderSpecs, viable_cons, viable_nil, inRange_false (n := n) (b := 1) (by omega), inRange_false (n := n) (b := 8) (by omega),
      inRange_false (n := n) (b := 16) (by omega), inRange_false (n := n) (b := 32) (by omega), inRange_false (n := n) (b := 64) h,
      Bool.false_and, Bool.false_eq_true, if_false, decide_eq_true_eq]
    rw [if_pos (by omega)]

/-- **C191, `to_num`.** Native vectors have exactly one overload; its result type has the signedness of the vector and the width of its holder (8 for one
bit). Wide vectors have none. -/
theorem C191_to_num (n : Nat) (s : Bool) :
    (n ≤ 64 → ∃ c : CTy, viable (toNumSpecs n s) = [c] ∧ n ≤ c.width ∧ c.signed = s ∧ ∀ w ∈ [8, 16, 32, 64], n ≤ w → c.width ≤ w) ∧
    (64 < n → viable (toNumSpecs n s) = []) := by
  have key : ∀ n, n ≤ 64 → ∀ s, viable (toNumSpecs n s) = [.int (max 8 (hw n)) s] := by decide +kernel
  refine ⟨fun h => ⟨_, key n h s, ?_, rfl, ?_⟩, fun h => ?_⟩
  · show n ≤ max 8 (hw n)
    rw [hw]; split_ifs <;> omega
  · intro w hw' hn
    simp only [List.mem_cons, List.not_mem_nil, or_false] at hw'
    show max 8 (hw n) ≤ w
    rw [hw]; split_ifs <;> omega
  · have d : ∀ k, k ≤ 64 → decide (n ≤ k) = false := fun k hk => decide_eq_false (by omega)
    simp only [toNumSpecs, viable_cons, viable_nil, d 8 (by omega), d 16 (by omega), d 32 (by omega), d 64 (by omega), Bool.and_false,
      Bool.false_eq_true, if_false]

/-- **C191, `slice<a, b>()`.** Never more than one overload; one exactly if `a` and `b` are below the size and `b` is not below the declared right bound.
The body is the native one exactly for native vectors, and the one that reads a single word is chosen for results of up to 65 bits. -/
theorem C191_slice (r : Rng) (a b : Int) :
    (viable (sliceSpecs r a b) = [] ↔ ¬ (max a b < r.size ∧ r.lsb ≤ b)) ∧
    (max a b < r.size ∧ r.lsb ≤ b → ∃ f, viable (sliceSpecs r a b) = [f] ∧ (f = .native ↔ r.size ≤ 64) ∧
      (f = .small ↔ 64 < r.size ∧ (a - b).natAbs + 1 ≤ 65)) ∧
    viable (sliceSpecs4 r a b) = viable (sliceSpecs r a b) := by
  have key : viable (sliceSpecs r a b) = if max a b < r.size ∧ r.lsb ≤ b then
      [if r.size ≤ 64 then .native else if (a - b).natAbs ≤ 64 then .small else .wide] else [] := by
    simp only [sliceSpecs, viable_cons, viable_nil, nativeNum, Bool.and_eq_true, Bool.not_eq_true', decide_eq_true_eq, decide_eq_false_iff_not, ge_iff_le]
    by_cases h1 : max a b < r.size <;> by_cases h2 : r.lsb ≤ b <;> by_cases h3 : r.size ≤ 64 <;> by_cases h4 : (a - b).natAbs ≤ 64 <;>
      simp [h1, h2, h3, h4]
  refine ⟨?_, fun h => ?_, ?_⟩
  · rw [key]; split_ifs with h <;> simp [h]
  · rw [key, if_pos h]
    refine ⟨_, rfl, ?_, ?_⟩
    · split_ifs <;> simp_all
    · split_ifs <;> simp_all <;> omega
  · rw [sliceSpecs4, key]
    by_cases h : max a b < r.size ∧ r.lsb ≤ b
    · rw [if_pos h]
      simp only [List.map_cons, List.map_nil, viable_cons, viable_nil, decide_eq_true_eq]; rw [if_pos h.1]
    · rw [if_neg h]; rfl

/-- **C191, slices of `[n-1:0]`.** Every pair of indices of the vector has an overload. -/
theorem C191_slice_down (n : Nat) (a b : Nat) (ha : a < n) (hb : b < n) : ∃ f, viable (sliceSpecs (Rng.down n) a b) = [f] := by
  obtain ⟨f, hf, -⟩ := (C191_slice (Rng.down n) a b).2.1 ⟨by simp only [Rng.size, Rng.down]; omega, by simp only [Rng.down]; omega⟩
  exact ⟨f, hf⟩

/-- **C191 is false for slices of other ranges**: with a positive low bound no overload takes the whole range, on an ascending range none takes
indices whose right one is not the last, and a negative left index has one. -/
theorem C191_slice_refuted (r : Rng) :
    (0 < r.lo → viable (sliceSpecs r r.msb r.lsb) = []) ∧
    (r.msb < r.lsb → ∀ a b, r.lo ≤ a → a ≤ r.hi → r.lo ≤ b → b < r.hi → viable (sliceSpecs r a b) = []) ∧
    (∀ n, 0 < n → viable (sliceSpecs (Rng.down n) (-1) 0) ≠ []) := by
  refine ⟨fun h => ?_, fun h a b _ _ _ hb => ?_, fun n hn => ?_⟩
  · rw [(C191_slice r _ _).1]
    simp only [Rng.lo, Rng.size] at *; omega
  · rw [(C191_slice r _ _).1]
    simp only [Rng.hi] at *; omega
  · rw [ne_eq, (C191_slice _ _ _).1]
    simp only [Rng.down, Rng.size]; omega

/-- **C191, `extend<k>()`.** Exactly one overload at every pair of sizes, by whether the size grows and which sides are native; 4-state vectors have one
exactly if the size does not shrink. -/
theorem C191_extend (n k : Nat) (_ : 0 < k) :
    (∃ f, viable (extendSpecs n k) = [f] ∧ (f = .same ↔ k = n) ∧ (f = .narrow ↔ k < n) ∧ (f = .native ↔ n < k ∧ k ≤ 64) ∧
      (f = .nativeToWide ↔ n ≤ 64 ∧ 64 < k) ∧ (f = .wide ↔ 64 < n ∧ n < k)) ∧
    (viable (extendSpecs4 n k) = [] ↔ k < n) ∧ (n ≤ k → viable (extendSpecs4 n k) = viable (extendSpecs n k)) := by
  have key : viable (extendSpecs n k) =
      [if k = n then .same else if k < n then .narrow else if k ≤ 64 then .native else if n ≤ 64 then .nativeToWide else .wide] := by
    simp only [extendSpecs, viable_cons, viable_nil, nativeNum, Bool.and_eq_true, Bool.not_eq_true', decide_eq_true_eq, decide_eq_false_iff_not, gt_iff_lt]
    split_ifs <;> first | rfl | omega
  refine ⟨⟨_, key, ?_, ?_, ?_, ?_, ?_⟩, ?_, fun h => ?_⟩
  · split_ifs <;> simp <;> omega
  · split_ifs <;> simp <;> omega
  · split_ifs <;> simp <;> omega
  · split_ifs <;> simp <;> omega
  · split_ifs <;> simp <;> omega
  · rw [extendSpecs4, key]
    simp only [List.map_cons, List.map_nil, viable_cons, viable_nil, decide_eq_true_eq]
    split_ifs <;> simp <;> omega
  · rw [extendSpecs4, key]
    simp only [List.map_cons, List.map_nil, viable_cons, viable_nil, decide_eq_true_eq]
    rw [if_pos h]

/-- **C191, binary operators.** Never more than one overload; one exactly if the sizes differ or the right operand is descending, and the form for
equal sizes exactly if they are equal. -/
theorem C191_operator (r q : Rng) :
    (viable (opSpecs r q) = [] ↔ r.size = q.size ∧ q.msb < q.lsb) ∧
    (¬ (r.size = q.size ∧ q.msb < q.lsb) → viable (opSpecs r q) = [if r.size = q.size then .equal else .mixed]) ∧
    (viable (opSpecs4b r q) = [] ↔ r.size = q.size) := by
  have key : viable (opSpecs r q) = if r.size = q.size then (if q.msb < q.lsb then [] else [.equal]) else [.mixed] := by
    simp only [opSpecs, viable_cons, viable_nil, decide_eq_true_eq]
    have e1 : totalSize q.msb q.lsb ≠ r.size ↔ ¬ r.size = q.size := ne_comm
    have e2 : q.msb = r.size - 1 + q.lsb ↔ r.size = q.size ∧ ¬ q.msb < q.lsb := by simp only [Rng.size]; omega
    rw [if_congr e1 rfl rfl, if_congr e2 rfl rfl]
    by_cases h1 : r.size = q.size <;> by_cases h2 : q.msb < q.lsb <;> simp [h1, h2]
  refine ⟨?_, fun h => ?_, ?_⟩
  · rw [key]
    by_cases h1 : r.size = q.size <;> by_cases h2 : q.msb < q.lsb <;> simp [h1, h2]
  · rw [key]
    by_cases h1 : r.size = q.size
    · rw [if_pos h1, if_pos h1, if_neg fun h2 => h ⟨h1, h2⟩]
    · rw [if_neg h1, if_neg h1]
  · simp only [opSpecs4b, viable_cons, viable_nil, totalSize]
    simp only [Rng.size]
    split_ifs <;> simp <;> omega

/-- **C191 is false for right operands that ascend**: no vector of more than one bit has a binary operator for an ascending operand of its own size, be it of
its own type. -/
theorem C191_operator_refuted (r : Rng) (h : r.msb < r.lsb) : viable (opSpecs r r) = [] :=
  (C191_operator r r).1.2 ⟨rfl, h⟩

/-- **C191, members with a native and a wide form**: exactly one at every size. -/
theorem C191_two (n : Nat) : viable (twoSpecs n) = [decide (n ≤ 64)] := by
  simp only [twoSpecs, viable_cons, viable_nil, nativeNum, Bool.not_eq_true', decide_eq_true_eq, decide_eq_false_iff_not]
  split_ifs <;> simp_all

/-- **C191, `update<hi, lo>`.** On `[n-1:0]` the 2-state form takes all indices of the vector, the 4-state form those with `lo ≤ hi`. -/
theorem C191_update (n : Nat) (h1 : 0 < n) (hi lo : Nat) :
    (viable (updateSpecs (Rng.down n) hi lo) = [()] ↔ hi < n ∧ lo < n) ∧
    (viable (updateSpecs4 (Rng.down n) hi lo) = [()] ↔ lo ≤ hi ∧ hi < n) := by
  simp only [updateSpecs, updateSpecs4, viable_one, matchEndian, Bool.and_eq_true, Bool.or_eq_true, decide_eq_true_eq]
  simp only [Rng.down, Rng.size]
  constructor <;> omega

/-- **C191 is false for single-bit updates of ascending 4-state vectors**: `update<i>(v)` has no viable form, whatever the index. -/
theorem C191_update_refuted (r : Rng) (h : r.msb < r.lsb) (i : Int) : viable (updateSpecs4 r i i) = [] := by
  simp only [updateSpecs4, matchEndian, viable_cons, viable_nil, Bool.and_eq_true, Bool.or_eq_true, decide_eq_true_eq]
  rw [if_neg (by omega)]

/-- **C191, `match_endian`** says that both ranges descend (one bit included) or both ascend; it is an equivalence relation. -/
theorem C191_match_endian :
    (∀ p q : Rng, matchEndian p.msb p.lsb q.msb q.lsb = true ↔ (p.msb < p.lsb ↔ q.msb < q.lsb)) ∧
    Equivalence fun p q : Rng => matchEndian p.msb p.lsb q.msb q.lsb = true := by
  have key : ∀ p q : Rng, matchEndian p.msb p.lsb q.msb q.lsb = true ↔ (p.msb < p.lsb ↔ q.msb < q.lsb) := fun p q => by
    simp only [matchEndian, Bool.or_eq_true, Bool.and_eq_true, decide_eq_true_eq]; omega
  exact ⟨key, fun p => (key p p).2 Iff.rfl, fun {p q} h => (key q p).2 ((key p q).1 h).symm,
    fun {p q r} h h' => (key p r).2 (((key p q).1 h).trans ((key q r).1 h'))⟩

/-- **C191, `get<i>()`.** On a range with low bound 0 every index of a native vector is taken. Indices in range are rejected, and negative ones are taken,
on every native descending range with a positive low bound. -/
theorem C191_get (r : Rng) (h : r.size ≤ 64) :
    (r.lo = 0 → ∀ i, r.lo ≤ i → i ≤ r.hi → viable (getSpecs r i) = [()]) ∧
    (0 < r.lo → viable (getSpecs r r.hi) = []) ∧ ∀ i : Int, i < 0 → viable (getSpecs r i) = [()] := by
  simp only [getSpecs, viable_cons, viable_nil, nativeNum, Bool.and_eq_true, decide_eq_true_eq]
  refine ⟨fun h0 i hl hh => ?_, fun h0 => ?_, fun i hi => ?_⟩
  · rw [if_pos ⟨by simp only [Rng.lo, Rng.hi, Rng.size] at *; omega, h⟩]
  · rw [if_neg (fun c => by have := c.1; simp only [Rng.lo, Rng.hi, Rng.size] at *; omega)]
  · rw [if_pos ⟨by simp only [Rng.size]; omega, h⟩]

-- a 100-bit vector: `slice<64, 0>()` picks the one-word form for a 65-bit result; `[0:7] & [0:7]` does not resolve, `[7:0] & [11:4]` does
example : viable (sliceSpecs (Rng.down 100) 64 0) = [.small] ∧ viable (sliceSpecs (Rng.down 100) 65 0) = [.wide] ∧
    viable (opSpecs (Rng.up 8) (Rng.up 8)) = [] ∧ viable (opSpecs (Rng.down 8) ⟨11, 4⟩) = [.equal] ∧
    viable (opSpecs (Rng.up 8) (Rng.down 9)) = [.mixed] ∧ viable (extendSpecs 30 100) = [.nativeToWide] ∧
    viable (updateSpecs4 (Rng.up 8) 2 5) = [()] ∧ viable (updateSpecs4 (Rng.up 8) 5 2) = [] ∧
    viable (getSpecs ⟨7, 4⟩ 2) = [()] ∧ viable (getSpecs ⟨7, 4⟩ 5) = [] := by decide

end Verif
