import Verif.Lemmas.Compare
import Verif.Lemmas.OfBV
import Verif.Model.Reduce
import Verif.Show

/-!
# Truth value, logical negation, limb reductions (C22, C23, C83, C84, C86)

`seen n i` are the bit positions the emptiness test of the library looks at: all
of them for native widths, the lower half of every 64-bit limb otherwise.
-/

namespace Verif

variable {n : Nat} {s : Bool}

/-- the emptiness test in terms of the bits of a canonical object -/
theorem Bits.anySet_bits {x : Bits n s} (hx : x.Clean) :
    x.anySet = true ↔ ∃ i, i < n ∧ seen n i ∧ x.bv.getLsbD i = true := by
  by_cases h : n ≤ 64
  · rw [Bits.anySet_native h hx, decide_eq_true_iff]
    constructor
    · intro h0
      by_contra hc
      push Not at hc
      apply h0
      apply BitVec.eq_of_getLsbD_eq
      intro i hi
      have := hc i hi (Or.inl h)
      simpa using this
    · rintro ⟨i, _, _, hb⟩ h0
      rw [h0] at hb
      simp at hb
  · rw [Bits.anySet_iff]
    rw [Bits.clean_big h] at hx
    constructor
    · rintro ⟨i, hs, hr⟩
      have hi : i < n := by
        by_contra hge
        rw [Bits.raw_big h, (Big.clean_iff _).1 hx i (by omega)] at hr
        exact absurd hr (by decide)
      exact ⟨i, hi, hs, by rw [Bits.getLsbD_bv]; simp [hi, hr]⟩
    · rintro ⟨i, hi, hs, hb⟩
      rw [Bits.getLsbD_bv] at hb
      exact ⟨i, hs, by simpa [hi] using hb⟩

/-- the test of the x/z plane -/
theorem Lg.anySet_xz {x : Lg n s} (hx : x.xz.Clean) : x.xz.anySet = true ↔ x.SeenXZ := by
  rw [Bits.anySet_bits hx, Lg.SeenXZ]
  constructor
  · rintro ⟨i, hi, hs, hb⟩
    exact ⟨i, hi, hs, by rw [Lg.at, hb]; cases x.value.bv.getLsbD i <;> rfl⟩
  · rintro ⟨i, hi, hs, hb⟩
    refine ⟨i, hi, hs, ?_⟩
    rw [Lg.at] at hb
    revert hb
    cases x.value.bv.getLsbD i <;> cases x.xz.bv.getLsbD i <;> decide

/-- the test of the value plane, when no x/z bit is seen -/
theorem Lg.anySet_value {x : Lg n s} (hx : x.Clean) (hk : ¬ x.SeenXZ) :
    x.value.anySet = true ↔ ∃ i, i < n ∧ seen n i ∧ x.at i = .b1 := by
  rw [Bits.anySet_bits hx.1]
  have key : ∀ i, i < n → seen n i → (x.value.bv.getLsbD i = true ↔ x.at i = .b1) := by
    intro i hi hs
    have hx0 : x.xz.bv.getLsbD i = false := by
      by_contra hc
      rw [Bool.not_eq_false] at hc
      exact hk ((Lg.anySet_xz hx.2).1 ((Bits.anySet_bits hx.2).2 ⟨i, hi, hs, hc⟩))
    rw [Lg.at, hx0]
    cases x.value.bv.getLsbD i <;> decide
  constructor
  · rintro ⟨i, hi, hs, hb⟩; exact ⟨i, hi, hs, (key i hi hs).1 hb⟩
  · rintro ⟨i, hi, hs, hb⟩; exact ⟨i, hi, hs, (key i hi hs).2 hb⟩

/-- **C22, native widths.** The conversion to `bool` is true exactly when no bit is
x/z and some bit is 1. -/
theorem C22_bool_native (hn : n ≤ 64) (x : Lg n s) (hx : x.Clean) :
    x.toBool = true ↔ (∀ i, i < n → (x.at i).isKnown = true) ∧ ∃ i, i < n ∧ x.at i = .b1 := by
  rw [Lg.toBool, Bool.and_eq_true, Bool.not_eq_true', ← Bool.not_eq_true, Lg.anySet_xz hx.2]
  constructor
  · rintro ⟨hk, hv⟩
    rw [Lg.anySet_value hx hk] at hv
    obtain ⟨i, hi, _, hb⟩ := hv
    refine ⟨fun j hj => ?_, i, hi, hb⟩
    by_contra hc
    exact hk ⟨j, hj, Or.inl hn, by simpa using hc⟩
  · rintro ⟨hk, i, hi, hb⟩
    have hs : ¬ x.SeenXZ := by
      rintro ⟨j, hj, _, hb⟩
      rw [hk j hj] at hb
      exact absurd hb (by decide)
    exact ⟨hs, (Lg.anySet_value hx hs).2 ⟨i, hi, Or.inl hn, hb⟩⟩

/-- **C22, exact behaviour at every width**: only the bits that are seen count. Missing: the unseen
bits, the upper halves of the limbs of a wide value (`C22_refuted`). Every bit of a native value is
seen (`C22_bool_native`). -/
theorem C22_bool_partial (x : Lg n s) (hx : x.Clean) :
    x.toBool = true ↔ (∀ i, i < n → seen n i → (x.at i).isKnown = true) ∧
      ∃ i, i < n ∧ seen n i ∧ x.at i = .b1 := by
  rw [Lg.toBool, Bool.and_eq_true, Bool.not_eq_true', ← Bool.not_eq_true, Lg.anySet_xz hx.2]
  constructor
  · rintro ⟨hk, hv⟩
    refine ⟨fun j hj hs => ?_, (Lg.anySet_value hx hk).1 hv⟩
    by_contra hc
    exact hk ⟨j, hj, hs, by simpa using hc⟩
  · rintro ⟨hk, hv⟩
    have hs : ¬ x.SeenXZ := by
      rintro ⟨j, hj, hsj, hb⟩
      rw [hk j hj hsj] at hb
      exact absurd hb (by decide)
    exact ⟨hs, (Lg.anySet_value hx hs).2 hv⟩

example : (⟨Bits.ofInt 4, Bits.ofInt 0⟩ : Lg 5 true).Clean ∧
    (⟨Bits.ofInt 4, Bits.ofInt 0⟩ : Lg 5 true).toBool = true ∧
    (⟨Bits.ofInt 4, Bits.ofInt 1⟩ : Lg 5 true).toBool = false ∧
    (⟨Bits.ofInt 4, Bits.ofInt 0⟩ : Lg 100 false).Clean ∧
    (⟨Bits.ofInt 4, Bits.ofInt 0⟩ : Lg 100 false).toBool = true ∧
    (⟨Bits.ofInt 4, Bits.ofInt 1⟩ : Lg 100 false).toBool = false := by decide +kernel

/-- **C22 is false of the code** at every wide width: the known value `2^32`
converts to `false`, and a value with an x at bit 32 and a 1 at bit 0 to `true`. -/
theorem C22_refuted (h : 64 < n) :
    (∃ x : Lg n s, x.Clean ∧ (∀ i, i < n → (x.at i).isKnown = true) ∧
      (∃ i, i < n ∧ x.at i = .b1) ∧ x.toBool = false) ∧
    (∃ x : Lg n s, x.Clean ∧ (∃ i, i < n ∧ x.at i = .x) ∧ x.toBool = true) := by
  refine ⟨?_, ?_⟩
  · obtain ⟨x, hx, hf⟩ := Lg.exists_clean n s fun i => if i = 32 then .b1 else .b0
    have hk : ∀ i, i < n → (x.at i).isKnown = true := by
      intro i hi; rw [hf i hi]; split_ifs <;> rfl
    refine ⟨x, hx, hk, ⟨32, by omega, hf 32 (by omega)⟩, ?_⟩
    rw [← Bool.not_eq_true, C22_bool_partial x hx]
    rintro ⟨_, i, hi, hs, hb⟩
    rw [hf i hi] at hb
    have : i ≠ 32 := by
      rintro rfl
      rcases hs with hs | hs <;> omega
    rw [if_neg this] at hb
    exact absurd hb (by decide)
  · obtain ⟨x, hx, hf⟩ := Lg.exists_clean n s fun i => if i = 32 then .x else .b1
    refine ⟨x, hx, ⟨32, by omega, hf 32 (by omega)⟩, ?_⟩
    rw [C22_bool_partial x hx]
    refine ⟨fun i hi hs => ?_, 0, by omega, Or.inr (by omega), hf 0 (by omega)⟩
    have : i ≠ 32 := by
      rintro rfl
      rcases hs with hs | hs <;> omega
    rw [hf i hi, if_neg this]; rfl

/-- **C23, native widths.** `!l` is x if some bit is x/z, otherwise 0 if some bit is
1 and 1 if all bits are 0. -/
theorem C23_not_native (hn : n ≤ 64) (x : Lg n s) (hx : x.Clean) :
    ((∃ i, i < n ∧ (x.at i).isKnown = false) → x.lnot.at 0 = .x) ∧
    ((∀ i, i < n → (x.at i).isKnown = true) → (∃ i, i < n ∧ x.at i = .b1) → x.lnot.at 0 = .b0) ∧
    ((∀ i, i < n → x.at i = .b0) → x.lnot.at 0 = .b1) := by
  have e0 : Lg.zero1.at 0 = .b0 := by decide
  have e1 : Lg.one1.at 0 = .b1 := by decide
  have ex : Lg.x1.at 0 = .x := by decide
  refine ⟨?_, ?_, ?_⟩
  · rintro ⟨i, hi, hb⟩
    rw [Lg.lnot, if_pos ((Lg.anySet_xz hx.2).2 ⟨i, hi, Or.inl hn, hb⟩), ex]
  · rintro hk ⟨i, hi, hb⟩
    have hs : ¬ x.SeenXZ := by
      rintro ⟨j, hj, _, hb⟩
      rw [hk j hj] at hb
      exact absurd hb (by decide)
    rw [Lg.lnot, if_neg (mt (Lg.anySet_xz hx.2).1 hs),
      if_pos ((Lg.anySet_value hx hs).2 ⟨i, hi, Or.inl hn, hb⟩), e0]
  · intro h0
    have hs : ¬ x.SeenXZ := by
      rintro ⟨j, hj, _, hb⟩
      rw [h0 j hj] at hb
      exact absurd hb (by decide)
    rw [Lg.lnot, if_neg (mt (Lg.anySet_xz hx.2).1 hs), if_neg, e1]
    rw [Lg.anySet_value hx hs]
    rintro ⟨i, hi, _, hb⟩
    rw [h0 i hi] at hb
    exact absurd hb (by decide)

/-- **C23, exact behaviour at every width**: only the bits that are seen count. Missing: the unseen
bits, the upper halves of the limbs of a wide value (`C23_refuted`). Every bit of a native value is
seen (`C23_not_native`). -/
theorem C23_not_partial (x : Lg n s) (hx : x.Clean) :
    x.lnot.at 0 = (if ∃ i, i < n ∧ seen n i ∧ (x.at i).isKnown = false then .x
      else if ∃ i, i < n ∧ seen n i ∧ x.at i = .b1 then .b0 else .b1) := by
  have e0 : Lg.zero1.at 0 = .b0 := by decide
  have e1 : Lg.one1.at 0 = .b1 := by decide
  have ex : Lg.x1.at 0 = .x := by decide
  by_cases hs : x.SeenXZ
  · rw [Lg.lnot, if_pos ((Lg.anySet_xz hx.2).2 hs), if_pos (show ∃ i, i < n ∧ seen n i ∧ (x.at i).isKnown = false from hs), ex]
  · rw [Lg.lnot, if_neg (mt (Lg.anySet_xz hx.2).1 hs),
      if_neg (show ¬ ∃ i, i < n ∧ seen n i ∧ (x.at i).isKnown = false from hs)]
    by_cases hv : ∃ i, i < n ∧ seen n i ∧ x.at i = .b1
    · rw [if_pos ((Lg.anySet_value hx hs).2 hv), if_pos hv, e0]
    · rw [if_neg (mt (Lg.anySet_value hx hs).1 hv), if_neg hv, e1]

example : (⟨Bits.ofInt (-7), Bits.ofInt 0⟩ : Lg 5 true).Clean ∧
    (⟨Bits.ofInt (-7), Bits.ofInt 0⟩ : Lg 5 true).lnot.at 0 = .b0 ∧
    (⟨Bits.ofInt 4, Bits.ofInt 1⟩ : Lg 5 true).lnot.at 0 = .x ∧
    (⟨Bits.ofInt 0, Bits.ofInt 0⟩ : Lg 100 true).lnot.at 0 = .b1 ∧
    (⟨Bits.ofInt 0, Bits.ofInt 1⟩ : Lg 100 true).lnot.at 0 = .x := by decide +kernel

/-- **C23 is false of the code** at every wide width: `!l` is 1 for the non-zero
known value `2^32`, and known for a value that has an x at bit 32. -/
theorem C23_refuted (h : 64 < n) :
    (∃ x : Lg n s, x.Clean ∧ (∀ i, i < n → (x.at i).isKnown = true) ∧
      (∃ i, i < n ∧ x.at i = .b1) ∧ x.lnot.at 0 = .b1) ∧
    (∃ x : Lg n s, x.Clean ∧ (∃ i, i < n ∧ x.at i = .x) ∧ (x.lnot.at 0).isKnown = true) := by
  have h32 : ∀ i, seen n i → i ≠ 32 := by
    rintro i hs rfl
    rcases hs with hs | hs <;> omega
  refine ⟨?_, ?_⟩
  · obtain ⟨x, hx, hf⟩ := Lg.exists_clean n s fun i => if i = 32 then .b1 else .b0
    have hk : ∀ i, i < n → (x.at i).isKnown = true := by
      intro i hi; rw [hf i hi]; split_ifs <;> rfl
    refine ⟨x, hx, hk, ⟨32, by omega, hf 32 (by omega)⟩, ?_⟩
    rw [C23_not_partial x hx, if_neg, if_neg]
    · rintro ⟨i, hi, hs, hb⟩
      rw [hf i hi, if_neg (h32 i hs)] at hb
      exact absurd hb (by decide)
    · rintro ⟨i, hi, _, hb⟩
      rw [hk i hi] at hb
      exact absurd hb (by decide)
  · obtain ⟨x, hx, hf⟩ := Lg.exists_clean n s fun i => if i = 32 then .x else .b1
    refine ⟨x, hx, ⟨32, by omega, hf 32 (by omega)⟩, ?_⟩
    rw [C23_not_partial x hx, if_neg]
    · split_ifs <;> rfl
    · rintro ⟨i, hi, hs, hb⟩
      rw [hf i hi, if_neg (h32 i hs)] at hb
      exact absurd hb (by decide)

/-! ### evaluation order -/

theorem RVal.toI32_op (f64 : BitVec 64 → BitVec 64 → BitVec 64)
    (f32 : BitVec 32 → BitVec 32 → BitVec 32)
    (hf : ∀ a b, (f64 a b).setWidth 32 = f32 (a.setWidth 32) (b.setWidth 32)) (a b : RVal) :
    (RVal.op f64 f32 a b).toI32 = f32 a.toI32 b.toI32 := by
  have e : ∀ v : BitVec 32, (v.signExtend 64).setWidth 32 = v := by
    intro v
    apply BitVec.eq_of_getLsbD_eq
    intro i hi
    rw [BitVec.getLsbD_setWidth, BitVec.getLsbD_signExtend]
    simp [hi, show i < 64 by omega]
  cases a <;> cases b <;> simp [RVal.op, RVal.toI32, RVal.toU64, hf, e]

theorem RTree.or_get (t : RTree) (i : Nat) :
    t.or.getLsbD i = (decide (i < 32) && t.elems.any fun v => v.getLsbD i) := by
  induction t with
  | init => simp [RTree.or, RTree.eval, RVal.toI32, RTree.elems]
  | elem v => simp [RTree.or, RTree.eval, RVal.toI32, RTree.elems]
  | node c l r ihl ihr =>
    have e : (RTree.node c l r).or = l.or ||| r.or := by
      have := RVal.toI32_op (· ||| ·) (· ||| ·) (fun a b => BitVec.setWidth_or)
        (l.eval (· ||| ·) (· ||| ·)) (r.eval (· ||| ·) (· ||| ·))
      rw [RTree.or, RTree.eval]
      cases c
      · exact this
      · exact this
    rw [e, BitVec.getLsbD_or, ihl, ihr, RTree.elems, List.any_append, Bool.and_or_distrib_left]

theorem RTree.and_get (t : RTree) (i : Nat) :
    t.and.getLsbD i =
      (decide (i < 32) && (decide (t.inits = 0) && t.elems.all fun v => v.getLsbD i)) := by
  induction t with
  | init => simp [RTree.and, RTree.eval, RVal.toI32, RTree.elems, RTree.inits]
  | elem v => simp [RTree.and, RTree.eval, RVal.toI32, RTree.elems, RTree.inits]
  | node c l r ihl ihr =>
    have e : (RTree.node c l r).and = l.and &&& r.and := by
      have := RVal.toI32_op (· &&& ·) (· &&& ·) (fun a b => BitVec.setWidth_and)
        (l.eval (· &&& ·) (· &&& ·)) (r.eval (· &&& ·) (· &&& ·))
      rw [RTree.and, RTree.eval]
      cases c
      · exact this
      · exact this
    rw [e, BitVec.getLsbD_and, ihl, ihr, RTree.elems, List.all_append, RTree.inits]
    have : decide (l.inits + r.inits = 0) = (decide (l.inits = 0) && decide (r.inits = 0)) := by
      rw [← Bool.decide_and, decide_eq_decide]; omega
    rw [this]
    generalize decide (i < 32) = a
    generalize decide (l.inits = 0) = b
    generalize decide (r.inits = 0) = c
    generalize l.elems.all _ = d
    generalize r.elems.all _ = e
    revert a b c d e
    decide

/-- what the standard promises about an implementation of `std::reduce` over limbs:
some evaluation tree over the elements in some order, using the initial value once -/
def IsReduce (red : List (BitVec 64) → BitVec 32) (res : RTree → BitVec 32) : Prop :=
  ∀ l, ∃ t : RTree, t.inits = 1 ∧ t.elems.Perm l ∧ red l = res t

/-- **C83.** Every implementation of `std::reduce` that the standard allows returns
the same `int` as the left fold of the model, for the disjunction and the
conjunction of limbs; `any_set`, `is_one`, `fit_in_64`, `all_set` and the limb
comparisons use nothing else of the reduction. -/
theorem C83_order_independent (red : List (BitVec 64) → BitVec 32) :
    (IsReduce red RTree.or → ∀ l, red l = Big.reduceOr l) ∧
    (IsReduce red RTree.and → ∀ l, red l = Big.reduceAnd l) := by
  refine ⟨?_, ?_⟩
  · intro h l
    obtain ⟨t, _, hp, he⟩ := h l
    rw [he]
    apply BitVec.eq_of_getLsbD_eq
    intro i _
    rw [RTree.or_get, Big.reduceOr_get, hp.any_eq]
  · intro h l
    obtain ⟨t, hi, _, he⟩ := h l
    rw [he]
    have h0 : ∀ l : List (BitVec 64), Big.reduceAnd l = 0 := by
      intro l
      rw [Big.reduceAnd]
      induction l with
      | nil => rfl
      | cons v l ih =>
        rw [List.foldl_cons]
        have : ((0 : BitVec 32).signExtend 64 &&& v).setWidth 32 = 0 := by simp
        rw [this]; exact ih
    rw [h0]
    apply BitVec.eq_of_getLsbD_eq
    intro i _
    rw [RTree.and_get, hi]
    simp

/-- **C83, the tests themselves**: for every choice of evaluation trees the results
of `any_set`, `fit_in_64` and `is_one` are those of the model. -/
theorem C83_tests (x : Big n s) (hn : 64 < n) (t u : RTree)
    (ht : t.elems.Perm x.vals) (hu : u.elems.Perm (x.vals.drop 1)) :
    x.anySet = (t.or != 0) ∧ x.fitIn64 = (u.or == 0) ∧
    x.isOne = (x.limb 0 == 1 && u.or == 0) := by
  have e : ∀ (t : RTree) (l : List (BitVec 64)), t.elems.Perm l → Big.reduceOr l = t.or := by
    intro t l h
    apply BitVec.eq_of_getLsbD_eq
    intro i _
    rw [RTree.or_get, Big.reduceOr_get, h.any_eq]
  have h2 : limbs n ≠ 1 := by
    have := limbs_ge_two (n := n) (by omega)
    omega
  refine ⟨?_, ?_, ?_⟩
  · rw [Big.anySet, e t _ ht]
  · rw [Big.fitIn64, e u _ hu]
  · rw [Big.isOne, if_neg h2, e u _ hu]

-- a right-leaning, permuted evaluation with intermediate values kept as uint64_t
example :
    let t : RTree := .node false (.elem 8) (.node true (.elem (5 <<< 32)) (.node false .init (.elem 3)))
    t.inits = 1 ∧ t.elems.Perm [3, 5 <<< 32, 8] ∧ t.or = 11 ∧ Big.reduceOr [3, 5 <<< 32, 8] = 11 := by
  decide +kernel

/-! ### which bits the limb tests depend on -/

/-- **C84, exact behaviour.** The tests of a canonical wide value look at the lower
half of every limb only (`is_one` also at the upper half of the lowest limb). Missing: the other
bits, on which the tests do not depend (`C84_refuted`). -/
theorem C84_tests_partial (hn : ¬ n ≤ 64) (x : Bits n s) (hx : x.Clean) :
    ((x.bg hn).anySet = true ↔ ∃ i, i < n ∧ i % 64 < 32 ∧ x.bv.getLsbD i = true) ∧
    ((x.bg hn).fitIn64 = true ↔ ∀ i, 64 ≤ i → i % 64 < 32 → x.bv.getLsbD i = false) ∧
    ((x.bg hn).isOne = true ↔ (∀ i, i < 64 → x.bv.getLsbD i = decide (i = 0)) ∧
      ∀ i, 64 ≤ i → i % 64 < 32 → x.bv.getLsbD i = false) := by
  rw [Bits.bv_big hn]
  rw [Bits.clean_big hn] at hx
  generalize x.bg hn = b at *
  have hg : ∀ i, b.bv.getLsbD i = b.raw i := fun i => by rw [Big.getLsbD_bv, Big.Clean.get b hx]
  have h2 : limbs n ≠ 1 := by
    have := limbs_ge_two hn
    omega
  have hfit : b.fitIn64 = true ↔ ∀ i, 64 ≤ i → i % 64 < 32 → b.bv.getLsbD i = false := by
    rw [Big.fitIn64, Big.reduceOr_drop]
    constructor
    · intro h i hi hm
      rw [hg, Big.raw_eq]
      exact h (i / 64) (by omega) (i % 64) hm
    · intro h i hi j hj
      have := h (64 * i + j) (by omega) (by omega)
      rw [hg, Big.raw_eq, show (64 * i + j) / 64 = i by omega, show (64 * i + j) % 64 = j by omega] at this
      exact this
  refine ⟨?_, hfit, ?_⟩
  · rw [Big.anySet_spec]
    constructor
    · rintro ⟨i, hi, hr⟩
      have hlt : i < n := by
        by_contra hge
        rw [(Big.clean_iff b).1 hx i (by omega)] at hr
        exact absurd hr (by decide)
      exact ⟨i, hlt, hi, by rw [hg]; exact hr⟩
    · rintro ⟨i, _, hi, hr⟩
      exact ⟨i, hi, by rw [← hg]; exact hr⟩
  · rw [Big.isOne, if_neg h2, Bool.and_eq_true, show (Big.reduceOr (b.vals.drop 1) == 0) = b.fitIn64 from rfl,
      hfit, beq_iff_eq]
    apply and_congr_left
    intro _
    constructor
    · intro h i hi
      rw [hg, Big.raw_eq, show i / 64 = 0 by omega, show i % 64 = i by omega, h]
      by_cases h0 : i = 0
      · subst h0; rfl
      · rw [show (1 : BitVec 64) = BitVec.ofNat 64 1 from rfl, BitVec.getLsbD_ofNat]
        simp [h0, hi, Nat.testBit_eq_decide_div_mod_eq, Nat.div_eq_of_lt (Nat.one_lt_two_pow h0)]
    · intro h
      apply BitVec.eq_of_getLsbD_eq
      intro i hi
      have := h i hi
      rw [hg, Big.raw_eq, show i / 64 = 0 by omega, show i % 64 = i by omega] at this
      rw [this]
      by_cases h0 : i = 0
      · subst h0; rfl
      · rw [show (1 : BitVec 64) = BitVec.ofNat 64 1 from rfl, BitVec.getLsbD_ofNat]
        simp [h0, hi, Nat.testBit_eq_decide_div_mod_eq, Nat.div_eq_of_lt (Nat.one_lt_two_pow h0)]

/-- **C84 under the extra hypothesis** that every non-zero 64-bit chunk has a one in
its lower half: the tests decide what their names say. Missing: values with other chunks, for which
it is false (`C84_tests_partial`, `C84_refuted`). -/
theorem C84_visible_partial (hn : ¬ n ≤ 64) (x : Bits n s) (hx : x.Clean) (hv : LowHalves x.bv) :
    ((x.bg hn).anySet = true ↔ x.bv.toNat ≠ 0) ∧
    ((x.bg hn).fitIn64 = true ↔ x.bv.toNat < 2 ^ 64) ∧
    ((x.bg hn).isOne = true ↔ x.bv.toNat = 1) := by
  rw [Bits.bv_big hn] at hv ⊢
  rw [Bits.clean_big hn] at hx
  generalize x.bg hn = b at *
  have hvis := Bits.visible_of hx hv
  have hfit : b.fitIn64 = true ↔ b.bv.toNat < 2 ^ 64 := by
    rw [hx.toNat_bv]
    refine ⟨fun h => ?_, Big.fitIn64_of_lt⟩
    rw [Big.val_of_high_zero (hvis.fitIn64 h)]
    exact (b.limb 0).isLt
  have h2 : limbs n ≠ 1 := by
    have := limbs_ge_two hn
    omega
  refine ⟨?_, hfit, ?_⟩
  · rw [hvis.anySet, decide_eq_true_iff, hx.toNat_bv]
  · rw [Big.isOne, if_neg h2, Bool.and_eq_true, show (Big.reduceOr (b.vals.drop 1) == 0) = b.fitIn64 from rfl,
      beq_iff_eq]
    constructor
    · rintro ⟨h1, hf⟩
      rw [hx.toNat_bv, Big.val_of_high_zero (hvis.fitIn64 hf), h1]; rfl
    · intro h1
      have hf : b.fitIn64 = true := hfit.2 (by rw [h1]; norm_num)
      refine ⟨?_, hf⟩
      rw [hx.toNat_bv, Big.val_of_high_zero (hvis.fitIn64 hf)] at h1
      exact BitVec.eq_of_toNat_eq h1

example : (Bits.ofInt 6 : Bits 200 false).Clean ∧ LowHalves (Bits.ofInt 6 : Bits 200 false).bv ∧
    ((Bits.ofInt 6 : Bits 200 false).bg (by decide)).anySet = true ∧
    ((Bits.ofInt 1 : Bits 200 false).bg (by decide)).isOne = true ∧
    (((Bits.ofInt 1 : Bits 200 false).bg (by decide)).set 70 true).fitIn64 = false := by decide +kernel

/-- **C84 is false of the code.** Flipping bit 32 of a canonical zero does not change
`any_set`; from 97 bits on, flipping bit 96 of the value 1 changes neither
`fit_in_64` nor `is_one`. -/
theorem C84_refuted (hn : ¬ n ≤ 64) :
    (∃ x : Bits n s, x.Clean ∧ x.bv.toNat = 2 ^ 32 ∧ (x.bg hn).anySet = false) ∧
    (96 < n → ∃ x : Bits n s, x.Clean ∧ x.bv.toNat = 2 ^ 96 + 1 ∧ (x.bg hn).fitIn64 = true ∧
      (x.bg hn).isOne = true) := by
  refine ⟨?_, ?_⟩
  · obtain ⟨x, hx, hb⟩ := Bits.exists_clean (s := s) (BitVec.ofNat n (2 ^ 32))
    have hlt : (2 : Nat) ^ 32 < 2 ^ n := Nat.pow_lt_pow_right (by omega) (by omega)
    refine ⟨x, hx, by rw [hb, BitVec.toNat_ofNat, Nat.mod_eq_of_lt hlt], ?_⟩
    rw [← Bool.not_eq_true, (C84_tests_partial hn x hx).1]
    rintro ⟨i, _, hm, hr⟩
    rw [hb, BitVec.getLsbD_ofNat, Nat.testBit_two_pow] at hr
    simp at hr
    omega
  · intro h96
    obtain ⟨x, hx, hb⟩ := Bits.exists_clean (s := s) (BitVec.ofNat n (2 ^ 96 + 1))
    have hlt : (2 : Nat) ^ 96 + 1 < 2 ^ n := by
      have : (2 : Nat) ^ 97 ≤ 2 ^ n := Nat.pow_le_pow_right (by omega) (by omega)
      have e : (2 : Nat) ^ 96 + 1 < 2 ^ 97 := by norm_num
      omega
    have hbit : ∀ i, x.bv.getLsbD i = decide (i = 0 ∨ i = 96) := by
      intro i
      rw [hb, BitVec.getLsbD_ofNat]
      by_cases h0 : i < 97
      · have h1 : i < n := by omega
        simp only [h1, decide_true, Bool.true_and]
        have : ∀ i, i < 97 → (2 ^ 96 + 1).testBit i = decide (i = 0 ∨ i = 96) := by decide +kernel
        exact this i h0
      · rw [Nat.testBit_lt_two_pow (x := 2 ^ 96 + 1) (i := i)]
        · simp; omega
        · calc 2 ^ 96 + 1 < 2 ^ 97 := by norm_num
            _ ≤ 2 ^ i := Nat.pow_le_pow_right (by omega) (by omega)
    obtain ⟨_, h1, h2⟩ := C84_tests_partial hn x hx
    refine ⟨x, hx, by rw [hb, BitVec.toNat_ofNat, Nat.mod_eq_of_lt hlt], h1.2 ?_, h2.2 ⟨?_, ?_⟩⟩
    · intro i hi hm
      rw [hbit]; simp; omega
    · intro i hi
      rw [hbit, decide_eq_decide]; omega
    · intro i hi hm
      rw [hbit]; simp; omega

/-- **C86, exact behaviour.** `all_set()` of a wide value is always false. Missing: the value with
every bit set, for which it is wrong (`C86_refuted`). -/
theorem C86_all_set_partial (hn : 64 < n) (x : Big n s) : x.allSet = false := by
  have h0 : ∀ l : List (BitVec 64), Big.reduceAnd l = 0 := by
    intro l
    rw [Big.reduceAnd]
    induction l with
    | nil => rfl
    | cons v l ih =>
      rw [List.foldl_cons]
      have : ((0 : BitVec 32).signExtend 64 &&& v).setWidth 32 = 0 := by simp
      rw [this]; exact ih
  have h2 : limbs n ≠ 1 := by
    have := limbs_ge_two (n := n) (by omega)
    omega
  rw [Big.allSet]
  simp only [h0, if_neg h2]
  rfl

/-- **C86 is false of the code** at every wide width: the value with every bit set
is not `all_set()`. -/
theorem C86_refuted (hn : ¬ n ≤ 64) :
    ∃ x : Bits n s, x.Clean ∧ (∀ i, i < n → x.bv.getLsbD i = true) ∧ (x.bg hn).allSet = false := by
  obtain ⟨x, hx, hb⟩ := Bits.exists_clean (s := s) (BitVec.allOnes n)
  exact ⟨x, hx, fun i hi => by rw [hb]; simp [hi], C86_all_set_partial (by omega) _⟩

example : ((Bits.ofInt 0 : Bits 128 false).bg (by decide)).mask.allSet = false := by decide +kernel

end Verif
