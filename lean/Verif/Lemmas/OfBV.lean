import Verif.Lemmas.Planes

/-! Every bit vector is held by some canonical object. -/

namespace Verif

variable {n : Nat} {s : Bool}

theorem exists_bv (g : Nat → Bool) : ∀ n, ∃ b : BitVec n, ∀ i, i < n → b.getLsbD i = g i
  | 0 => ⟨0, fun i hi => absurd hi (by omega)⟩
  | n + 1 => by
    obtain ⟨b, hb⟩ := exists_bv g n
    refine ⟨BitVec.cons (g n) b, fun i hi => ?_⟩
    rw [BitVec.getLsbD_cons]
    by_cases h : i = n
    · rw [if_pos h, h]
    · rw [if_neg h]; exact hb i (by omega)

theorem Big.exists_clean (b : BitVec n) : ∃ x : Big n s, x.Clean ∧ x.bv = b := by
  let x : Big n s := (List.range n).foldl (fun st i => st.set i (b.getLsbD i)) Big.zero
  have key : ∀ k, ∀ j, ((List.range k).foldl (fun (st : Big n s) i => st.set i (b.getLsbD i)) Big.zero).raw j
      = (decide (j < k ∧ j < n) && b.getLsbD j) := by
    intro k
    induction k with
    | zero => intro j; simp
    | succ k ih =>
      intro j
      rw [List.range_succ, List.foldl_append, List.foldl_cons, List.foldl_nil, Big.raw_set, ih j]
      by_cases hj : j = k
      · subst hj
        by_cases hn : j < n <;> simp [hn]
      · rw [if_neg (by tauto)]
        congr 1
        rw [decide_eq_decide]; omega
  refine ⟨x, ?_, ?_⟩
  · rw [Big.clean_iff]
    intro i hi
    rw [show x.raw i = _ from key n i]
    simp; omega
  · apply BitVec.eq_of_getLsbD_eq
    intro i hi
    rw [Big.getLsbD_bv, Big.get_eq, show x.raw i = _ from key n i]
    simp [hi]

theorem Bits.exists_clean (b : BitVec n) : ∃ x : Bits n s, x.Clean ∧ x.bv = b := by
  by_cases h : n ≤ 64
  · have hle := le_hw h
    by_cases hs : (s && !decide (n ≤ 1)) = true
    · have hb : (Bits.nat h (b.signExtend (hw n)) : Bits n s).bv = b := by
        rw [Bits.bv_native h, Bits.hold_nat]
        apply BitVec.eq_of_getLsbD_eq
        intro i hi
        rw [BitVec.getLsbD_setWidth, BitVec.getLsbD_signExtend]
        simp [hi, lt_of_lt_of_le hi hle]
      refine ⟨.nat h (b.signExtend (hw n)), ?_, hb⟩
      rw [Bits.clean_native h, hb, Bits.nv_v h, if_pos hs, numOf, if_pos hs, Bits.hold_nat,
        BitVec.toInt_signExtend_of_le hle]
    · have hb : (Bits.nat h (b.setWidth (hw n)) : Bits n s).bv = b := by
        rw [Bits.bv_native h, Bits.hold_nat]
        apply BitVec.eq_of_getLsbD_eq
        intro i hi
        rw [BitVec.getLsbD_setWidth, BitVec.getLsbD_setWidth]
        simp [hi, lt_of_lt_of_le hi hle]
      refine ⟨.nat h (b.setWidth (hw n)), ?_, hb⟩
      rw [Bits.clean_native h, hb, Bits.nv_v h, if_neg hs, numOf, if_neg hs, Bits.hold_nat,
        BitVec.toNat_setWidth_of_le hle]
  · obtain ⟨x, hx, hb⟩ := Big.exists_clean (s := s) b
    exact ⟨.big h x, (Bits.clean_big h _).2 hx, by rw [Bits.bv_big h]; exact hb⟩

/-- every sequence of 4-state bits is held by some canonical object -/
theorem Lg.exists_clean (n : Nat) (s : Bool) (f : Nat → V4) :
    ∃ x : Lg n s, x.Clean ∧ ∀ i, i < n → x.at i = f i := by
  obtain ⟨a, ha⟩ := exists_bv (fun i => decide (f i = .b1 ∨ f i = .z)) n
  obtain ⟨c, hc⟩ := exists_bv (fun i => decide (f i = .x ∨ f i = .z)) n
  obtain ⟨v, hv, ev⟩ := Bits.exists_clean (s := s) a
  obtain ⟨k, hk, ek⟩ := Bits.exists_clean (s := false) c
  refine ⟨⟨v, k⟩, ⟨hv, hk⟩, ?_⟩
  intro i hi
  rw [Lg.at, ev, ek, ha i hi, hc i hi]
  cases f i <;> rfl

end Verif
