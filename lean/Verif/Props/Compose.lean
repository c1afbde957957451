import Verif.Props.Slice
import Verif.Props.Update
import Verif.Props.Concat
import Verif.Props.Extend
import Verif.Props.Shift
import Verif.Props.Bitwise
import Verif.Props.RoundTrip
import Verif.Props.ConcatExact
import Verif.Props.ShiftExact
import Verif.Show

/-!
# How the structural operations compose (C144 - C148)

Slices of slices, slices of the bitwise operators, reading back what was assigned to a slice,
extension in steps, shifts in steps and associativity of concatenation. The
results are compared as objects, storage included.
-/

namespace Verif

variable {n m : Nat} {s t : Bool}

/-! ## Slices -/

theorem min_add_left' (l c d : Nat) : min (l + c) (l + d) = l + min c d := by omega
theorem max_add_left' (l c d : Nat) : max (l + c) (l + d) = l + max c d := by omega

/-- **C144, a slice of a slice.** For 4-state vectors of any width, any contents: the slice `[c:d]` of the slice `[a:b]` is the slice
`[lo+c : lo+d]` of the vector, the same object. Missing: an inner slice of one bit (`C144_refuted`). -/
theorem C144_slice_slice_partial (h1 : 1 < n) (hN : n ≤ 2 ^ 32) (x : Lg n false) (k j a b c d : Nat) (ha : a < n) (hb : b < n)
    (hk : max a b - min a b + 1 = k) (hk1 : 1 < k) (hc : c < k) (hd : d < k) (hj : max c d - min c d + 1 = j) :
    (x.sliceRt (Rng.down n) k a b).bind (fun y => y.sliceRt (Rng.down k) j c d) =
      x.sliceRt (Rng.down n) j ((min a b + c : Nat) : Int) ((min a b + d : Nat) : Int) := by
  obtain ⟨y, hy, -, ey⟩ := C51_slice_logic_partial h1 hN x k a b ha hb hk
  obtain ⟨z, hz, cz, ez⟩ := C51_slice_logic_partial hk1 (by omega) y j c d hc hd hj
  obtain ⟨w, hw, cw, ew⟩ := C51_slice_logic_partial h1 hN x j (min a b + c) (min a b + d) (by omega) (by omega)
    (by rw [min_add_left', max_add_left']; omega)
  rw [hy, hw, res_bind_ok, hz]
  refine congrArg _ (Lg.clean_ext cz cw fun i hi => ?_)
  rw [ez i hi, ew i hi, ey _ (by omega), min_add_left', Nat.add_assoc]

/-- **C144, 2-state** unsigned vectors. Missing: an inner slice of one bit (`C144_refuted`). -/
theorem C144_slice_slice_bit_partial (h1 : 1 < n) (hN : n ≤ 2 ^ 32) (x : Bits n false) (k j a b c d : Nat) (ha : a < n) (hb : b < n)
    (hk : max a b - min a b + 1 = k) (hk1 : 1 < k) (hc : c < k) (hd : d < k) (hj : max c d - min c d + 1 = j) :
    (x.sliceRt (Rng.down n) k a b).bind (fun y => y.sliceRt (Rng.down k) j c d) =
      x.sliceRt (Rng.down n) j ((min a b + c : Nat) : Int) ((min a b + d : Nat) : Int) := by
  obtain ⟨y, hy, ey, -⟩ := C51_slice_partial h1 hN x k a b ha hb hk
  obtain ⟨z, hz, ez, cz⟩ := C51_slice_partial hk1 (by omega) y j c d hc hd hj
  obtain ⟨w, hw, ew, cw⟩ := C51_slice_partial h1 hN x j (min a b + c) (min a b + d) (by omega) (by omega)
    (by rw [min_add_left', max_add_left']; omega)
  have cz' := cz.resolve_right (by simp)
  have cw' := cw.resolve_right (by simp)
  rw [hy, hw, res_bind_ok, hz]
  refine congrArg _ (cz'.ext cw' (BitVec.eq_of_getLsbD_eq fun i hi => ?_))
  rw [ez i hi, ew i hi, ey _ (by omega), min_add_left', Nat.add_assoc]

/-- **C144, constant slices**, 4-state vectors: the two results are canonical and have the same bits; the inner slice may have one bit. -/
theorem C144_slice_const (x : Lg n false) (a b c d : Nat) (ha : a < n) (hb : b < n) (h65 : max a b - min a b ≠ 64)
    (hc : c ≤ max a b - min a b) (hd : d ≤ max a b - min a b) (h65' : max c d - min c d ≠ 64) :
    ∃ y z w, x.slice (Rng.down n) a b = .ok y ∧ y.slice (Rng.down (max a b - min a b + 1)) c d = .ok z ∧
      x.slice (Rng.down n) (min a b + c) (min a b + d) = .ok w ∧ z.Clean ∧ w.Clean ∧
      ∀ i, i ≤ max c d - min c d → z.at i = w.at i := by
  obtain ⟨y, hy, -, ey⟩ := C49_slice_logic x a b ha hb h65
  obtain ⟨z, hz, cz, ez⟩ := C49_slice_logic y c d (by omega) (by omega) h65'
  obtain ⟨w, hw, cw, ew⟩ := C49_slice_logic x (min a b + c) (min a b + d) (by omega) (by omega)
    (by rw [min_add_left', max_add_left']; omega)
  refine ⟨y, z, w, hy, hz, hw, cz, cw, fun i hi => ?_⟩
  rw [ez i hi, ew i (by rw [min_add_left', max_add_left']; omega), ey _ (by omega), min_add_left', Nat.add_assoc]

/-- **C144, slices of the bitwise operators.** For 4-state vectors of any width, any contents: slicing the result of
`& | ^ ~` is the operator on the slices, the same object. Missing: `~` of 2-state vectors (`C144_not_refuted`). -/
theorem C144_bitwise_partial (h1 : 1 < n) (hN : n ≤ 2 ^ 32) (x y : Lg n false) (k a b : Nat) (ha : a < n) (hb : b < n)
    (hk : max a b - min a b + 1 = k) :
    ∃ u v, x.sliceRt (Rng.down n) k a b = .ok u ∧ y.sliceRt (Rng.down n) k a b = .ok v ∧
      (x.and y).bind (fun z => z.sliceRt (Rng.down n) k a b) = u.and v ∧
      (x.or y).bind (fun z => z.sliceRt (Rng.down n) k a b) = u.or v ∧
      (x.xor y).bind (fun z => z.sliceRt (Rng.down n) k a b) = u.xor v ∧
      x.not.bind (fun z => z.sliceRt (Rng.down n) k a b) = u.not := by
  have h0 : 0 < n := by omega
  have hk0 : 0 < k := by omega
  have mk : ∀ z : Lg k false, (∀ i, k ≤ i → z.value.raw i = false) → (∀ i, k ≤ i → z.xz.raw i = false) →
      z.Clean := fun z h1 h2 => ⟨(Bits.clean_unsigned_iff _).2 h1, (Bits.clean_unsigned_iff _).2 h2⟩
  obtain ⟨u, hu, cu, eu⟩ := C51_slice_logic_partial h1 hN x k a b ha hb hk
  obtain ⟨v, hv, cv, ev⟩ := C51_slice_logic_partial h1 hN y k a b ha hb hk
  refine ⟨u, v, hu, hv, ?_, ?_, ?_, ?_⟩
  · obtain ⟨z, hz, ez⟩ := C10_and_table_partial h0 x y
    obtain ⟨w, hw, ew⟩ := C10_and_table_partial hk0 u v
    obtain ⟨w', hw', v1, v2⟩ := Lg.and_ok hk0 u v
    obtain rfl := Except.ok.inj (hw.symm.trans hw')
    obtain ⟨q, hq, cq, eq⟩ := C51_slice_logic_partial h1 hN (z : Lg n false) k a b ha hb hk
    rw [hz, res_bind_ok, hw]
    refine hq.trans (congrArg _ (Lg.clean_ext cq (mk _ (fun j hj => by rw [v1]; simp [Nat.not_lt.2 hj]) fun j hj => by rw [v2]; simp [Nat.not_lt.2 hj]) fun i hi => ?_))
    rw [eq i hi, ez _ (by omega), ew i hi, eu i hi, ev i hi]
  · obtain ⟨z, hz, ez⟩ := C11_or_table_partial h0 x y
    obtain ⟨w, hw, ew⟩ := C11_or_table_partial hk0 u v
    obtain ⟨w', hw', v1, v2⟩ := Lg.or_ok hk0 u v
    obtain rfl := Except.ok.inj (hw.symm.trans hw')
    obtain ⟨q, hq, cq, eq⟩ := C51_slice_logic_partial h1 hN (z : Lg n false) k a b ha hb hk
    rw [hz, res_bind_ok, hw]
    refine hq.trans (congrArg _ (Lg.clean_ext cq (mk _ (fun j hj => by rw [v1]; simp [Nat.not_lt.2 hj]) fun j hj => by rw [v2]; simp [Nat.not_lt.2 hj]) fun i hi => ?_))
    rw [eq i hi, ez _ (by omega), ew i hi, eu i hi, ev i hi]
  · obtain ⟨z, hz, ez⟩ := C08_xor_table h0 x y
    obtain ⟨w, hw, ew⟩ := C08_xor_table hk0 u v
    obtain ⟨w', hw', v1, v2⟩ := Lg.xor_ok hk0 u v
    obtain rfl := Except.ok.inj (hw.symm.trans hw')
    obtain ⟨q, hq, cq, eq⟩ := C51_slice_logic_partial h1 hN (z : Lg n false) k a b ha hb hk
    rw [hz, res_bind_ok, hw]
    refine hq.trans (congrArg _ (Lg.clean_ext cq (mk _ (fun j hj => by rw [v1]; simp [Nat.not_lt.2 hj]) fun j hj => by
      rw [v2, (Bits.clean_unsigned_iff _).1 cu.2 j hj, (Bits.clean_unsigned_iff _).1 cv.2 j hj]; rfl) fun i hi => ?_))
    rw [eq i hi, ez _ (by omega), ew i hi, eu i hi, ev i hi]
  · obtain ⟨z, hz, ez⟩ := C09_not_table h0 x
    obtain ⟨w, hw, ew⟩ := C09_not_table hk0 u
    obtain ⟨w', hw', v1, v2⟩ := Lg.not_ok hk0 u
    obtain rfl := Except.ok.inj (hw.symm.trans hw')
    obtain ⟨q, hq, cq, eq⟩ := C51_slice_logic_partial h1 hN (z : Lg n false) k a b ha hb hk
    rw [hz, res_bind_ok, hw]
    refine hq.trans (congrArg _ (Lg.clean_ext cq (mk _ (fun j hj => by rw [v1]; simp [Nat.not_lt.2 hj]) fun j hj => by
      rw [v2, (Bits.clean_unsigned_iff _).1 cu.2 j hj]) fun i hi => ?_))
    rw [eq i hi, ez _ (by omega), ew i hi, eu i hi]

/-- **C144 is false for run-time slices of one-bit slices**: `x[a:a][0:0]` is 0 for every vector, also where bit `a` is 1. -/
theorem C144_refuted (h1 : 1 < n) (hN : n ≤ 2 ^ 32) (x : Bits n false) (a : Nat) (ha : a < n) (hx : x.bv.getLsbD a = true) :
    ∃ y z w, x.sliceRt (Rng.down n) 1 a a = .ok y ∧ y.sliceRt (Rng.down 1) 1 0 0 = .ok z ∧ x.sliceRt (Rng.down n) 1 a a = .ok w ∧
      z.bv = 0 ∧ w.bv = 1 := by
  obtain ⟨y, hy, ey, -⟩ := C51_slice_partial h1 hN x 1 a a ha ha (by omega)
  have hr := (C51_refuted (s := false)).1 y
  cases hz : y.sliceRt (Rng.down 1) 1 0 0 with
  | error f => rw [hz] at hr; cases hr
  | ok z =>
    rw [hz] at hr
    refine ⟨y, z, y, hy, hz, hy, BitVec.eq_of_toNat_eq (Except.ok.inj hr), ?_⟩
    apply BitVec.eq_of_getLsbD_eq
    intro i hi
    obtain rfl : i = 0 := by omega
    rw [ey 0 hi]
    simpa using hx

/-- **C144 is false for `~` of 2-state vectors**, for every native vector and every slice of 2 to 63 bits other than 8, 16 and 32: `(~x)[a:b]` and
`~(x[a:b])` have the same bits and compare different. -/
theorem C144_not_refuted (h1 : 1 < n) (h : n ≤ 64) (x : Bits n false) (k a b : Nat) (ha : a < n) (hb : b < n)
    (hk : max a b - min a b + 1 = k) (hk1 : 1 < k) (hf : ¬ Full k) :
    ∃ z u, x.not.sliceRt (Rng.down n) k a b = .ok z ∧ x.sliceRt (Rng.down n) k a b = .ok u ∧ z.bv = u.not.bv ∧ z.eq u.not = false := by
  have hk64 : k ≤ 64 := by omega
  obtain ⟨z, hz, ez, cz⟩ := C51_slice_partial h1 (by omega) x.not k a b ha hb hk
  obtain ⟨u, hu, eu, cu⟩ := C51_slice_partial h1 (by omega) x k a b ha hb hk
  have cz' := cz.resolve_right (by simp)
  have cu' := cu.resolve_right (by simp)
  have hlt : k < hw k := by
    have := le_hw hk64
    have h2 := mt (Bits.full_iff (by omega) hk64).2 hf
    omega
  refine ⟨z, u, hz, hu, ?_, ?_⟩
  · apply BitVec.eq_of_getLsbD_eq
    intro i hi
    have hi' : i < hw k := by omega
    rw [ez i hi, Bits.getLsbD_bv, Bits.getLsbD_bv, Bits.raw_not_native h (by omega) x (by have := le_hw h; omega), Bits.raw_not_native hk64 (by omega) u hi']
    have := eu i hi
    rw [Bits.getLsbD_bv, Bits.getLsbD_bv] at this
    simp only [hi, show min a b + i < n by omega, decide_true, Bool.true_and] at this ⊢
    rw [this]
  · rw [Bits.eq_native hk64 hk64, decide_eq_false_iff_not]
    intro e
    have e2 : z = u.not := by
      rw [← Bits.mkN_nv hk64 z, ← Bits.mkN_nv hk64 u.not]
      apply Bits.ext_native hk64
      rw [Bits.hold_mkN hk64 (by omega), Bits.hold_mkN hk64 (by omega), e, Bits.nv_conv hk64]
    have h3 := (Bits.clean_unsigned_iff _).1 cz' k le_rfl
    rw [e2, Bits.raw_not_native hk64 (by omega) u hlt, (Bits.clean_unsigned_iff _).1 cu' k le_rfl] at h3
    cases h3

/-- `xz10_1z01` sliced `[6:1]`, then `[4:2]`, is `z10` as is `[5:3]` at once. -/
example : ((Lg.mk (Bits.ofInt 0b01101101) (Bits.ofInt 0b11000100) : Lg 8 false).sliceRt (Rng.down 8) 6 6 1).bind
      (fun y => y.sliceRt (Rng.down 6) 3 4 2) =
    (Lg.mk (Bits.ofInt 0b01101101) (Bits.ofInt 0b11000100) : Lg 8 false).sliceRt (Rng.down 8) 3 5 3 := by
  decide +kernel

/-! ## Reading back a slice assignment -/

/-- **C145, what was assigned is read back**: after `x.update<a, b>(v)` the slice `[a:b]` is `v`, the same object, for every canonical
`v` of the width of the slice. Missing: an x or z from bit 64 of `v` on, which is undefined behaviour (`C145_refuted`). -/
theorem C145_put_get_partial (h1 : 1 < n) (hN : n ≤ 2 ^ 31) (x : Lg n false) (a b : Nat) (ha : a < n) (hb : b < n)
    (v : Lg m false) (hm : max a b - min a b + 1 = m) (hv : v.Clean) (hk : ∀ i, 64 ≤ i → i < m → (v.at i).isKnown = true) :
    (x.update (Rng.down n) a b (Rng.down m) v).bind (fun y => y.sliceRt (Rng.down n) m a b) = .ok v := by
  obtain ⟨y, hy, ey, -⟩ := C55_update_partial (by omega) (by omega) hN (by omega) x v a b ha hb fun k _ h64 hkm => hk k h64 hkm
  obtain ⟨z, hz, cz, ez⟩ := C51_slice_logic_partial h1 (by omega) y m a b ha hb hm
  rw [hy, res_bind_ok, hz]
  refine congrArg _ (Lg.clean_ext cz hv fun i hi => ?_)
  rw [ez i hi, ey _ (by omega), if_pos (by omega), if_pos (by omega)]
  congr 1; omega

/-- **C145, assigning a slice to itself changes nothing**. Missing: a slice with an x or z from its bit 64 on (`C145_refuted`). -/
theorem C145_get_put_partial (h1 : 1 < n) (hN : n ≤ 2 ^ 31) (x : Lg n false) (hx : x.Clean) (a b : Nat) (ha : a < n) (hb : b < n)
    (hm : max a b - min a b + 1 = m) (hk : ∀ i, 64 ≤ i → i < m → (x.at (min a b + i)).isKnown = true) :
    (x.sliceRt (Rng.down n) m a b).bind (fun v => x.update (Rng.down n) a b (Rng.down m) v) = .ok x := by
  obtain ⟨v, hv, cv, ev⟩ := C51_slice_logic_partial h1 (by omega) x m a b ha hb hm
  obtain ⟨y, hy, ey, cy⟩ := C55_update_partial (by omega) (by omega) hN (by omega) x v a b ha hb fun k _ h64 hkm => by
    rw [ev k hkm]; exact hk k h64 hkm
  rw [hv, res_bind_ok, hy]
  refine congrArg _ (Lg.clean_ext (cy rfl hx) hx fun i hi => ?_)
  rw [ey i hi]
  by_cases h : min a b ≤ i ∧ i ≤ max a b
  · rw [if_pos h, if_pos (by omega), ev _ (by omega)]
    congr 1; omega
  · rw [if_neg h]

/-- **C145, the last assignment counts.** Missing: operands with an x or z from bit 64 on (`C145_refuted`). -/
theorem C145_put_put_partial (h1 : 1 < n) (hN : n ≤ 2 ^ 31) (x : Lg n false) (hx : x.Clean) (a b : Nat) (ha : a < n) (hb : b < n)
    {m' : Nat} (v : Lg m s) (w : Lg m' t) (h0 : 0 < m) (h0' : 0 < m') (hM : m ≤ 2 ^ 31) (hM' : m' ≤ 2 ^ 31)
    (hv : ∀ i, 64 ≤ i → i < m → (v.at i).isKnown = true)
    (hw : ∀ i, 64 ≤ i → i < m' → (w.at i).isKnown = true) :
    (x.update (Rng.down n) a b (Rng.down m) v).bind (fun y => y.update (Rng.down n) a b (Rng.down m') w) =
      x.update (Rng.down n) a b (Rng.down m') w := by
  obtain ⟨y, hy, ey, cy⟩ := C55_update_partial (by omega) h0 hN hM x v a b ha hb fun k _ h64 hkm => hv k h64 hkm
  obtain ⟨z, hz, ez, cz⟩ := C55_update_partial (by omega) h0' hN hM' y w a b ha hb fun k _ h64 hkm => hw k h64 hkm
  obtain ⟨u, hu, eu, cu⟩ := C55_update_partial (by omega) h0' hN hM' x w a b ha hb fun k _ h64 hkm => hw k h64 hkm
  rw [hy, res_bind_ok, hz, hu]
  refine congrArg _ (Lg.clean_ext (cz rfl (cy rfl hx)) (cu rfl hx) fun i hi => ?_)
  rw [ez i hi, eu i hi]
  by_cases h : min a b ≤ i ∧ i ≤ max a b
  · rw [if_pos h, if_pos h]
  · rw [if_neg h, if_neg h, ey i hi, if_neg h]

/-- **C145, assignments to disjoint slices commute.** Missing: operands with an x or z from bit 64 on (`C145_refuted`). -/
theorem C145_commute_partial (h1 : 1 < n) (hN : n ≤ 2 ^ 31) (x : Lg n false) (hx : x.Clean) (a b c d : Nat) (ha : a < n) (hb : b < n)
    (hc : c < n) (hd : d < n) (hdis : max a b < min c d)
    {m' : Nat} (v : Lg m s) (w : Lg m' t) (h0 : 0 < m) (h0' : 0 < m') (hM : m ≤ 2 ^ 31) (hM' : m' ≤ 2 ^ 31)
    (hv : ∀ i, 64 ≤ i → i < m → (v.at i).isKnown = true)
    (hw : ∀ i, 64 ≤ i → i < m' → (w.at i).isKnown = true) :
    (x.update (Rng.down n) a b (Rng.down m) v).bind (fun y => y.update (Rng.down n) c d (Rng.down m') w) =
      (x.update (Rng.down n) c d (Rng.down m') w).bind (fun y => y.update (Rng.down n) a b (Rng.down m) v) := by
  obtain ⟨y, hy, ey, cy⟩ := C55_update_partial (by omega) h0 hN hM x v a b ha hb fun k _ h64 hkm => hv k h64 hkm
  obtain ⟨z, hz, ez, cz⟩ := C55_update_partial (by omega) h0' hN hM' y w c d hc hd fun k _ h64 hkm => hw k h64 hkm
  obtain ⟨u, hu, eu, cu⟩ := C55_update_partial (by omega) h0' hN hM' x w c d hc hd fun k _ h64 hkm => hw k h64 hkm
  obtain ⟨q, hq, eq, cq⟩ := C55_update_partial (by omega) h0 hN hM u v a b ha hb fun k _ h64 hkm => hv k h64 hkm
  rw [hy, res_bind_ok, hz, hu, res_bind_ok, hq]
  refine congrArg _ (Lg.clean_ext (cz rfl (cy rfl hx)) (cq rfl (cu rfl hx)) fun i hi => ?_)
  rw [ez i hi, eq i hi, ey i hi, eu i hi]
  by_cases h : min a b ≤ i ∧ i ≤ max a b
  · rw [if_neg (by omega), if_pos h, if_pos h]
  · rw [if_neg h, if_neg h]

/-- **C145 is false beyond 64 bits**: a vector with an x from bit 64 on cannot be assigned to itself, for every such vector. -/
theorem C145_refuted (h : 64 < n) (hN : n ≤ 2 ^ 31) (x : Lg n false) (i : Nat) (h64 : 64 ≤ i) (hi : i < n)
    (hx : (x.at i).isKnown = false) :
    (x.sliceRt (Rng.down n) n ((n - 1 : Nat) : Int) ((0 : Nat) : Int)).bind
      (fun v => x.update (Rng.down n) ((n - 1 : Nat) : Int) ((0 : Nat) : Int) (Rng.down n) v) = .error .shift := by
  obtain ⟨v, hv, -, ev⟩ := C51_slice_logic_partial (by omega) (by omega) x n (n - 1) 0 (by omega) (by omega) (by omega)
  rw [hv, res_bind_ok]
  refine C55_fault (by omega) (by omega) hN hN x v (n - 1) 0 (by omega) (by omega) i (by omega) h64 hi ?_
  rw [ev i hi, show min (n - 1) 0 + i = i by omega]
  exact hx

/-- Assigning `1x0` to bits 6 to 4 of an 8 bit vector and reading them back. -/
example : ((Lg.mk (Bits.ofInt 0b01101101) (Bits.ofInt 0b11000100) : Lg 8 false).update (Rng.down 8) 6 4 (Rng.down 3)
      (Lg.mk (Bits.ofInt 0b100) (Bits.ofInt 0b010) : Lg 3 false)).bind (fun y => y.sliceRt (Rng.down 8) 3 6 4) =
    .ok (Lg.mk (Bits.ofInt 0b100) (Bits.ofInt 0b010)) := by
  decide +kernel

/-! ## Extension -/

/-- **C146, extension in steps** is extension: canonical unsigned 4-state vectors. -/
theorem C146_extend_extend (hn : 0 < n) {k : Nat} (h : n ≤ m) (h' : m ≤ k) (x : Lg n false) (hx : x.Clean) :
    (x.extend m).extend k = x.extend k := by
  obtain ⟨c1, e1⟩ := C47_zero_extend_logic_partial hn h x hx
  obtain ⟨c2, e2⟩ := C47_zero_extend_logic_partial (by omega) h' (x.extend m) c1
  obtain ⟨c3, e3⟩ := C47_zero_extend_logic_partial hn (le_trans h h') x hx
  refine Lg.clean_ext c2 c3 fun i hi => ?_
  rw [e2 i hi, e3 i hi]
  by_cases hm : i < m
  · rw [if_pos hm, e1 i hm]
  · rw [if_neg hm, if_neg (by omega)]

/-- **C146, the low bits of an extension** are the vector. -/
theorem C146_slice_extend (hn : 0 < n) (h : n ≤ m) (h1 : 1 < m) (hM : m ≤ 2 ^ 32) (x : Lg n false) (hx : x.Clean) :
    (x.extend m).sliceRt (Rng.down m) n ((n - 1 : Nat) : Int) ((0 : Nat) : Int) = .ok x := by
  obtain ⟨c1, e1⟩ := C47_zero_extend_logic_partial hn h x hx
  obtain ⟨z, hz, cz, ez⟩ := C51_slice_logic_partial h1 hM (x.extend m) n (n - 1) 0 (by omega) (by omega) (by omega)
  rw [hz]
  refine congrArg _ (Lg.clean_ext cz hx fun i hi => ?_)
  rw [ez i hi, e1 _ (by omega), if_pos (by omega)]
  congr 1; omega

/-- **C146, extension of `& | ^`** is the operator on the extensions, for canonical operands with any x and z. -/
theorem C146_extend_bitwise (hn : 0 < n) (h : n ≤ m) (x y : Lg n false) (hx : x.Clean) (hy : y.Clean) :
    (x.and y).map (fun z => (z.extend m : Lg m false)) = (x.extend m).and (y.extend m) ∧
    (x.or y).map (fun z => (z.extend m : Lg m false)) = (x.extend m).or (y.extend m) ∧
    (x.xor y).map (fun z => (z.extend m : Lg m false)) = (x.extend m).xor (y.extend m) := by
  have hm : 0 < m := by omega
  have mk : ∀ {k : Nat} (z : Lg k false), (∀ i, k ≤ i → z.value.raw i = false) → (∀ i, k ≤ i → z.xz.raw i = false) →
      z.Clean := fun z h1 h2 => ⟨(Bits.clean_unsigned_iff _).2 h1, (Bits.clean_unsigned_iff _).2 h2⟩
  obtain ⟨cx, ex⟩ := C47_zero_extend_logic_partial hn h x hx
  obtain ⟨cy, ey⟩ := C47_zero_extend_logic_partial hn h y hy
  refine ⟨?_, ?_, ?_⟩
  · obtain ⟨z, hz, ez⟩ := C10_and_table_partial hn x y
    obtain ⟨z', hz', z1, z2⟩ := Lg.and_ok hn x y
    obtain rfl := Except.ok.inj (hz.symm.trans hz')
    obtain ⟨w, hw, ew⟩ := C10_and_table_partial hm (x.extend m) (y.extend m)
    obtain ⟨w', hw', w1, w2⟩ := Lg.and_ok hm (x.extend m) (y.extend m)
    obtain rfl := Except.ok.inj (hw.symm.trans hw')
    obtain ⟨c3, e3⟩ := C47_zero_extend_logic_partial hn h (z : Lg n false) (mk _ (fun j hj => by rw [z1]; simp [Nat.not_lt.2 hj]) fun j hj => by rw [z2]; simp [Nat.not_lt.2 hj])
    rw [hz, hw]
    refine congrArg _ (Lg.clean_ext c3 (mk _ (fun j hj => by rw [w1]; simp [Nat.not_lt.2 hj]) fun j hj => by rw [w2]; simp [Nat.not_lt.2 hj]) fun i hi => ?_)
    rw [e3 i hi, ew i hi, ex i hi, ey i hi]
    by_cases hin : i < n
    · rw [if_pos hin, if_pos hin, if_pos hin, ez i hin]
    · rw [if_neg hin, if_neg hin, if_neg hin]; rfl
  · obtain ⟨z, hz, ez⟩ := C11_or_table_partial hn x y
    obtain ⟨z', hz', z1, z2⟩ := Lg.or_ok hn x y
    obtain rfl := Except.ok.inj (hz.symm.trans hz')
    obtain ⟨w, hw, ew⟩ := C11_or_table_partial hm (x.extend m) (y.extend m)
    obtain ⟨w', hw', w1, w2⟩ := Lg.or_ok hm (x.extend m) (y.extend m)
    obtain rfl := Except.ok.inj (hw.symm.trans hw')
    obtain ⟨c3, e3⟩ := C47_zero_extend_logic_partial hn h (z : Lg n false) (mk _ (fun j hj => by rw [z1]; simp [Nat.not_lt.2 hj]) fun j hj => by rw [z2]; simp [Nat.not_lt.2 hj])
    rw [hz, hw]
    refine congrArg _ (Lg.clean_ext c3 (mk _ (fun j hj => by rw [w1]; simp [Nat.not_lt.2 hj]) fun j hj => by rw [w2]; simp [Nat.not_lt.2 hj]) fun i hi => ?_)
    rw [e3 i hi, ew i hi, ex i hi, ey i hi]
    by_cases hin : i < n
    · rw [if_pos hin, if_pos hin, if_pos hin, ez i hin]
    · rw [if_neg hin, if_neg hin, if_neg hin]; rfl
  · obtain ⟨z, hz, ez⟩ := C08_xor_table hn x y
    obtain ⟨z', hz', z1, z2⟩ := Lg.xor_ok hn x y
    obtain rfl := Except.ok.inj (hz.symm.trans hz')
    obtain ⟨w, hw, ew⟩ := C08_xor_table hm (x.extend m) (y.extend m)
    obtain ⟨w', hw', w1, w2⟩ := Lg.xor_ok hm (x.extend m) (y.extend m)
    obtain rfl := Except.ok.inj (hw.symm.trans hw')
    obtain ⟨c3, e3⟩ := C47_zero_extend_logic_partial hn h (z : Lg n false) (mk _ (fun j hj => by rw [z1]; simp [Nat.not_lt.2 hj]) fun j hj => by
      rw [z2, (Bits.clean_unsigned_iff _).1 hx.2 j hj, (Bits.clean_unsigned_iff _).1 hy.2 j hj]; rfl)
    rw [hz, hw]
    refine congrArg _ (Lg.clean_ext c3 (mk _ (fun j hj => by rw [w1]; simp [Nat.not_lt.2 hj]) fun j hj => by
      rw [w2, (Bits.clean_unsigned_iff _).1 cx.2 j hj, (Bits.clean_unsigned_iff _).1 cy.2 j hj]; rfl) fun i hi => ?_)
    rw [e3 i hi, ew i hi, ex i hi, ey i hi]
    by_cases hin : i < n
    · rw [if_pos hin, if_pos hin, if_pos hin, ez i hin]
    · rw [if_neg hin, if_neg hin, if_neg hin]; rfl

/-- `1xz0` extended to 8 and then to 70 bits. -/
example : ((Lg.mk (Bits.ofInt 0b1010) (Bits.ofInt 0b0110) : Lg 4 false).extend 8).extend 70 =
    (Lg.mk (Bits.ofInt 0b1010) (Bits.ofInt 0b0110) : Lg 4 false).extend 70 := by
  decide +kernel

/-! ## Shifts -/

/-- **C147, right shifts in two steps**, any contents: wide vectors with all amounts, native ones with a total below the width. Missing: larger native totals (`C147_refuted`). -/
theorem C147_shr_partial (hn : 0 < n) (hN : n ≤ 2 ^ 32) {m' m'' : Nat} {t' t'' : Bool} (x : Bits n s) (y : Bits m t) (y' : Bits m' t') (w : Bits m'' t'')
    (hy : y.Clean) (hy' : y'.Clean) (hw : w.Clean) (k l : Nat) (hk : numOf t y.bv = k) (hl : numOf t' y'.bv = l)
    (hkl : numOf t'' w.bv = (k + l : Nat)) (hr : n ≤ 64 → m ≤ 64 ∧ m' ≤ 64 ∧ m'' ≤ 64 ∧ k + l < n) :
    ∃ u v, (x.shr y).bind (fun z => z.shr y') = .ok u ∧ x.shr w = .ok v ∧ u.bv = v.bv ∧ u.bv = x.bv >>> (k + l) := by
  obtain ⟨z, hz, ez⟩ := C24_shr_partial hn hN x y hy k hk fun h => ⟨(hr h).1, by have := (hr h).2.2.2; omega⟩
  obtain ⟨u, hu, eu⟩ := C24_shr_partial hn hN z y' hy' l hl fun h => ⟨(hr h).2.1, by have := (hr h).2.2.2; omega⟩
  obtain ⟨v, hv, ev⟩ := C24_shr_partial hn hN x w hw (k + l) hkl fun h => (hr h).2.2
  have e : u.bv = x.bv >>> (k + l) := by rw [eu, ez, BitVec.shiftRight_add]
  exact ⟨u, v, by rw [hz, res_bind_ok, hu], hv, e.trans ev.symm, e⟩

/-- **C147, left shifts in two steps**, any contents: wide vectors with all amounts, native ones with a total below 32 (64 above
32 bits). Missing: larger native totals, for which the single shift is undefined behaviour (`C25_native_shift_ge`). -/
theorem C147_shl_partial (hN : n ≤ 2 ^ 32) {m' m'' : Nat} {t' t'' : Bool} (x : Bits n s) (y : Bits m t) (y' : Bits m' t') (w : Bits m'' t'')
    (hy : y.Clean) (hy' : y'.Clean) (hw : w.Clean) (k l : Nat) (hk : numOf t y.bv = k) (hl : numOf t' y'.bv = l)
    (hkl : numOf t'' w.bv = (k + l : Nat))
    (hr : n ≤ 64 → m ≤ 64 ∧ m' ≤ 64 ∧ m'' ≤ 64 ∧ 1 < n ∧ k + l < if n ≤ 32 then 32 else 64) :
    ∃ u v, (x.shl y).bind (fun z => z.shl y') = .ok u ∧ x.shl w = .ok v ∧ u.bv = v.bv ∧ u.bv = x.bv <<< (k + l) := by
  obtain ⟨z, hz, ez⟩ := C25_shl_partial hN x y hy k hk fun h => ⟨(hr h).1, (hr h).2.2.2.1, by have := (hr h).2.2.2.2; omega⟩
  obtain ⟨u, hu, eu⟩ := C25_shl_partial hN z y' hy' l hl fun h => ⟨(hr h).2.1, (hr h).2.2.2.1, by have := (hr h).2.2.2.2; omega⟩
  obtain ⟨v, hv, ev⟩ := C25_shl_partial hN x w hw (k + l) hkl fun h => (hr h).2.2
  have e : u.bv = x.bv <<< (k + l) := by rw [eu, ez, BitVec.shiftLeft_add]
  exact ⟨u, v, by rw [hz, res_bind_ok, hu], hv, e.trans ev.symm, e⟩

/-- **C147, left and back** clears the upper `k` bits; right and back the lower ones. Any contents. Missing: native amounts of at least the
width, undefined behaviour in `>>` (`C24_refuted_all`). -/
theorem C147_back_partial (hN : n ≤ 2 ^ 32) (x : Bits n s) (y : Bits m t) (hy : y.Clean) (k : Nat) (hk : numOf t y.bv = k)
    (hr : n ≤ 64 → m ≤ 64 ∧ 1 < n ∧ k < n) :
    (∃ u, (x.shl y).bind (fun z => z.shr y) = .ok u ∧ ∀ i, i < n → u.bv.getLsbD i = (decide (i + k < n) && x.bv.getLsbD i)) ∧
    (∃ u, (x.shr y).bind (fun z => z.shl y) = .ok u ∧ ∀ i, i < n → u.bv.getLsbD i = (decide (k ≤ i) && x.bv.getLsbD i)) := by
  have hn : 0 < n := by
    by_cases h : n ≤ 64
    · have := (hr h).2.1; omega
    · omega
  have hr' : n ≤ 64 → m ≤ 64 ∧ 1 < n ∧ k < if n ≤ 32 then 32 else 64 := fun h =>
    ⟨(hr h).1, (hr h).2.1, by have := (hr h).2.2; split <;> omega⟩
  constructor
  · obtain ⟨z, hz, ez⟩ := C25_shl_partial hN x y hy k hk hr'
    obtain ⟨u, hu, eu⟩ := C24_shr_partial hn hN z y hy k hk fun h => ⟨(hr h).1, (hr h).2.2⟩
    refine ⟨u, by rw [hz, res_bind_ok, hu], fun i hi => ?_⟩
    rw [eu, ez, BitVec.getLsbD_ushiftRight, BitVec.getLsbD_shiftLeft]
    rw [show k + i - k = i by omega]
    simp [show ¬ k + i < k by omega, Nat.add_comm]
  · obtain ⟨z, hz, ez⟩ := C24_shr_partial hn hN x y hy k hk fun h => ⟨(hr h).1, (hr h).2.2⟩
    obtain ⟨u, hu, eu⟩ := C25_shl_partial hN z y hy k hk hr'
    refine ⟨u, by rw [hz, res_bind_ok, hu], fun i hi => ?_⟩
    rw [eu, ez, BitVec.getLsbD_shiftLeft, BitVec.getLsbD_ushiftRight]
    by_cases h : k ≤ i
    · rw [show k + (i - k) = i by omega]
      simp [hi, h, Nat.not_lt.2 h]
    · simp [h, Nat.not_le.1 h]

/-- **C147, a slice of a right shift** is the slice `k` bits higher, the same object: known 4-state vectors.
Missing: vectors with an x, for which `>>` gives all x (`C27_shift_x_native`). -/
theorem C147_slice_shr_partial (h1 : 1 < n) (hN : n ≤ 2 ^ 32) (x : Lg n false) (y : Lg m t) (hx : x.Known) (hy : y.Known)
    (hyc : y.value.Clean) (k : Nat) (hk : numOf t y.value.bv = k) (hm : n ≤ 64 → m ≤ 64)
    (j a b : Nat) (ha : a + k < n) (hb : b + k < n) (hj : max a b - min a b + 1 = j) :
    (x.shr y).bind (fun z => z.sliceRt (Rng.down n) j a b) = x.sliceRt (Rng.down n) j ((a + k : Nat) : Int) ((b + k : Nat) : Int) := by
  obtain ⟨z, hz, ez⟩ := C24_shr_logic_partial (by omega) hN x y hx hy hyc k hk fun h => ⟨hm h, by omega⟩
  obtain ⟨u, hu, cu, eu⟩ := C51_slice_logic_partial h1 hN z j a b (by omega) (by omega) hj
  obtain ⟨v, hv, cv, ev⟩ := C51_slice_logic_partial h1 hN x j (a + k) (b + k) ha hb (by omega)
  rw [hz, res_bind_ok, hu, hv]
  refine congrArg _ (Lg.clean_ext cu cv fun i hi => ?_)
  rw [eu i hi, ev i hi, ez _ (by omega), if_pos (by omega)]
  congr 1; omega

/-- **C147 is false natively beyond the width**: for every value, two right shifts give 0 where the single one is undefined behaviour. -/
theorem C147_refuted (hn : 1 < n) (h : n ≤ 64) {m' m'' : Nat} {t' t'' : Bool} (x : Bits n s) (y : Bits m t) (y' : Bits m' t') (w : Bits m'' t'')
    (hm : m ≤ 64 ∧ m' ≤ 64 ∧ m'' ≤ 64) (hy : y.Clean) (hy' : y'.Clean) (hw : w.Clean) (k l : Nat) (hk : numOf t y.bv = k) (hl : numOf t' y'.bv = l)
    (hkl : numOf t'' w.bv = (k + l : Nat)) (hkn : k < n) (hln : l < n) (hs : n ≤ k + l) :
    (∃ u, (x.shr y).bind (fun z => z.shr y') = .ok u ∧ u.bv = 0) ∧ x.shr w = .error .shift := by
  obtain ⟨z, hz, ez⟩ := C24_shr_partial (by omega) (by omega) x y hy k hk fun h => ⟨hm.1, hkn⟩
  obtain ⟨u, hu, eu⟩ := C24_shr_partial (by omega) (by omega) z y' hy' l hl fun h => ⟨hm.2.1, hln⟩
  refine ⟨⟨u, by rw [hz, res_bind_ok, hu], ?_⟩, C24_refuted_all h hn hm.2.2 x w hw (by rw [hkl]; exact_mod_cast hs)⟩
  rw [eu, ez, ← BitVec.shiftRight_add]
  exact BitVec.ushiftRight_eq_zero hs

/-- `0xb4 >> 2 >> 3` is `0xb4 >> 5`. -/
example : (((Bits.ofInt 0xb4 : Bits 8 false).shr (Bits.ofInt 2 : Bits 4 false)).bind
      (fun z => z.shr (Bits.ofInt 3 : Bits 4 false))).map (·.bv.toNat) = .ok 5 ∧
    ((Bits.ofInt 0xb4 : Bits 8 false).shr (Bits.ofInt 5 : Bits 4 false)).map (·.bv.toNat) = .ok 5 := by
  decide +kernel

/-! ## Concatenation -/

/-- **C148, concatenation is associative**: both results are canonical and have the same bits. Unsigned 4-state operands whose total
width fits the promoted type (32 bits, or 64 when the first operand is wider than 32). Missing: larger totals (`C148_refuted`). -/
theorem C148_assoc_partial {k : Nat} (hn : 0 < n) (hm : 0 < m) (hk : 0 < k) (h64 : n + m + k < 64)
    (hW : n + m + k ≤ 32 ∨ 32 < n) (x : Lg n false) (y : Lg m false) (z : Lg k false)
    (hx : x.Clean) (hy : y.Clean) (hz : z.Clean) :
    ∃ u v, (x.concat y (by omega)).bind (fun w => w.concat z h64) = .ok u ∧
      (y.concat z (by omega)).bind (fun w => x.concat w (by omega)) = .ok v ∧ u.Clean ∧ v.Clean ∧
      (∀ i, i < n + m + k → u.at i = v.at i) ∧
      ∀ i, i < n + m + k → u.at i = if i < k then z.at i else if i < m + k then y.at (i - k) else x.at (i - (m + k)) := by
  obtain ⟨w, hw, cw, ew⟩ := C52_concat_logic_partial hn hm (by omega) (by omega) x y hx hy
  obtain ⟨u, hu, cu, eu⟩ := C52_concat_logic_partial (by omega) hk h64 (by omega) w z cw hz
  obtain ⟨w', hw', cw', ew'⟩ := C52_concat_logic_partial hm hk (by omega) (by omega) y z hy hz
  obtain ⟨v, hv, cv, ev⟩ := C52_concat_logic_partial hn (by omega) (by omega) (by omega) x w' hx cw'
  have e : ∀ i, i < n + m + k → u.at i = if i < k then z.at i else if i < m + k then y.at (i - k) else x.at (i - (m + k)) := by
    intro i hi
    rw [eu i hi]
    by_cases h : i < k
    · rw [if_pos h, if_pos h]
    · rw [if_neg h, if_neg h, ew _ (by omega)]
      by_cases h' : i < m + k
      · rw [if_pos (by omega), if_pos h']
      · rw [if_neg (by omega), if_neg h']
        congr 1; omega
  refine ⟨u, v, by rw [hw, res_bind_ok, hu], by rw [hw', res_bind_ok, hv], cu, cv, fun i hi => ?_, e⟩
  rw [e i hi, ev i (by omega)]
  by_cases h' : i < m + k
  · rw [if_pos h', ew' i h']
    by_cases h : i < k
    · rw [if_pos h, if_pos h']
    · rw [if_neg h, if_pos h']
  · rw [if_neg h', if_neg h', if_neg (by omega)]

/-- **C148, the parts of a concatenation are read back**, the same objects. Missing: a left operand of at most 32 bits with a larger total (`C52_truncated_refuted`). -/
theorem C148_parts_partial (hn : 0 < n) (hm : 0 < m) (h64 : n + m < 64) (hW : n + m ≤ 32 ∨ 32 < n)
    (x : Lg n false) (y : Lg m false) (hx : x.Clean) (hy : y.Clean) :
    (x.concat y h64).bind (fun z => z.sliceRt (Rng.down (n + m)) n ((n + m - 1 : Nat) : Int) (m : Int)) = .ok x ∧
    (x.concat y h64).bind (fun z => z.sliceRt (Rng.down (n + m)) m ((m - 1 : Nat) : Int) ((0 : Nat) : Int)) = .ok y := by
  obtain ⟨z, hz, -, ez⟩ := C52_concat_logic_partial hn hm h64 hW x y hx hy
  obtain ⟨u, hu, cu, eu⟩ := C51_slice_logic_partial (by omega) (by omega) z n (n + m - 1) m (by omega) (by omega) (by omega)
  obtain ⟨v, hv, cv, ev⟩ := C51_slice_logic_partial (by omega) (by omega) z m (m - 1) 0 (by omega) (by omega) (by omega)
  rw [hz, res_bind_ok, res_bind_ok]
  refine ⟨hu.trans (congrArg _ (Lg.clean_ext cu hx fun i hi => ?_)), hv.trans (congrArg _ (Lg.clean_ext cv hy fun i hi => ?_))⟩
  · rw [eu i hi, ez _ (by omega), if_neg (by omega)]
    congr 1; omega
  · rw [ev i hi, ez _ (by omega), if_pos (by omega)]
    congr 1; omega

/-- **C148, the two parts of a vector concatenate to it**, the same object. Missing: as above. -/
theorem C148_split_partial (hn : 0 < n) (hm : 0 < m) (h64 : n + m < 64) (hW : n + m ≤ 32 ∨ 32 < n)
    (z : Lg (n + m) false) (hz : z.Clean) :
    (z.sliceRt (Rng.down (n + m)) n ((n + m - 1 : Nat) : Int) (m : Int)).bind (fun x =>
      (z.sliceRt (Rng.down (n + m)) m ((m - 1 : Nat) : Int) ((0 : Nat) : Int)).bind fun y => x.concat y h64) = .ok z := by
  obtain ⟨u, hu, cu, eu⟩ := C51_slice_logic_partial (by omega) (by omega) z n (n + m - 1) m (by omega) (by omega) (by omega)
  obtain ⟨v, hv, cv, ev⟩ := C51_slice_logic_partial (by omega) (by omega) z m (m - 1) 0 (by omega) (by omega) (by omega)
  obtain ⟨w, hw, cw, ew⟩ := C52_concat_logic_partial hn hm h64 hW u v cu cv
  rw [hu, res_bind_ok]
  refine (congrArg (fun r => Except.bind r _) hv).trans ?_
  rw [res_bind_ok, hw]
  refine congrArg _ (Lg.clean_ext cw hz fun i hi => ?_)
  rw [ew i hi]
  by_cases h : i < m
  · rw [if_pos h, ev i h]
    congr 1; omega
  · rw [if_neg h, eu _ (by omega)]
    congr 1; omega

/-- **C148 is false beyond 32 bits**: for every three vectors with at most 32 bits in the first two, fewer than 32 in the third and 32 or more in the
last two, grouping to the left gives a value and grouping to the right is undefined behaviour (2-state). -/
theorem C148_refuted {k : Nat} (hn : 0 < n) (hm : 0 < m) (hk : 0 < k) (h64 : n + m + k < 64) (hnm : n + m ≤ 32) (hk32 : k < 32) (hmk : 32 ≤ m + k)
    (x : Bits n false) (y : Bits m false) (z : Bits k false) (hx : x.Clean) (hy : y.Clean) (hz : z.Clean) :
    (∃ u, (x.concat y (by omega)).bind (fun w => w.concat z h64) = .ok u) ∧
      (y.concat z (by omega)).bind (fun w => x.concat w (by omega)) = .error .shift := by
  obtain ⟨w, hw, cw, -⟩ := C52_concat_partial hn hm (by omega) (by omega) x y hx hy
  have h2 : ∃ w', y.concat z (by omega) = .ok w' := by
    by_cases h : m + k ≤ 32
    · obtain ⟨w', h', -⟩ := C52_concat_partial hm hk (by omega) (by omega) y z hy hz
      exact ⟨w', h'⟩
    · obtain ⟨w', h', -⟩ := C52_truncated_exact hk (by omega) (by omega) hk32 (by omega) y z hy hz
      exact ⟨w', h'⟩
  obtain ⟨w', hw'⟩ := h2
  constructor
  · obtain ⟨u, hu, -⟩ := C52_truncated_exact hk h64 hnm hk32 (by omega) w z cw hz
    exact ⟨u, by rw [hw, res_bind_ok, hu]⟩
  · rw [hw', res_bind_ok]
    exact C52_refuted.1 n (m + k) (by omega) x w' (by omega) hmk

/-- `{10, x, z01}` grouped either way. -/
example : (((Lg.mk (Bits.ofInt 2) (Bits.ofInt 0) : Lg 2 false).concat (Lg.mk (Bits.ofInt 0) (Bits.ofInt 1) : Lg 1 false) (by decide)).bind
      (fun w => w.concat (Lg.mk (Bits.ofInt 5) (Bits.ofInt 4) : Lg 3 false) (by decide))).map (fun z => (List.range 6).map z.at) =
      .ok [.b1, .b0, .z, .x, .b0, .b1] ∧
    (((Lg.mk (Bits.ofInt 0) (Bits.ofInt 1) : Lg 1 false).concat (Lg.mk (Bits.ofInt 5) (Bits.ofInt 4) : Lg 3 false) (by decide)).bind
      (fun w => (Lg.mk (Bits.ofInt 2) (Bits.ofInt 0) : Lg 2 false).concat w (by decide))).map (fun z => (List.range 6).map z.at) =
      .ok [.b1, .b0, .z, .x, .b0, .b1] := by
  decide +kernel

end Verif
