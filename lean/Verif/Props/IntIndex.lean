import Verif.Model.IntIndex
import Verif.Lemmas.CInt
import Verif.Lemmas.BitOps
import Verif.Show

/-!
# C187: index arithmetic in `int`

The positions of bits are computed in `int`. The theorems give, for every declared range
and every index, exactly when such a computation overflows, and show that the checked
functions are the unchecked ones of the other properties wherever it does not.
-/

namespace Verif

variable {n m : Nat} {s t : Bool}

theorem intRes_over {v : Int} (h : v < -2 ^ 31 ∨ 2 ^ 31 ≤ v) : intRes v = .error .overflow := by
  rw [intRes, if_neg]; omega

/-- **C187, reads.** Reading a bit of a descending range never overflows. Reading a bit of
an ascending range overflows exactly for the indices more than `2^31 - 1` below or more
than `2^31` above its right bound, and is otherwise the read without overflow checks. -/
theorem C187_get (r : Rng) (x : Bits n s) (idx : Int) :
    x.getI r idx =
      if r.msb < r.lsb ∧ (idx < r.lsb - (2 ^ 31 - 1) ∨ r.lsb + 2 ^ 31 < idx) then .error .overflow
      else x.get r idx := by
  rw [Bits.getI, Bits.physI]
  by_cases hb : r.msb < r.lsb
  · have e : r.bigEndian = false := by rw [Rng.bigEndian, decide_eq_false_iff_not]; omega
    rw [e, if_neg (by decide)]
    by_cases ho : idx < r.lsb - (2 ^ 31 - 1) ∨ r.lsb + 2 ^ 31 < idx
    · rw [if_pos ⟨hb, ho⟩, intRes_over (by omega)]; rfl
    · rw [if_neg (by tauto), intRes_ok (by omega) (by omega)]; rfl
  · have e : r.bigEndian = true := by rw [Rng.bigEndian, decide_eq_true_iff]; omega
    rw [e, if_pos rfl, if_neg (by tauto)]; rfl

theorem Bits.posI_eq (r : Rng) (idx : Int) :
    Bits.posI r idx =
      if (r.lsb ≤ r.msb ∧ -2 ^ 31 ≤ idx - r.lsb ∧ idx - r.lsb < 2 ^ 31) ∨
        (r.msb < r.lsb ∧ -2 ^ 31 ≤ r.lsb - idx ∧ r.lsb - idx < 2 ^ 31 ∧
          -2 ^ 31 ≤ r.lsb - idx - r.msb ∧ r.lsb - idx - r.msb < 2 ^ 31) then
        .ok (Bits.physIdx r idx - r.lo)
      else .error .overflow := by
  rw [Bits.posI, Bits.physI, Bits.physIdx]
  by_cases hb : r.msb < r.lsb
  · have e : r.bigEndian = false := by rw [Rng.bigEndian, decide_eq_false_iff_not]; omega
    have l : r.lo = r.msb := by rw [Rng.lo]; omega
    simp only [e, l, Bool.false_eq_true, if_false]
    by_cases h1 : -2 ^ 31 ≤ r.lsb - idx ∧ r.lsb - idx < 2 ^ 31
    · rw [intRes_ok h1.1 h1.2]
      change intRes _ = _
      rw [intRes]
      congr 1
      apply propext
      omega
    · rw [intRes_over (by omega), if_neg (by omega)]; rfl
  · have e : r.bigEndian = true := by rw [Rng.bigEndian, decide_eq_true_iff]; omega
    have l : r.lo = r.lsb := by rw [Rng.lo]; omega
    rw [e, l, if_pos rfl, if_pos rfl]
    change intRes _ = _
    rw [intRes]
    congr 1
    apply propext
    omega

/-- **C187, writes.** Writing a bit subtracts the low bound from the position in `int`: the
write of a `bool`, of a one-bit `bit` and of a one-bit `logic` overflows exactly if one of
the two `int` values `lsb - idx` (ascending ranges) and position minus low bound leaves the
type, and is otherwise the write without checks. -/
theorem C187_set (r : Rng) (x : Bits n s) (y : Lg n s) (idx : Int) (v : Bool) (l : Lg 1 t) :
    if (r.lsb ≤ r.msb ∧ -2 ^ 31 ≤ idx - r.lsb ∧ idx - r.lsb < 2 ^ 31) ∨
        (r.msb < r.lsb ∧ -2 ^ 31 ≤ r.lsb - idx ∧ r.lsb - idx < 2 ^ 31 ∧
          -2 ^ 31 ≤ r.lsb - idx - r.msb ∧ r.lsb - idx - r.msb < 2 ^ 31) then
      x.setI r idx v = x.set r idx v ∧ x.setBitI r idx v = x.setBit r idx v ∧
        y.setLI r idx l = y.setL r idx l
    else x.setI r idx v = .error .overflow ∧ x.setBitI r idx v = .error .overflow ∧
      y.setLI r idx l = .error .overflow := by
  rw [Bits.setI, Bits.setBitI, Lg.setLI, Bits.posI_eq]
  split_ifs <;> exact ⟨rfl, rfl, rfl⟩

theorem Bits.posI_mem (r : Rng) (h0 : 0 ≤ r.lo) (h1 : r.hi < 2 ^ 31) (idx : Int) (ha : r.lo ≤ idx)
    (hb : idx ≤ r.hi) : ∃ p, Bits.posI r idx = .ok p := by
  refine ⟨_, (Bits.posI_eq r idx).trans (if_pos ?_)⟩
  simp only [Rng.lo, Rng.hi] at *
  omega

theorem Bits.physI_mem (r : Rng) (h0 : 0 ≤ r.lo) (h1 : r.hi < 2 ^ 31) (idx : Int) (ha : 0 ≤ idx)
    (hb : idx < 2 ^ 31) : ∃ p, Bits.physI r idx = .ok p := by
  rw [Bits.physI]
  simp only [Rng.lo, Rng.hi] at *
  split_ifs
  · exact ⟨_, rfl⟩
  · exact ⟨_, intRes_ok (by omega) (by omega)⟩

/-- **C187, indices of the range.** For every range whose bounds are nonnegative `int`
values, no read or write at an index of the range overflows: the checked accesses of `bit`
and `logic` are the unchecked ones. A `logic` read compares the bounds first, so it never
overflows at all. -/
theorem C187_in_range (r : Rng) (h0 : 0 ≤ r.lo) (h1 : r.hi < 2 ^ 31) (x : Bits n s) (y : Lg n s)
    (l : Lg 1 t) (v : Bool) (idx : Int) (ha : r.lo ≤ idx) (hb : idx ≤ r.hi) :
    x.getI r idx = x.get r idx ∧ x.setI r idx v = x.set r idx v ∧
      x.setBitI r idx v = x.setBit r idx v ∧ y.setLI r idx l = y.setL r idx l ∧
      ∀ j, y.getI r j = y.get r j := by
  obtain ⟨p, hp⟩ := Bits.posI_mem r h0 h1 idx ha hb
  obtain ⟨q, hq⟩ := Bits.physI_mem r h0 h1 idx (by omega) (by omega)
  refine ⟨by rw [Bits.getI, hq]; rfl, by rw [Bits.setI, hp]; rfl, by rw [Bits.setBitI, hp]; rfl,
    by rw [Lg.setLI, hp]; rfl, ?_⟩
  intro j
  rw [Lg.getI]
  split_ifs with c
  · obtain ⟨q, hq⟩ := Bits.physI_mem r h0 h1 j (by omega) (by omega)
    rw [hq]
    rw [Lg.get, if_pos c]
    cases (Lg.dflt : Res (Lg 1 false)) <;> rfl
  · rw [Lg.get, if_neg c]

/-- **C187, run-time slices.** A wide slice makes no `int` computation. A native slice
overflows exactly if an end minus the low bound leaves `int`, and is otherwise the slice
without checks. -/
theorem C187_slice (r : Rng) (x : Bits n s) (k : Nat) (a b : Int) :
    x.sliceRtI r k a b =
      if n ≤ 64 ∧ (min a b < r.lo - 2 ^ 31 ∨ r.lo + (2 ^ 31 - 1) < max a b) then .error .overflow
      else x.sliceRt r k a b := by
  rw [Bits.sliceRtI]
  by_cases h : n ≤ 64
  · rw [if_pos h]
    by_cases h1 : -2 ^ 31 ≤ max a b - r.lo ∧ max a b - r.lo < 2 ^ 31
    · rw [intRes_ok h1.1 h1.2, res_bind_ok]
      by_cases h2 : -2 ^ 31 ≤ min a b - r.lo
      · rw [intRes_ok h2 (by omega), if_neg (by omega)]; rfl
      · rw [intRes_over (by omega), if_pos (by omega)]; rfl
    · rw [intRes_over (by omega), if_pos (by omega)]; rfl
  · rw [if_neg h, if_neg (by tauto)]

theorem loopM_congr' {σ : Type} (b : Nat) (st : σ) (f g : Nat → σ → Res σ)
    (h : ∀ i s, i < b → f i s = g i s) : loopM 0 b st f = loopM 0 b st g := by
  induction b with
  | zero => rw [loopM_zero _ _ _ _ (le_refl _), loopM_zero _ _ _ _ (le_refl _)]
  | succ b ih =>
    have e := ih fun i s hi => h i s (by omega)
    have a1 := loopM_succ 0 b st f
    have a2 := loopM_succ 0 b st g
    rw [Nat.zero_add, Nat.zero_add] at a1 a2
    rw [a1, a2, e]
    congr 1
    funext s
    exact h b s (by omega)

theorem convU_sub (a b : Int) : tU64.conv (tU64.conv a - tU64.conv b) = tU64.conv (a - b) := by
  simp only [CTy.conv]; omega

/-- **C187, run-time slice assignment of `bit`.** For ranges with nonnegative `int` bounds
and a destination `hi`, `lo` in the range with `hi + lo < 2^31` and neither end equal to
the largest `int`, the assignment makes no overflowing computation and is the unchecked
one. -/
theorem C187_update (r ro : Rng) (h0 : 0 ≤ r.lo) (h1 : r.hi < 2 ^ 31) (g0 : 0 ≤ ro.lo)
    (g1 : ro.hi < 2 ^ 31) (x : Bits n s) (op : Bits m t) (hi lo : Int)
    (ha : r.lo ≤ min hi lo) (hb : max hi lo ≤ r.hi) (hm : max hi lo < 2 ^ 31 - 1)
    (hs : hi + lo < 2 ^ 31) :
    x.updateRtI r hi lo ro op = x.updateRt r hi lo ro op := by
  rw [Bits.updateRtI, Bits.updateRt]
  simp only []
  rw [intRes_ok (by omega) (by omega)]
  change loopM _ _ _ _ = _
  apply loopM_congr'
  intro k y hk
  obtain ⟨p, hp⟩ := Bits.posI_mem r h0 h1 (min hi lo + k) (by omega) (by omega)
  have e1 : Bits.opIdxI r ro (min hi lo + k) =
      .ok (if ro.bigEndian ^^ r.bigEndian then ro.hi - (min hi lo + k) else min hi lo + k) := by
    rw [Bits.opIdxI]
    have : 0 ≤ ro.hi := by simp only [Rng.lo, Rng.hi] at *; omega
    split_ifs
    · exact intRes_ok (by omega) (by omega)
    · rfl
  rw [e1, res_bind_ok, convU_sub]
  have e2 : ∀ d : Int, -2 ^ 31 ≤ d → d < 2 ^ 31 → tInt.conv (tU64.conv d) = d := by
    intro d h1 h2
    simp only [CTy.conv, Int.bmod]
    omega
  have hn : 0 ≤ ro.hi := by simp only [Rng.lo, Rng.hi] at *; omega
  rw [e2 _ (by split_ifs <;> omega) (by split_ifs <;> omega), C187_get, if_neg]
  · congr 1
    funext b
    rw [Bits.setBitI, hp]; rfl
  · cases hd : ro.bigEndian <;> cases hr : r.bigEndian <;>
      simp only [Rng.bigEndian, Rng.hi, Rng.lo, decide_eq_true_eq, decide_eq_false_iff_not] at * <;>
      simp <;> omega

/-- **C187, run-time slice assignment of `logic`.** For ranges with nonnegative `int`
bounds and every destination in the range not ending at the largest `int`, the assignment
makes no overflowing computation and is the unchecked one. -/
theorem C187_update_logic (r ro : Rng) (h0 : 0 ≤ r.lo) (h1 : r.hi < 2 ^ 31) (g0 : 0 ≤ ro.lo)
    (g1 : ro.hi < 2 ^ 31) (x : Lg n s) (op : Lg m t) (hi lo : Int)
    (ha : r.lo ≤ min hi lo) (hb : max hi lo ≤ r.hi) (hm : max hi lo < 2 ^ 31 - 1) :
    x.updateRtI r hi lo ro op = x.updateRt r hi lo ro op := by
  rw [Lg.updateRtI, Lg.updateRt]
  have m1 : min (min hi lo) (max hi lo) = min hi lo := by omega
  have m2 : max (min hi lo) (max hi lo) = max hi lo := by omega
  rw [intRes_ok (by omega) (by omega), m1, m2]
  change loopM _ _ _ _ = _
  apply loopM_congr'
  intro k y hk
  obtain ⟨p, hp⟩ := Bits.posI_mem r h0 h1 (min hi lo + k) (by omega) (by omega)
  have hn : 0 ≤ ro.hi := by simp only [Rng.lo, Rng.hi] at *; omega
  have hg := fun j => (C187_in_range (s := t) ro g0 g1 Bits.zero op (t := t) ⟨Bits.zero, Bits.zero⟩ false ro.lo (le_refl _)
    (by simp only [Rng.lo, Rng.hi]; omega)).2.2.2.2 j
  have e1 : Bits.opIdxI r ro (min hi lo + k) =
      .ok (if ro.bigEndian ^^ r.bigEndian then ro.hi - (min hi lo + k) else min hi lo + k) := by
    rw [Bits.opIdxI]
    split_ifs
    · exact intRes_ok (by omega) (by omega)
    · rfl
  rw [Lg.updateStepI, Lg.updateStep, e1, res_bind_ok]
  simp only [convU_sub, hg, Lg.setLI, hp]
  rfl

/-- **C187 fails at the largest `int`.** A run-time slice assignment whose upper end is
`2^31 - 1` computes `2^31` in `int`: it overflows for every vector, range and operand,
also where the range contains that index. -/
theorem C187_top_refuted (r ro : Rng) (x : Bits n s) (y : Lg n s) (op : Bits m t) (oq : Lg m t)
    (hi lo : Int) (hm : max hi lo = 2 ^ 31 - 1) :
    x.updateRtI r hi lo ro op = .error .overflow ∧ y.updateRtI r hi lo ro oq = .error .overflow := by
  rw [Bits.updateRtI, Lg.updateRtI]
  simp only []
  rw [intRes_over (by omega)]
  exact ⟨rfl, rfl⟩

/-- **C187, unpacked arrays.** For every range of at most `2^31` elements and every index: the
read overflows if the index less the low bound leaves `int`; otherwise it gives the element
named by the index, and the default element for an index outside the range. -/
theorem C187_unpacked {α : Type} {r : Rng} (hs : r.size ≤ 2 ^ 31) (d : α) (x : UArr α r) (idx : Int) :
    x.getI d idx =
      if idx < r.lo - 2 ^ 31 ∨ r.lo + (2 ^ 31 - 1) < idx then .error .overflow
      else .ok (if r.lo ≤ idx ∧ idx ≤ r.hi then x.vals.getD (idx - r.lo).toNat d else d) := by
  rw [UArr.getI]
  by_cases h : idx < r.lo - 2 ^ 31 ∨ r.lo + (2 ^ 31 - 1) < idx
  · rw [if_pos h, intRes_over (by omega)]; rfl
  · rw [if_neg h, intRes_ok (by omega) (by omega)]
    change Except.ok (x.get d idx) = _
    have hr : r.hi = r.lo + ((r.size : Int) - 1) := by simp only [Rng.hi, Rng.lo, Rng.size]; omega
    rw [UArr.get]
    by_cases c : r.lo ≤ idx ∧ idx ≤ r.hi
    · have e : (tU32.conv (idx - r.lo)).toNat = (idx - r.lo).toNat := by simp only [CTy.conv]; omega
      rw [e, if_neg (by omega), if_pos c]
    · have e : r.size ≤ (tU32.conv (idx - r.lo)).toNat := by simp only [CTy.conv]; omega
      rw [if_pos e, if_neg c]

-- an ascending range, a range far from zero, and the largest `int`
example : (Bits.ofInt 0b1010 : Bits 8 false).getI ⟨0, 7⟩ 0 = .ok false ∧
    (Bits.ofInt 0b1010 : Bits 8 false).getI ⟨0, 7⟩ 6 = .ok true ∧
    (Bits.ofInt 0b1010 : Bits 8 false).getI ⟨0, 7⟩ (-2 ^ 31) = .error .overflow ∧
    (Bits.ofInt 0b1010 : Bits 8 false).getI ⟨7, 0⟩ (-2 ^ 31) = .error .shift ∧
    (Bits.ofInt 0 : Bits 8 false).setI ⟨2 ^ 31 - 1, 2 ^ 31 - 8⟩ (2 ^ 31 - 1) true = .ok (.ofInt 128) ∧
    (Bits.ofInt 0 : Bits 8 false).updateRtI ⟨2 ^ 31 - 1, 2 ^ 31 - 8⟩ (2 ^ 31 - 1) (2 ^ 31 - 2) ⟨1, 0⟩
      (.ofInt 3 : Bits 2 false) = .error .overflow ∧
    (Bits.ofInt 0 : Bits 8 false).updateRtI ⟨7, 0⟩ 5 3 ⟨2, 0⟩
      (.ofInt 5 : Bits 3 false) = .ok (.ofInt 40) ∧
    (⟨[10, 11, 12], rfl⟩ : UArr Nat ⟨5, 7⟩).getI 0 6 = .ok 11 ∧
    (⟨[10, 11, 12], rfl⟩ : UArr Nat ⟨5, 7⟩).getI 0 4 = .ok 0 ∧
    (⟨[10, 11, 12], rfl⟩ : UArr Nat ⟨5, 7⟩).getI 0 (-2 ^ 31) = .error .overflow := by decide +kernel

end Verif
