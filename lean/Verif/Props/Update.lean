import Verif.Lemmas.Update
import Verif.Lemmas.OfBV
import Verif.Props.Extend

/-!
# Slice assignment (C55 - C57)
-/

namespace Verif

variable {n m : Nat} {s t : Bool}

/-! ## C55 -/

theorem Rng.down_lo' (n : Nat) (hn : 0 < n) : (Rng.down n).lo = 0 ∧ (Rng.down n).hi = n - 1 ∧
    (Rng.down n).bigEndian = true ∧ (Rng.down n).size = n :=
  ⟨Rng.lo_down hn, Rng.hi_down hn, Rng.bigEndian_down hn, Rng.size_down hn⟩

/-- **C55 for any two ranges with low bound 0 and the same direction**, in terms of the
declared indices: index `lo + k` of the target receives operand index `k`, or 0 when
the operand has no such index; all other stored bits are unchanged. The operand must
have no x or z at an index from 64 on. Missing: such operands (`C55_fault`), operands of the other
direction (`C55_direction_refuted`) and other low bounds (`C55_exact`). -/
theorem C55_update_range_partial (r ro : Rng) (x : Lg r.size s) (op : Lg ro.size t)
    (he : r.bigEndian = ro.bigEndian)
    (hr : r.lo = 0) (ho : ro.lo = 0) (hR : r.hi < 2 ^ 31) (hM : ro.hi < 2 ^ 31) (a b : Int)
    (ha : 0 ≤ a ∧ a ≤ r.hi) (hb : 0 ≤ b ∧ b ≤ r.hi)
    (hk : ∀ k : Nat, (k : Int) ≤ max a b - min a b → (k : Int) ≤ ro.hi →
      k < 64 ∨ (op.at (ro.pos k)).isKnown = true) :
    ∃ y, x.update r a b ro op = .ok y ∧
      (∀ i, r.lo ≤ i → i ≤ r.hi → y.at (r.pos i) =
        if min a b ≤ i ∧ i ≤ max a b then
          (if i - min a b ≤ ro.hi then op.at (ro.pos (i - min a b)) else .b0)
        else x.at (r.pos i)) ∧
      (s = false → x.Clean → y.Clean) := by
  obtain ⟨y, hy, h1, h2⟩ := Lg.update_ok r ro x op he hr ho hR hM ha hb hk
  have hs := Lg.size_hi hr
  refine ⟨y, hy, fun i hi0 hi1 => ?_, ?_⟩
  · by_cases hin : min a b ≤ i ∧ i ≤ max a b
    · obtain ⟨k, hk'⟩ : ∃ k : Nat, i = min a b + k := ⟨(i - min a b).toNat, by omega⟩
      have := h1 k (by omega)
      rw [if_pos hin, hk', this, Lg.src, show min a b + (k : Int) - min a b = k by omega]
    · have hps : r.pos i < r.size := Rng.pos_lt hi0 hi1
      obtain ⟨hv, hx⟩ := h2 (r.pos i) fun k hk' e => by
        have := Rng.pos_inj (r := r) hi0 hi1 (by omega) (by omega) e
        omega
      rw [if_neg hin, Lg.at_of_raw hps, Lg.at_of_raw hps, hv, hx]
  · intro hs0 hc
    subst hs0
    rw [Lg.Clean, Bits.clean_unsigned_iff, Bits.clean_unsigned_iff] at hc ⊢
    have hout : ∀ j, r.size ≤ j → ∀ k : Nat, (k : Int) ≤ max a b - min a b → j ≠ r.pos (min a b + k) := by
      intro j hj k hk' e
      have := Rng.pos_lt (r := r) (i := min a b + k) (by omega) (by omega)
      omega
    exact ⟨fun j hj => by rw [(h2 j (hout j hj)).1]; exact hc.1 j hj,
      fun j hj => by rw [(h2 j (hout j hj)).2]; exact hc.2 j hj⟩

/-- **C55.** `l.update<a, b>(v)` on `[n-1:0]` and `[m-1:0]` values: bit `lo + j`
becomes bit `j` of `v`, 0 when `v` is too short; the rest is unchanged. The operand
must have no x or z at an index from 64 on that is read. Missing: such operands, for which the
update is undefined (`C55_fault`); other ranges are `C55_exact`. -/
theorem C55_update_partial (hn : 0 < n) (hm : 0 < m) (hN : n ≤ 2 ^ 31) (hM : m ≤ 2 ^ 31) (x : Lg n s) (op : Lg m t)
    (a b : Nat) (ha : a < n) (hb : b < n)
    (hk : ∀ k, k ≤ max a b - min a b → 64 ≤ k → k < m → (op.at k).isKnown = true) :
    ∃ y, x.update (Rng.down n) a b (Rng.down m) op = .ok y ∧
      (∀ i, i < n → y.at i =
        if min a b ≤ i ∧ i ≤ max a b then (if i - min a b < m then op.at (i - min a b) else .b0)
        else x.at i) ∧
      (s = false → x.Clean → y.Clean) := by
  obtain ⟨l1, l2, l3, l4⟩ := Rng.down_lo' n hn
  obtain ⟨k1, k2, k3, k4⟩ := Rng.down_lo' m hm
  have key := C55_update_range_partial (s := s) (t := t) (Rng.down n) (Rng.down m)
  rw [l4, k4] at key
  obtain ⟨y, hy, h1, h2⟩ := key x op (by rw [l3, k3]) l1 k1 (by omega) (by omega) a b (by omega) (by omega)
    (fun k hk1 hk2 => by
      rw [Rng.pos_down hm]
      by_cases h : k < 64
      · exact Or.inl h
      · exact Or.inr (hk k (by omega) (by omega) (by omega)))
  refine ⟨y, hy, fun i hi => ?_, h2⟩
  have := h1 i (by omega) (by omega)
  rw [Rng.pos_down hn] at this
  rw [this]
  by_cases hin : min a b ≤ i ∧ i ≤ max a b
  · rw [if_pos (by omega), if_pos hin]
    by_cases hin2 : i - min a b < m
    · rw [if_pos (by omega), if_pos hin2, show ((i : Int) - min (a : Int) b) = ((i - min a b : Nat) : Int) by omega,
        Rng.pos_down hm]
    · rw [if_neg (by omega), if_neg hin2]
  · rw [if_neg (by omega), if_neg hin]

/-- **C55, the excluded case**: an x or z of the operand at an index from 64 on that is
read makes the update undefined behaviour. -/
theorem C55_fault (hn : 0 < n) (hm : 0 < m) (hN : n ≤ 2 ^ 31) (hM : m ≤ 2 ^ 31) (x : Lg n s) (op : Lg m t)
    (a b : Nat) (ha : a < n) (hb : b < n) (k : Nat) (hk : k ≤ max a b - min a b) (h64 : 64 ≤ k) (hkm : k < m)
    (hu : (op.at k).isKnown = false) :
    x.update (Rng.down n) a b (Rng.down m) op = .error .shift := by
  obtain ⟨l1, l2, l3, l4⟩ := Rng.down_lo' n hn
  obtain ⟨k1, k2, k3, k4⟩ := Rng.down_lo' m hm
  have key := Lg.update_fault (s := s) (t := t) (Rng.down n) (Rng.down m)
  rw [l4, k4] at key
  apply key x op (by rw [l3, k3]) l1 k1 (by omega) (by omega) (by omega) (by omega) (k := k) (by omega) (by omega)
  rw [Rng.pos_down hm, hu]
  simp; omega

example : ∃ (x : Lg 8 false) (op : Lg 3 false), op.at 1 = .z ∧
    (x.update (Rng.down 8) 7 4 (Rng.down 3) op).map (fun y => (List.range 8).map y.at) =
    .ok [.b0, .b1, .b0, .b1, .b1, .z, .b0, .b0] :=
  ⟨⟨Bits.ofInt 0xfa, Bits.zero⟩, ⟨.nat (by decide) 3, .nat (by decide) 2⟩, by decide +kernel⟩

/-- **C55 is false of the code**: updating a 100-bit value with a 100-bit all-x value
is undefined behaviour, for every value; and an operand declared in the other
direction loses its bits when the low bound is not 0: writing the ascending 4-bit
1111 to `[7:4]` of zero stores 0000. -/
theorem C55_refuted :
    (∀ (x op : Lg 100 false), (∀ i, i < 100 → op.at i = .x) →
      x.update (Rng.down 100) 99 0 (Rng.down 100) op = .error .shift) ∧
    ((Lg.ofInt 0 : Lg 8 false).update (Rng.down 8) 7 4 (Rng.up 4) (Lg.ofInt 15 : Lg 4 false)).map
      (fun y => (List.range 8).map y.at) = .ok (List.replicate 8 .b0) := by
  refine ⟨fun x op h => ?_, by decide +kernel⟩
  exact C55_fault (by decide) (by decide) (by decide) (by decide) x op 99 0 (by decide) (by decide) 64
    (by decide) (by decide) (by decide) (by rw [h 64 (by decide)]; rfl)

/-! ## C56 -/

/-- **C56.** The run-time update is the constant one: for all ranges, bounds and values. -/
theorem C56_update_rt (r ro : Rng) (x : Lg n s) (a b : Int) (op : Lg m t) :
    x.updateRt r a b ro op = x.update r a b ro op := by
  have h1 : min (min a b) (max a b) = min a b := by omega
  have h2 : max (min a b) (max a b) = max a b := by omega
  simp only [Lg.updateRt, Lg.update, h1, h2]

/-- **C56, both orders of the bounds** do the same. -/
theorem C56_update_swap (r ro : Rng) (x : Lg n s) (a b : Int) (op : Lg m t) :
    x.updateRt r a b ro op = x.updateRt r b a ro op := by
  simp only [Lg.updateRt, min_comm a b, max_comm a b]

/-- **C56, in bits** -/
theorem C56_update_rt_bits (hn : 0 < n) (hm : 0 < m) (hN : n ≤ 2 ^ 31) (hM : m ≤ 2 ^ 31) (x : Lg n s) (op : Lg m t)
    (a b : Nat) (ha : a < n) (hb : b < n)
    (hk : ∀ k, k ≤ max a b - min a b → 64 ≤ k → k < m → (op.at k).isKnown = true) :
    ∃ y, x.updateRt (Rng.down n) a b (Rng.down m) op = .ok y ∧
      (∀ i, i < n → y.at i =
        if min a b ≤ i ∧ i ≤ max a b then (if i - min a b < m then op.at (i - min a b) else .b0)
        else x.at i) := by
  obtain ⟨y, h1, h2, -⟩ := C55_update_partial hn hm hN hM x op a b ha hb hk
  exact ⟨y, by rw [C56_update_rt, h1], h2⟩

example : ((Lg.ofInt 0 : Lg 8 false).updateRt (Rng.down 8) 2 5 (Rng.down 4) (Lg.ofInt 0b1011 : Lg 4 false)).map
    (fun y => (List.range 8).map y.at) = .ok [.b0, .b0, .b1, .b1, .b0, .b1, .b0, .b0] := by decide +kernel

/-! ## C57 -/

theorem Bits.update_bits {n m : Nat} (hn : 0 < n) (hm : 0 < m) {x y : Bits n s} {op : Bits m t} {a b c : Nat}
    (ha : a < n) (hb : b < n) (hc : c ≤ n)
    (h1 : ∀ k : Nat, k < max a b - min a b + 1 → y.raw ((Rng.down n).pos ((min a b : Nat) + (k : Int))) =
      Bits.src (Rng.down m) op ((c : Int) + k))
    (h2 : ∀ j, (∀ k : Nat, k < max a b - min a b + 1 → j ≠ (Rng.down n).pos ((min a b : Nat) + (k : Int))) →
      y.raw j = x.raw j) :
    (∀ i, i < n → y.bv.getLsbD i =
        if min a b ≤ i ∧ i ≤ max a b then op.bv.getLsbD (c + (i - min a b)) else x.bv.getLsbD i) ∧
      (s = false → x.Clean → y.Clean) := by
  obtain ⟨k1, k2, k3, k4⟩ := Rng.down_lo' m hm
  have hpos : ∀ k : Nat, (Rng.down n).pos ((min a b : Nat) + (k : Int)) = min a b + k := fun k => by
    rw [show ((min a b : Nat) + (k : Int) : Int) = ((min a b + k : Nat) : Int) by omega, Rng.pos_down hn]
  refine ⟨fun i hi => ?_, ?_⟩
  · rw [Bits.getLsbD_bv y]
    by_cases hin : min a b ≤ i ∧ i ≤ max a b
    · have := h1 (i - min a b) (by omega)
      rw [hpos, show min a b + (i - min a b) = i by omega, Bits.src,
        show (c : Int) + ((i - min a b : Nat) : Int) = ((c + (i - min a b) : Nat) : Int) by omega,
        Rng.pos_down hm] at this
      rw [if_pos hin, this, k2]
      by_cases hcm : c + (i - min a b) < m
      · have e : ((c + (i - min a b) : Nat) : Int) ≤ (m : Int) - 1 := by omega
        rw [decide_eq_true e]; simp [hi]
      · have e : ¬ ((c + (i - min a b) : Nat) : Int) ≤ (m : Int) - 1 := by omega
        rw [decide_eq_false e, BitVec.getLsbD_of_ge _ _ (by omega)]; simp
    · rw [if_neg hin, Bits.getLsbD_bv x, h2 i fun k hk e => by rw [hpos] at e; omega]
  · intro hs hc
    subst hs
    rw [Bits.clean_unsigned_iff] at hc ⊢
    intro i hi
    rw [h2 i fun k hk e => by rw [hpos] at e; omega]
    exact hc i hi

/-- **C57, run-time bounds.** `b.update(hi, lo, v)` on `[n-1:0]` values: bit `lo + j`
becomes bit `j` of `v` (0 past its end if `v` is wider than 64 bits); the rest is
unchanged. A native operand must be as long as the slice. Missing: shorter native operands
(`C57_rt_native_exact`) and operands of the other direction (`C57_direction_exact`). -/
theorem C57_update_rt_partial (hn : 0 < n) (hm : 0 < m) (hN : n ≤ 2 ^ 31) (hM : m ≤ 2 ^ 31) (x : Bits n s)
    (op : Bits m t) (a b : Nat) (ha : a < n) (hb : b < n) (hk : max a b - min a b < m ∨ 64 < m) :
    ∃ y, x.updateRt (Rng.down n) a b (Rng.down m) op = .ok y ∧
      (∀ i, i < n → y.bv.getLsbD i =
        if min a b ≤ i ∧ i ≤ max a b then op.bv.getLsbD (i - min a b) else x.bv.getLsbD i) ∧
      (s = false → x.Clean → y.Clean) := by
  obtain ⟨l1, l2, l3, l4⟩ := Rng.down_lo' n hn
  obtain ⟨k1, k2, k3, k4⟩ := Rng.down_lo' m hm
  have key := Bits.update_loop (s := s) (t := t) (Rng.down n) (Rng.down m)
  rw [l4, k4] at key
  obtain ⟨y, hy, h1, h2⟩ := key x op l1 k1 (by omega) (by omega) (min a b : Nat) (0 : Nat) (max a b - min a b + 1)
    (by omega) (by omega) (by omega) (by omega) (by omega)
  refine ⟨y, ?_, ?_⟩
  · rw [Bits.updateRt, l3, k3, ← hy]
    simp only [Bool.xor_self, Bool.false_eq_true, if_false]
    rw [show (max (a : Int) b + 1 - min (a : Int) b).toNat = max a b - min a b + 1 by omega]
    congr 1
    funext k z
    rw [show min (a : Int) b + (k : Int) - min (a : Int) b = ((0 : Nat) : Int) + k by omega,
      show min (a : Int) b = ((min a b : Nat) : Int) by omega]
  · have := Bits.update_bits hn hm (c := 0) ha hb (by omega) h1 h2
    simpa using this

/-- **C57, constant bounds, exact**: the operand is read at the *target* index, so bit
`i` of the slice becomes bit `i` of `v`, not bit `i - lo`. -/
theorem C57_update_exact (hn : 0 < n) (hm : 0 < m) (hN : n ≤ 2 ^ 31) (hM : m ≤ 2 ^ 31) (x : Bits n s)
    (op : Bits m t) (a b : Nat) (ha : a < n) (hb : b < n) (hk : max a b < m ∨ 64 < m) :
    ∃ y, x.update (Rng.down n) a b (Rng.down m) op = .ok y ∧
      (∀ i, i < n → y.bv.getLsbD i =
        if min a b ≤ i ∧ i ≤ max a b then op.bv.getLsbD i else x.bv.getLsbD i) ∧
      (s = false → x.Clean → y.Clean) := by
  obtain ⟨l1, l2, l3, l4⟩ := Rng.down_lo' n hn
  obtain ⟨k1, k2, k3, k4⟩ := Rng.down_lo' m hm
  have key := Bits.update_loop (s := s) (t := t) (Rng.down n) (Rng.down m)
  rw [l4, k4] at key
  obtain ⟨y, hy, h1, h2⟩ := key x op l1 k1 (by omega) (by omega) (min a b : Nat) (min a b : Nat)
    (max a b - min a b + 1) (by omega) (by omega) (by omega) (by omega) (by omega)
  refine ⟨y, ?_, ?_⟩
  · rw [Bits.update, l3, k3, ← hy]
    simp only [Bool.xor_self, Bool.false_eq_true, if_false]
    rw [show (max (a : Int) b + 1 - min (a : Int) b).toNat = max a b - min a b + 1 by omega]
    congr 1
    funext k z
    rw [show min (a : Int) b = ((min a b : Nat) : Int) by omega]
  · obtain ⟨e1, e2⟩ := Bits.update_bits hn hm (c := min a b) ha hb (by omega) h1 h2
    refine ⟨fun i hi => ?_, e2⟩
    rw [e1 i hi]
    by_cases hin : min a b ≤ i ∧ i ≤ max a b
    · rw [if_pos hin, if_pos hin, show min a b + (i - min a b) = i by omega]
    · rw [if_neg hin, if_neg hin]

/-- **C57, constant bounds with low bound 0**: correct. Missing: other low bounds of the slice, for
which it is false (`C57_update_exact`, `C57_native_refuted`), and shorter native operands
(`C57_native_exact`). -/
theorem C57_update_partial (hn : 0 < n) (hm : 0 < m) (hN : n ≤ 2 ^ 31) (hM : m ≤ 2 ^ 31) (x : Bits n s)
    (op : Bits m t) (a : Nat) (ha : a < n) (hk : a < m ∨ 64 < m) :
    ∃ y, x.update (Rng.down n) a (0 : Nat) (Rng.down m) op = .ok y ∧
      (∀ i, i < n → y.bv.getLsbD i = if i ≤ a then op.bv.getLsbD i else x.bv.getLsbD i) ∧
      (s = false → x.Clean → y.Clean) := by
  obtain ⟨y, h1, h2, h3⟩ := C57_update_exact hn hm hN hM x op a 0 ha hn (by omega)
  refine ⟨y, h1, fun i hi => ?_, h3⟩
  rw [h2 i hi]
  by_cases h : i ≤ a
  · rw [if_pos (by omega), if_pos h]
  · rw [if_neg (by omega), if_neg h]

example : ((Bits.ofInt 0 : Bits 8 false).updateRt (Rng.down 8) 5 2 (Rng.down 4) (Bits.ofInt 0b1011 : Bits 4 false)).map
    (·.bv) = .ok 0b00101100#8 := by decide +kernel

/-- **C57 is false of the code.**
1. `update<hi, lo>` with `lo > 0` stores the wrong bits: for every wide operand whose
   bit `lo` differs from its bit 0, bit `lo` of the result is not bit 0 of the operand.
2. Writing the 4-bit 1111 to `[7:4]` of an 8-bit zero leaves it zero.
3. A native operand read past its holder is undefined behaviour: a 33-bit update of a
   64-bit value with an 8-bit operand. -/
theorem C57_refuted :
    (∀ (n m : Nat) (x : Bits n false) (op : Bits m false) (a b : Nat), n ≤ 2 ^ 31 → m ≤ 2 ^ 31 → 64 < m →
      b < a → a < n → op.bv.getLsbD b ≠ op.bv.getLsbD 0 →
      ∃ y, x.update (Rng.down n) a b (Rng.down m) op = .ok y ∧ y.bv.getLsbD b ≠ op.bv.getLsbD 0) ∧
    (((Bits.ofInt 0 : Bits 8 false).update (Rng.down 8) 7 4 (Rng.down 4) (Bits.ofInt 15 : Bits 4 false)).map
      (·.bv) = .ok 0#8) ∧
    ((Bits.ofInt 0 : Bits 64 false).updateRt (Rng.down 64) 32 0 (Rng.down 8) (Bits.ofInt 15 : Bits 8 false)) =
      .error .shift := by
  refine ⟨fun n m x op a b hN hM hm hba han hne => ?_, by decide +kernel, by decide +kernel⟩
  obtain ⟨y, h1, h2, -⟩ := C57_update_exact (by omega) (by omega) hN hM x op a b (by omega) (by omega) (Or.inr hm)
  refine ⟨y, h1, ?_⟩
  rw [h2 b (by omega), if_pos (by omega)]
  exact hne

end Verif
