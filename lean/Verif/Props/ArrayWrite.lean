import Verif.Props.ArrayNative
import Verif.Props.Array2
import Verif.Props.UpdateOut

/-!
# Writing a packed array at any index (C78, C79, C103)

The guard of `update` (`array.hh` 103) compares the index with the number of bits, and the slice assignment that
follows has one bit too many at its upper end. The theorems here give the outcome of every write that
passes the guard, inside and outside of the array.
-/

namespace Verif

variable {n w m k : Nat} {s t u : Bool} {ra : Rng}

/-- slice assignment between two bounds is assignment to the part-select that starts at the lower one -/
theorem Lg.update_base (r rv : Rng) (x : Lg n s) (v : Lg m t) {lo hi : Int} {k : Nat} (h0 : 0 < k) (hk : k ≤ 2 ^ 31)
    (hlo : -2 ^ 31 ≤ lo) (hhi : hi < 2 ^ 31) (hlh : hi = lo + k - 1) :
    Lg.update r x lo hi rv v = x.updateBase r k true lo rv v := by
  obtain ⟨a, b, e1, e2, e⟩ := Lg.updateBase_bounds r rv x v h0 hk true (base := lo) hlo hhi (if_pos rfl).symm hlh
  rw [e, C56_update_rt, Lg.update, Lg.update]
  simp only [e1, e2, show min lo hi = lo by omega, show max lo hi = hi by omega]

/-- a write that passes the guard is an assignment to `w + 1` bits -/
theorem PArr.update_in (hw0 : 0 < w) (hb : ra.size * w < 2 ^ 31) (hm0 : 0 < m) (hm : m ≤ 64)
    (x : PArr w s ra) (op : Lg m t) (ho : op.value.Clean) (hk : op.Known) (i : Int)
    (hi : numOf t op.value.bv = ra.lo + i) (hg : 0 ≤ ra.lo + i ∧ ra.lo + i < (ra.size * w : Nat))
    (h3 : -2 ^ 31 ≤ i * w) (h4 : (i + 1) * w < 2 ^ 31) (rv : Rng) (v : Lg k u) :
    x.update op rv v = Lg.updateBase (Rng.down (ra.size * w)) x (w + 1) true (i * w) rv v := by
  have hw' : (1 : Int) ≤ w := by omega
  have e : (i + 1) * (w : Int) = i * w + w := by ring
  have i1 : -2 ^ 31 ≤ i := by
    rcases lt_or_ge i 0 with hh | hh
    · nlinarith
    · omega
  have i2 : i + 1 < 2 ^ 31 := by
    rcases lt_or_ge (i + 1) 0 with hh | hh
    · omega
    · nlinarith
  have hww : w ≤ 2 ^ 31 - 1 := by
    rcases Nat.eq_zero_or_pos ra.size with e0 | hh
    · rw [e0] at hg; omega
    · have := Nat.le_mul_of_pos_left w hh; omega
  rw [PArr.update, PArr.guard_known hm0 hm (by omega) op ho hk, hi, decide_eq_false (by omega), res_bind_ok]
  simp only [Bool.false_eq_true, if_false]
  rw [PArr.bounds_any hm op ho i hi (by omega) (by omega) h3 h4 i1 i2, res_bind_ok, PArr.rng]
  exact Lg.update_base _ rv x v (by omega) (by omega) h3 h4 (by push_cast; omega)

/-- **C79, writes, wide arrays, exactly.** Let the index be known and pass the guard, that is
`0 <= index < number of bits`, and let `i` be the index less the low bound, inside the array or not. The bits
`i*w .. i*w+w` of the array, as far as they exist, receive those of the value, 0 past its end; the others keep
theirs. So an index from the number of elements on writes nothing, and the index -1 (of an array whose low bound is
positive) overwrites the lowest bit of element 0. -/
theorem C79_write_wide_exact (h : 64 < ra.size * w) (hb : ra.size * w < 2 ^ 31) (hw0 : 0 < w) (hm0 : 0 < m) (hm : m ≤ 64)
    (x : PArr w s ra) (op : Lg m t) (ho : op.value.Clean) (hk : op.Known) (i : Int)
    (hi : numOf t op.value.bv = ra.lo + i) (hg : 0 ≤ ra.lo + i ∧ ra.lo + i < (ra.size * w : Nat))
    (h3 : -2 ^ 31 ≤ i * w) (h4 : (i + 1) * w < 2 ^ 31) (hk0 : 0 < k) (hk1 : k ≤ 2 ^ 31) (v : Lg k u)
    (hu : ∀ j, j ≤ w → 64 ≤ j → j < k → (v.at j).isKnown = true) :
    ∃ y, x.update op (Rng.down k) v = .ok y ∧ ∀ p : Nat, p < ra.size * w → y.at p =
      if i * w ≤ p ∧ (p : Int) ≤ i * w + w then
        (if ((p : Int) - i * w).toNat < k then v.at ((p : Int) - i * w).toNat else .b0) else x.at p := by
  have hww : w ≤ 2 ^ 31 - 1 := by
    rcases Nat.eq_zero_or_pos ra.size with e0 | hh
    · rw [e0] at hg; omega
    · have := Nat.le_mul_of_pos_left w hh; omega
  have e : (i + 1) * (w : Int) = i * w + w := by ring
  rw [PArr.update_in hw0 hb hm0 hm x op ho hk i hi hg h3 h4]
  exact C136_wide_logic_partial h (by omega) hk0 hk1 x v (w + 1) (by omega) (by omega)
    (fun j hj => hu j (by omega)) true (i * w) (i * w) (i * w + w) h3 (by omega) (if_pos rfl).symm (by push_cast; omega)

/-- **C79, writes, native arrays, exactly.** As for wide arrays, but if the bits `i*w .. i*w+w` lie in the 64 bits of the
largest holder all of them that the storage has are written, also those above the array; otherwise the write is
undefined. -/
theorem C79_write_native_exact (h : ra.size * w ≤ 64) (h1 : 1 < ra.size * w) (hlo : |ra.lo| < 2 ^ 24) (hm0 : 0 < m) (hm : m ≤ 64)
    (x : PArr w s ra) (op : Lg m t) (ho : op.value.Clean) (hk : op.Known) (i : Int)
    (hi : numOf t op.value.bv = ra.lo + i) (hg : 0 ≤ ra.lo + i ∧ ra.lo + i < (ra.size * w : Nat))
    (hk0 : 0 < k) (hk1 : k ≤ 2 ^ 31) (v : Lg k u) (hu : w = 64 → 64 < k → (v.at 64).isKnown = true) :
    (0 ≤ i ∧ (i + 1) * w < 64 → ∃ y, x.update op (Rng.down k) v = .ok y ∧ ∀ p : Nat, p < hw (ra.size * w) →
      V4.mk (y.value.raw p) (y.xz.raw p) =
        if i * w ≤ p ∧ (p : Int) ≤ i * w + w then
          (if ((p : Int) - i * w).toNat < k then v.at ((p : Int) - i * w).toNat else .b0)
        else V4.mk (x.value.raw p) (x.xz.raw p)) ∧
    (¬ (0 ≤ i ∧ (i + 1) * w < 64) → x.update op (Rng.down k) v = .error .shift) := by
  have hw0 : 0 < w := by rcases Nat.eq_zero_or_pos w with rfl | h; simp at h1; exact h
  have hc : 0 < ra.size := by rcases Nat.eq_zero_or_pos ra.size with e | h; rw [e] at h1; omega; exact h
  have hw64 : w ≤ 64 := le_trans (Nat.le_mul_of_pos_left w hc) h
  obtain ⟨s1, s2, s3, s4, s5, s6⟩ := elem_small h rfl hw0 hlo hg hw64
  have e : (i + 1) * (w : Int) = i * w + w := by ring
  rw [PArr.update_in hw0 (by omega) hm0 hm x op ho hk i hi hg s1 s2]
  have key := C136_native_logic_exact h1 h hk0 hk1 x v (w + 1) (by omega) (by omega)
    (fun j hj hj' hjk => by obtain rfl : j = 64 := by omega
                            exact hu (by omega) hjk) true (i * w) (i * w) (i * w + w) s1 (by omega) (if_pos rfl).symm (by push_cast; omega)
  refine ⟨fun hh => key.1 (s6 hh.1) (by omega), fun hh => key.2 ?_⟩
  rcases lt_or_ge i 0 with hneg | hpos
  · exact Or.inl (s5 hneg)
  · exact Or.inr (by omega)

/-- what a write of a 2-state element of `w` bits reads from its operand: its bits, and behind them the sign -/
theorem Bits.get_over (hw0 : 0 < w) (hww : w < 2 ^ 31) (v : Bits w u) (hv : v.Clean) (hw : w ≠ 32 ∧ w ≠ 64) {j : Nat} (hj : j ≤ w) :
    v.get (Rng.down w) j = .ok (if j < w then v.bv.getLsbD j else overread v) := by
  by_cases hlt : j < w
  · rw [if_pos hlt]
    exact Bits.get_phys (Rng.down w) v j j (Bits.physIdx_down hw0 _) hlt (by omega)
  · obtain rfl : j = w := by omega
    rw [if_neg hlt]
    by_cases h : j ≤ 64
    · rw [Bits.get_past h hw0 hv le_rfl (by have := le_hw h; rw [Verif.hw] at *; split_ifs at * <;> omega), overread]
      simp [h]
    · rw [Bits.get, dif_neg h, Bits.physIdx_down hw0, Big.get, if_neg, overread]
      · simp [h]
      · rw [tU64_conv_of (a := (j : Int)) (by omega) (by omega)]; omega

/-- a write of a 2-state array that passes the guard -/
theorem PArr2.update_in (hw0 : 0 < w) (hb : ra.size * w < 2 ^ 31) (hm0 : 0 < m) (hm : m ≤ 64)
    (x : PArr2 w s ra) (op : Lg m t) (ho : op.value.Clean) (hk : op.Known) (i : Int)
    (hi : numOf t op.value.bv = ra.lo + i) (hg : 0 ≤ ra.lo + i ∧ ra.lo + i < (ra.size * w : Nat))
    (h3 : -2 ^ 31 ≤ i * w) (h4 : (i + 1) * w < 2 ^ 31) (rv : Rng) (v : Bits k u) :
    x.update op rv v = Bits.updateRt (Rng.down (ra.size * w)) x (i * w) (i * w + w) rv v := by
  have hw' : (1 : Int) ≤ w := by omega
  have e : (i + 1) * (w : Int) = i * w + w := by ring
  have i1 : -2 ^ 31 ≤ i := by
    rcases lt_or_ge i 0 with hh | hh
    · nlinarith
    · omega
  have i2 : i + 1 < 2 ^ 31 := by
    rcases lt_or_ge (i + 1) 0 with hh | hh
    · omega
    · nlinarith
  rw [PArr2.update, PArr.guard_known hm0 hm (by omega) op ho hk, hi, decide_eq_false (by omega), res_bind_ok]
  simp only [Bool.false_eq_true, if_false]
  rw [PArr.bounds_any hm op ho i hi (by omega) (by omega) h3 h4 i1 i2, res_bind_ok, PArr.rng, e]

/-- **C103, writes, wide arrays, exactly.** For a known index that passes the guard, inside the array or not: the bits
`i*w .. i*w+w-1` of the array, as far as they exist, receive the element, and bit `i*w+w` its sign; the others keep
theirs. Elements of 32 and 64 bits are excepted (`C103_refuted`). -/
theorem C103_write_wide_exact (h : 64 < ra.size * w) (hb : ra.size * w < 2 ^ 31) (hw0 : 0 < w) (hm0 : 0 < m) (hm : m ≤ 64)
    (x : PArr2 w s ra) (op : Lg m t) (ho : op.value.Clean) (hk : op.Known) (i : Int)
    (hi : numOf t op.value.bv = ra.lo + i) (hg : 0 ≤ ra.lo + i ∧ ra.lo + i < (ra.size * w : Nat))
    (h3 : -2 ^ 31 ≤ i * w) (h4 : (i + 1) * w < 2 ^ 31) (v : Bits w u) (hv : v.Clean) (hw : w ≠ 32 ∧ w ≠ 64) :
    ∃ y, x.update op (Rng.down w) v = .ok y ∧ (x.Clean → y.Clean) ∧ ∀ p : Nat, p < ra.size * w → y.bv.getLsbD p =
      if i * w ≤ p ∧ (p : Int) < i * w + w then v.bv.getLsbD ((p : Int) - i * w).toNat
      else if (p : Int) = i * w + w then decide (w ≤ 64 ∧ numOf u v.bv < 0) else x.bv.getLsbD p := by
  have hww : w < 2 ^ 31 := by
    rcases Nat.eq_zero_or_pos ra.size with e0 | hh
    · rw [e0] at hg; omega
    · have := Nat.le_mul_of_pos_left w hh; omega
  have e : (i + 1) * (w : Int) = i * w + w := by ring
  rw [PArr2.update_in hw0 hb hm0 hm x op ho hk i hi hg h3 h4]
  obtain ⟨y, hy, hr⟩ := Bits.updateRt_any (by omega) (by omega) hw0 x v (i * w) (w + 1) (by omega) (by omega) (by omega) (by omega)
    (fun h' => by omega) (fun j => if j < w then v.bv.getLsbD j else overread v)
    (fun j hj => Bits.get_over hw0 hww v hv hw (by omega)) (i * w) (i * w + w) (by omega) (by push_cast; omega)
  have hcap : cap (ra.size * w) = ra.size * w := by rw [cap, if_neg (by omega)]
  rw [hcap] at hr
  refine ⟨y, hy, fun hc => ?_, fun p hp => ?_⟩
  · exact Bits.clean_wide_of h hc fun p hp => by rw [hr, if_neg (by omega)]
  · rw [Bits.getLsbD_bv y, hr, Bits.getLsbD_bv x]
    by_cases h1 : i * w ≤ p ∧ (p : Int) < i * w + w
    · rw [if_pos (by push_cast; omega), if_pos h1, if_pos (by omega)]
      simp [hp]
    · rw [if_neg h1]
      by_cases h2 : (p : Int) = i * w + w
      · rw [if_pos (by push_cast; omega), if_pos h2, if_neg (by omega), overread]
        simp [hp]
      · rw [if_neg (by push_cast; omega), if_neg h2]

/-- **C103, writes, native arrays, exactly.** As for wide arrays; inside 64 bits all bits `i*w .. i*w+w` that the storage
has are written, also those above the array; outside of them the write is undefined. -/
theorem C103_write_native_exact (h : ra.size * w ≤ 64) (h1 : 1 < ra.size * w) (hlo : |ra.lo| < 2 ^ 24) (hm0 : 0 < m) (hm : m ≤ 64)
    (x : PArr2 w s ra) (op : Lg m t) (ho : op.value.Clean) (hk : op.Known) (i : Int)
    (hi : numOf t op.value.bv = ra.lo + i) (hg : 0 ≤ ra.lo + i ∧ ra.lo + i < (ra.size * w : Nat))
    (v : Bits w u) (hv : v.Clean) (hw : w ≠ 32 ∧ w ≠ 64) :
    (0 ≤ i ∧ (i + 1) * w < 64 → ∃ y, x.update op (Rng.down w) v = .ok y ∧ ∀ p : Nat, p < Verif.hw (ra.size * w) →
      y.raw p = if i * w ≤ p ∧ (p : Int) < i * w + w then v.bv.getLsbD ((p : Int) - i * w).toNat
        else if (p : Int) = i * w + w then decide (numOf u v.bv < 0) else x.raw p) ∧
    (¬ (0 ≤ i ∧ (i + 1) * w < 64) → x.update op (Rng.down w) v = .error .shift) := by
  have hw0 : 0 < w := by rcases Nat.eq_zero_or_pos w with rfl | h; simp at h1; exact h
  have hc : 0 < ra.size := by rcases Nat.eq_zero_or_pos ra.size with e | h; rw [e] at h1; omega; exact h
  have hw64 : w ≤ 64 := le_trans (Nat.le_mul_of_pos_left w hc) h
  obtain ⟨s1, s2, s3, s4, s5, s6⟩ := elem_small h rfl hw0 hlo hg hw64
  have e : (i + 1) * (w : Int) = i * w + w := by ring
  rw [PArr2.update_in hw0 (by omega) hm0 hm x op ho hk i hi hg s1 s2]
  have hget : ∀ j : Nat, j < w + 1 → v.get (Rng.down w) j = .ok (if j < w then v.bv.getLsbD j else overread v) :=
    fun j hj => Bits.get_over hw0 (by omega) v hv hw (by omega)
  constructor
  · rintro ⟨hi0, hi1⟩
    have := s6 hi0
    obtain ⟨y, hy, hr⟩ := Bits.updateRt_any h1 (by omega) hw0 x v (i * w) (w + 1) (by omega) (by omega) (by omega) (by omega)
      (fun h' => by push_cast; omega) (fun j => if j < w then v.bv.getLsbD j else overread v) hget
      (i * w) (i * w + w) (by omega) (by push_cast; omega)
    have hcap : cap (ra.size * w) = Verif.hw (ra.size * w) := by rw [cap, if_pos h]
    rw [hcap] at hr
    refine ⟨y, hy, fun p hp => ?_⟩
    rw [hr]
    by_cases h1 : i * w ≤ p ∧ (p : Int) < i * w + w
    · rw [if_pos (by push_cast; omega), if_pos h1, if_pos (by omega)]
    · rw [if_neg h1]
      by_cases h2 : (p : Int) = i * w + w
      · rw [if_pos (by push_cast; omega), if_pos h2, if_neg (by omega), overread]
        simp [hw64]
      · rw [if_neg (by push_cast; omega), if_neg h2]
  · intro hout
    have hout' : i * w < 0 ∨ 64 ≤ i * w + (w : Int) := by
      rcases lt_or_ge i 0 with hneg | hpos
      · exact Or.inl (s5 hneg)
      · exact Or.inr (by omega)
    generalize hL : i * (w : Int) = lo at *
    have hbe : ((Rng.down w).bigEndian ^^ (Rng.down (ra.size * w)).bigEndian) = false := by
      rw [Rng.bigEndian_down (by omega), Rng.bigEndian_down (by omega)]; rfl
    rw [Bits.updateRt]
    simp only [show min lo (lo + (w : Int)) = lo by omega, show max lo (lo + (w : Int)) = lo + w by omega, hbe, Bool.false_eq_true, if_false]
    rw [show (lo + w + 1 - lo).toNat = w + 1 by omega]
    have hstep : ∀ j : Nat, j < w + 1 → ∀ z : Bits (ra.size * w) s,
        ((v.get (Rng.down w) (lo + j - lo)).bind fun b => z.setBit (Rng.down (ra.size * w)) (lo + j) b) =
          z.set (Rng.down (ra.size * w)) (lo + j) (if j < w then v.bv.getLsbD j else overread v) := fun j hj z => by
      rw [show lo + (j : Int) - lo = j by omega, hget j hj, res_bind_ok, Bits.setBit_down (by omega)]
    refine loopM_error' 0 (w + 1) x _ .shift (fun j z _ hj => ?_) (i := if lo < 0 then 0 else w) (by omega) (by split_ifs <;> omega) fun z => ?_
    · rw [hstep j hj]
      by_cases hw : lo + j < 0 ∨ 64 ≤ lo + j
      · exact Or.inr (Bits.set_any_fault (by omega) h z _ (by omega) (by omega) hw _)
      · obtain ⟨y, hy, -⟩ := Bits.set_any h1 (by omega) z (lo + j) (by omega) (by omega) (fun _ => by omega) (if j < w then v.bv.getLsbD j else overread v)
        exact Or.inl ⟨y, hy⟩
    · rw [hstep _ (by split_ifs <;> omega)]
      exact Bits.set_any_fault (by omega) h z _ (by split_ifs <;> omega) (by split_ifs <;> omega) (by split_ifs <;> omega) _

-- three elements of four bits, low bound 0: index 3, past the end, changes the storage above the array; ten elements
-- of eight bits with low bound 1: the index 0 overwrites bit 0
example :
    ((PArr.update (w := 4) (ra := ⟨2, 0⟩) (Lg.ofInt 5 : Lg 12 false) (Lg.ofInt 3 : Lg 2 false) (Rng.down 4)
      (Lg.ofInt 7 : Lg 4 false)).map fun y => (y.value.raw 11, y.value.raw 12, y.value.raw 15)) = .ok (false, true, false) ∧
    ((PArr.update (w := 8) (ra := ⟨10, 1⟩) (Lg.ofInt 4 : Lg 80 false) (Lg.ofInt 0 : Lg 4 false) (Rng.down 9)
      (Lg.ofInt 0x1ff : Lg 9 false)).map fun y => (y.at 0, y.at 1, y.at 2)) = .ok (.b1, .b0, .b1) ∧
    PArr.update (w := 4) (ra := ⟨3, 1⟩) (Lg.ofInt 5 : Lg 12 false) (Lg.ofInt 0 : Lg 2 false) (Rng.down 4)
      (Lg.ofInt 7 : Lg 4 false) = .error .shift := by decide +kernel

-- 2-state: a negative element past the end of an array of three changes storage; the same of a wide array nothing
example :
    ((PArr2.update (w := 4) (ra := ⟨2, 0⟩) (Bits.ofInt 5 : Bits 12 false) (Lg.ofInt 3 : Lg 2 false) (Rng.down 4)
      (Bits.ofInt (-2) : Bits 4 true)).map fun y => (y.raw 11, y.raw 12, y.raw 13, y.raw 15)) = .ok (false, false, true, true) ∧
    ((PArr2.update (w := 8) (ra := ⟨9, 0⟩) (Bits.ofInt 5 : Bits 80 false) (Lg.ofInt 10 : Lg 4 false) (Rng.down 8)
      (Bits.ofInt 7 : Bits 8 false)).map fun y => y.bv) = .ok 5#80 := by decide +kernel

end Verif
