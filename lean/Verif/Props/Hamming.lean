import Verif.Props.Gates
import Verif.Props.ExprI
import Verif.Props.Convert
import Verif.Show

/-!
# Hamming code (C199)

A single error correcting code for vectors of any width, as client code: the checksum ("syndrome") of a vector is the
exclusive or of the indices of its ones, held in a `bit<31, 0>`; the bits whose index is a power of two are set so that
it is 0. The loops are client code; the functions that they call are the models of `bit.hh` 47 and 1093-1120
(`operator[]`), 69-83 (`set`), 400-405 (`operator^`), 868-873 (`operator bool`), 969-995 (`to_num`).
-/

namespace Verif

variable {n : Nat} {s : Bool}

/-- `bit<31, 0> y; for (int i = 0; i < n; i++) if (c[i]) y = y ^ bit<31, 0>(i);` -/
def syndrome (c : Bits n s) : Res (Bits 32 false) :=
  loopM 0 n (Bits.zero : Bits 32 false) fun i y =>
    (c.get (Rng.down n) i).map fun b => if b then y.xor (Bits.ofInt i : Bits 32 false) else y

/-- `for (int j = 0; j < 32; j++) if ((1ull << j) < n) c.set(1 << j, v(j));` -/
def setChecks (c : Bits n s) (v : Nat → Res Bool) : Res (Bits n s) :=
  loopM 0 32 c fun j c =>
    if 2 ^ j < n then (v j).bind fun b => c.set (Rng.down n) ((2 ^ j : Nat) : Int) b else .ok c

/-- clear the check bits, compute the checksum of the data and write it to them -/
def hamEncode (c : Bits n s) : Res (Bits n s) :=
  (setChecks c fun _ => .ok false).bind fun c =>
  (syndrome c).bind fun y => setChecks c fun j => y.get (Rng.down 32) j

/-- `auto y = syndrome(c); if (y && y.to_num() < n) c.set(y.to_num(), !c[y.to_num()]);` -/
def hamCorrect (c : Bits n s) : Res (Bits n s) :=
  (syndrome c).bind fun y =>
  if y.anySet && decide (y.toNum < n) then
    (c.get (Rng.down n) y.toNum).bind fun b => c.set (Rng.down n) y.toNum (!b)
  else .ok c

/-- exclusive or of the indices below `k` of the ones -/
def xorIdx (f : Nat → Bool) : Nat → Nat
  | 0 => 0
  | k + 1 => xorIdx f k ^^^ (if f k then k else 0)

theorem xorIdx_lt (f : Nat → Bool) (w k : Nat) (h : k ≤ 2 ^ w) : xorIdx f k < 2 ^ w := by
  induction k with
  | zero => exact Nat.two_pow_pos w
  | succ k ih =>
    rw [xorIdx]
    exact Nat.xor_lt_two_pow (ih (by omega)) (by split_ifs; omega; exact Nat.two_pow_pos w)

/-- a bit of the checksum is the bit of some index -/
theorem xorIdx_bit (f : Nat → Bool) (j k : Nat) (h : (xorIdx f k).testBit j = true) : 2 ^ j < k := by
  induction k with
  | zero => simp [xorIdx] at h
  | succ k ih =>
    rw [xorIdx, Nat.testBit_xor] at h
    by_cases h1 : (xorIdx f k).testBit j = true
    · have := ih h1; omega
    · rw [Bool.not_eq_true] at h1
      rw [h1, Bool.false_xor] at h
      split_ifs at h with hf
      · have := Nat.ge_two_pow_of_testBit h
        omega
      · simp at h

/-- changing one bit changes the checksum by its index -/
theorem xorIdx_flip (f g : Nat → Bool) (i k : Nat) (hg : ∀ j, j ≠ i → g j = f j) (hi : g i = !f i) :
    xorIdx g k = if i < k then xorIdx f k ^^^ i else xorIdx f k := by
  induction k with
  | zero => simp [xorIdx]
  | succ k ih =>
    rw [xorIdx, xorIdx, ih]
    by_cases e : k = i
    · subst e
      rw [if_neg (Nat.lt_irrefl k), if_pos (Nat.lt_succ_self k), hi]
      cases f k <;> simp [Nat.xor_assoc]
    · rw [hg k e]
      by_cases h : i < k
      · rw [if_pos h, if_pos (show i < k + 1 by omega), Nat.xor_assoc, Nat.xor_assoc, Nat.xor_comm i]
      · rw [if_neg h, if_neg (show ¬ i < k + 1 by omega)]

theorem syndrome_ok (hn : 0 < n) (hN : n ≤ 2 ^ 31) (c : Bits n s) :
    ∃ y, syndrome c = .ok y ∧ y.bv.toNat = xorIdx c.bv.getLsbD n := by
  refine loopM_induct 0 n (Bits.zero : Bits 32 false) _
    (fun k (y : Bits 32 false) => y.bv.toNat = xorIdx c.bv.getLsbD k) (Nat.zero_le n) rfl ?_
  rintro i y - hi h
  rw [C01_read hn (by omega) c i hi, res_map_ok]
  refine ⟨_, rfl, ?_⟩
  rw [xorIdx, ← h]
  cases c.bv.getLsbD i
  · simp
  · simp only [if_true]
    rw [Bits.bv_xor, BitVec.toNat_xor]
    congr 1
    rw [C60_bits (by decide) (by decide), BitVec.toNat_ofInt]
    omega

/-- the loop over the check bits, one step of which preserves `P` -/
theorem setChecks_ok (hn : 0 < n) (hN : n ≤ 2 ^ 31) (c : Bits n s) (v : Nat → Res Bool) (P : Nat → Bits n s → Prop)
    (h0 : P 0 c)
    (h1 : ∀ j c, j < 32 → ¬ 2 ^ j < n → P j c → P (j + 1) c)
    (h2 : ∀ j c, j < 32 → 2 ^ j < n → P j c → ∃ b, v j = .ok b ∧
      ∀ d : Bits n s, (∀ i, d.bv.getLsbD i = if i = 2 ^ j then b else c.bv.getLsbD i) → P (j + 1) d) :
    ∃ d, setChecks c v = .ok d ∧ P 32 d := by
  refine loopM_induct 0 32 c _ P (by omega) h0 ?_
  rintro j c - hj h
  by_cases hp : 2 ^ j < n
  · obtain ⟨b, hb, hd⟩ := h2 j c hj hp h
    obtain ⟨d, hs, e⟩ := Bits.set_down hn (by omega) c (2 ^ j) hp b
    exact ⟨d, by rw [if_pos hp, hb, res_bind_ok, hs], hd d e⟩
  · exact ⟨c, by rw [if_neg hp], h1 j c hj hp h⟩

/-- **C199, the encoder.** At every width, signed or not, and whatever the check bits hold, the encoder never faults,
leaves all bits whose index is not a power of two as they are and makes the checksum 0. -/
theorem C199_encode (hn : 0 < n) (hN : n ≤ 2 ^ 31) (c : Bits n s) :
    ∃ e, hamEncode c = .ok e ∧ (∀ i, (∀ j, i ≠ 2 ^ j) → e.bv.getLsbD i = c.bv.getLsbD i) ∧
      xorIdx e.bv.getLsbD n = 0 := by
  obtain ⟨d, hd, k1, k2⟩ := setChecks_ok hn hN c (fun _ => .ok false)
    (fun k d => (∀ i, (∀ j, i ≠ 2 ^ j) → d.bv.getLsbD i = c.bv.getLsbD i) ∧ ∀ j < k, d.bv.getLsbD (2 ^ j) = false)
    ⟨fun _ _ => rfl, by simp⟩
    (by
      rintro j c' - hp ⟨a, b⟩
      refine ⟨a, fun j' hj' => ?_⟩
      by_cases e : j' = j
      · subst e; exact BitVec.getLsbD_of_ge _ _ (by omega)
      · exact b j' (by omega))
    (by
      rintro j c' - hp ⟨a, b⟩
      refine ⟨false, rfl, fun d hd => ⟨fun i hi => by rw [hd, if_neg (hi j), a i hi], fun j' hj' => ?_⟩⟩
      rw [hd]
      by_cases e : j' = j
      · rw [if_pos (by rw [e])]
      · rw [if_neg (fun q => e (Nat.pow_right_injective (Nat.le_refl 2) q)), b j' (by omega)])
  obtain ⟨y, hy, ey⟩ := syndrome_ok hn hN d
  obtain ⟨e, he, e1, -, e3⟩ := setChecks_ok hn hN d (fun j => y.get (Rng.down 32) j)
    (fun k e => (∀ i, (∀ j, i ≠ 2 ^ j) → e.bv.getLsbD i = c.bv.getLsbD i) ∧
      (∀ j, k ≤ j → j < 32 → e.bv.getLsbD (2 ^ j) = false) ∧
      ∀ j, (xorIdx e.bv.getLsbD n).testBit j = (decide (k ≤ j) && (xorIdx d.bv.getLsbD n).testBit j))
    ⟨k1, fun j _ hj => k2 j hj, by simp⟩
    (by
      rintro j c' hj hp ⟨a, b, h⟩
      refine ⟨a, fun j' h1 h2 => b j' (by omega) h2, fun j' => ?_⟩
      rw [h]
      by_cases q : j' = j
      · have : (xorIdx d.bv.getLsbD n).testBit j' = false := by
          rw [← Bool.not_eq_true]
          intro hc
          exact hp (q ▸ xorIdx_bit _ _ _ hc)
        rw [this, Bool.and_false, Bool.and_false]
      · congr 1
        apply decide_eq_decide.2
        omega)
    (by
      rintro j c' hj hp ⟨a, b, h⟩
      refine ⟨_, C01_read (by decide) (by decide) y j hj, fun d' hd' => ?_⟩
      refine ⟨fun i hi => by rw [hd', if_neg (hi j), a i hi], fun j' h1 h2 => ?_, fun j' => ?_⟩
      · rw [hd', if_neg (fun q => by have := Nat.pow_right_injective (Nat.le_refl 2) q; omega), b j' (by omega) h2]
      · have eb : y.bv.getLsbD j = (xorIdx d.bv.getLsbD n).testBit j := by rw [← ey]; rfl
        by_cases hb : y.bv.getLsbD j = true
        · rw [xorIdx_flip c'.bv.getLsbD d'.bv.getLsbD (2 ^ j) n (fun i hi => by rw [hd', if_neg hi])
            (by rw [hd', if_pos rfl, b j (Nat.le_refl _) hj, hb]; rfl), if_pos hp, Nat.testBit_xor, h,
            Nat.testBit_two_pow]
          by_cases q : j = j'
          · subst q
            rw [← eb, hb]
            simp
          · rw [decide_eq_false q, Bool.xor_false]
            congr 1
            apply decide_eq_decide.2
            omega
        · rw [Bool.not_eq_true] at hb
          have same : d'.bv.getLsbD = c'.bv.getLsbD := by
            funext i
            rw [hd']
            split_ifs with q
            · rw [q, hb, b j (Nat.le_refl _) hj]
            · rfl
          rw [same, h]
          by_cases q : j' = j
          · subst q
            rw [← eb, hb, Bool.and_false, Bool.and_false]
          · congr 1
            apply decide_eq_decide.2
            omega)
  refine ⟨e, by rw [hamEncode, hd, res_bind_ok, hy, res_bind_ok, he], e1, ?_⟩
  apply Nat.eq_of_testBit_eq
  intro j
  rw [e3, Nat.zero_testBit]
  by_cases q : 32 ≤ j
  · rw [Nat.testBit_lt_two_pow (Nat.lt_of_lt_of_le (xorIdx_lt _ 32 n (by omega)) (Nat.pow_le_pow_right (by omega) q)),
      Bool.and_false]
  · rw [decide_eq_false q, Bool.false_and]

theorem hamCorrect_ok (hn : 0 < n) (hN : n ≤ 2 ^ 31) (c : Bits n s) :
    ∃ d, hamCorrect c = .ok d ∧
      ∀ i, d.bv.getLsbD i = (c.bv.getLsbD i ^^ decide (i = xorIdx c.bv.getLsbD n ∧ 0 < i ∧ i < n)) := by
  obtain ⟨y, hy, ey⟩ := syndrome_ok hn hN c
  have cy : y.Clean := ExI.W.clean (Or.inl (by simp [ExI.W])) y
  have ha : y.anySet = decide (y.bv ≠ 0) := Bits.anySet_native (by decide) cy
  have ht : y.toNum = ((xorIdx c.bv.getLsbD n : Nat) : Int) := by
    rw [C59_num (by decide) y cy, numOf_false, ey]
  have hz : y.bv ≠ 0 ↔ 0 < xorIdx c.bv.getLsbD n := by
    rw [← ey, Nat.pos_iff_ne_zero, ne_eq, ne_eq, not_iff_not]
    exact ⟨fun q => by rw [q]; rfl, fun q => BitVec.eq_of_toNat_eq (by rw [q]; rfl)⟩
  rw [hamCorrect, hy, res_bind_ok, ha, ht]
  generalize xorIdx c.bv.getLsbD n = k at *
  by_cases q : 0 < k ∧ k < n
  · obtain ⟨d, hd, e⟩ := Bits.set_down hn (by omega) c k q.2 (!c.bv.getLsbD k)
    refine ⟨d, ?_, fun i => ?_⟩
    · rw [if_pos (by simp only [Bool.and_eq_true, decide_eq_true_iff]; exact ⟨hz.2 q.1, by omega⟩),
        C01_read hn (by omega) c k q.2, res_bind_ok, hd]
    · rw [e]
      by_cases ei : i = k
      · subst ei
        rw [if_pos rfl, decide_eq_true ⟨rfl, q⟩, Bool.xor_true]
      · rw [if_neg ei, decide_eq_false (fun h => ei h.1), Bool.xor_false]
  · refine ⟨c, ?_, fun i => ?_⟩
    · rw [if_neg]
      simp only [Bool.and_eq_true, decide_eq_true_iff]
      rintro ⟨h1, h2⟩
      exact q ⟨hz.1 h1, by omega⟩
    · rw [decide_eq_false, Bool.xor_false]
      rintro ⟨rfl, h⟩
      exact q h

/-- **C199, correction.** An encoded vector of any width is left as it is by the corrector, and if any one bit but bit 0
has changed since, the corrector gives the encoded vector back. -/
theorem C199_correct (hn : 0 < n) (hN : n ≤ 2 ^ 31) (c : Bits n s) :
    ∃ e, hamEncode c = .ok e ∧ (∃ d, hamCorrect e = .ok d ∧ d.bv = e.bv) ∧
      ∀ (i : Nat) (w : Bits n s), 0 < i → i < n → (∀ j, w.bv.getLsbD j = (e.bv.getLsbD j ^^ decide (j = i))) →
        ∃ d, hamCorrect w = .ok d ∧ d.bv = e.bv := by
  obtain ⟨e, he, -, hz⟩ := C199_encode hn hN c
  refine ⟨e, he, ?_, fun i w h0 hi hw => ?_⟩
  · obtain ⟨d, hd, ed⟩ := hamCorrect_ok hn hN e
    refine ⟨d, hd, BitVec.eq_of_getLsbD_eq fun j hj => ?_⟩
    rw [ed, hz, decide_eq_false (by omega), Bool.xor_false]
  · obtain ⟨d, hd, ed⟩ := hamCorrect_ok hn hN w
    refine ⟨d, hd, BitVec.eq_of_getLsbD_eq fun j hj => ?_⟩
    have hs : xorIdx w.bv.getLsbD n = i := by
      rw [xorIdx_flip e.bv.getLsbD w.bv.getLsbD i n (fun j hj => by rw [hw, decide_eq_false hj, Bool.xor_false])
        (by rw [hw, decide_eq_true rfl, Bool.xor_true]), if_pos hi, hz, Nat.zero_xor]
    rw [ed, hs, hw, show decide (j = i ∧ 0 < j ∧ j < n) = decide (j = i) from decide_eq_decide.2 (by omega),
      Bool.xor_assoc, Bool.xor_self, Bool.xor_false]

/-- **C199, detection.** If two bits of an encoded vector have changed, the checksum is not 0. -/
theorem C199_detect (hn : 0 < n) (hN : n ≤ 2 ^ 31) (c : Bits n s) :
    ∃ e, hamEncode c = .ok e ∧ (∃ y, syndrome e = .ok y ∧ y.bv = 0) ∧
      ∀ (i k : Nat) (w : Bits n s), i < n → k < n → i ≠ k →
        (∀ j, w.bv.getLsbD j = (e.bv.getLsbD j ^^ decide (j = i) ^^ decide (j = k))) →
        ∃ y, syndrome w = .ok y ∧ y.bv ≠ 0 := by
  obtain ⟨e, he, -, hz⟩ := C199_encode hn hN c
  refine ⟨e, he, ?_, fun i k w hi hk hik hw => ?_⟩
  · obtain ⟨y, hy, ey⟩ := syndrome_ok hn hN e
    exact ⟨y, hy, BitVec.eq_of_toNat_eq (by rw [ey, hz]; rfl)⟩
  · obtain ⟨y, hy, ey⟩ := syndrome_ok hn hN w
    refine ⟨y, hy, fun q => ?_⟩
    have hs : xorIdx w.bv.getLsbD n = i ^^^ k := by
      rw [xorIdx_flip (fun j => e.bv.getLsbD j ^^ decide (j = i)) w.bv.getLsbD k n
        (fun j hj => by rw [hw, decide_eq_false hj, Bool.xor_false])
        (by rw [hw, decide_eq_true rfl, Bool.xor_true]), if_pos hk,
        xorIdx_flip e.bv.getLsbD (fun j => e.bv.getLsbD j ^^ decide (j = i)) i n
        (fun j hj => by rw [decide_eq_false hj, Bool.xor_false]) (by rw [decide_eq_true rfl, Bool.xor_true]),
        if_pos hi, hz, Nat.zero_xor]
    rw [q, hs] at ey
    exact hik (Nat.xor_eq_zero_iff.1 ey.symm)

/-- **C199, bit 0** is not protected: the corrector leaves an encoded vector with bit 0 flipped as it is. -/
theorem C199_bit0 (hn : 0 < n) (hN : n ≤ 2 ^ 31) (c : Bits n s) :
    ∃ e, hamEncode c = .ok e ∧ ∀ w : Bits n s, (∀ j, w.bv.getLsbD j = (e.bv.getLsbD j ^^ decide (j = 0))) →
      ∃ d, hamCorrect w = .ok d ∧ d.bv = w.bv ∧ d.bv ≠ e.bv := by
  obtain ⟨e, he, -, hz⟩ := C199_encode hn hN c
  refine ⟨e, he, fun w hw => ?_⟩
  obtain ⟨d, hd, ed⟩ := hamCorrect_ok hn hN w
  have hs : xorIdx w.bv.getLsbD n = 0 := by
    rw [xorIdx_flip e.bv.getLsbD w.bv.getLsbD 0 n (fun j hj => by rw [hw, decide_eq_false hj, Bool.xor_false])
      (by rw [hw, decide_eq_true rfl, Bool.xor_true]), if_pos hn, hz, Nat.zero_xor]
  have h : d.bv = w.bv := BitVec.eq_of_getLsbD_eq fun j hj => by
    rw [ed, hs, decide_eq_false (by omega), Bool.xor_false]
  refine ⟨d, hd, h, fun q => ?_⟩
  have := hw 0
  rw [← h, q, decide_eq_true rfl, Bool.xor_true] at this
  revert this
  cases e.bv.getLsbD 0 <;> decide

/-! ## cases -/

-- eight bits hold the data 1101 (bits 7, 6, 5, 3 hold 1, 1, 0, 1) and the check bits 4, 2, 1; bit 5 is flipped and restored
example :
    (hamEncode (Bits.ofInt 0b11001000 : Bits 8 false)).map (·.bv.toNat) = .ok 0b11001100 ∧
    ((hamCorrect (Bits.ofInt 0b11101100 : Bits 8 false)).map (·.bv.toNat)) = .ok 0b11001100 := by decide +kernel

-- a check bit and the highest bit of a wide vector are restored too
example :
    (hamEncode (Bits.ofInt 0b1000 : Bits 70 false)).map (·.bv.toNat) = .ok 0b1110 ∧
    (hamCorrect (Bits.ofInt 0b1010 : Bits 70 false)).map (·.bv.toNat) = .ok 0b1110 ∧
    (((Bits.ofInt 0b1110 : Bits 70 false).set (Rng.down 70) 69 true).bind hamCorrect).map (·.bv.toNat) = .ok 0b1110 := by
  decide +kernel

end Verif
