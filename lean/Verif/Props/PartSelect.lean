import Verif.Props.Update
import Verif.Props.Slice
import Verif.Model.Static
import Verif.Show

/-!
# Assignment to indexed part-selects (C111)

`x.slice_ref<k, increase>(base) = v`, the SystemVerilog `x[base +: k] = v` and
`x[base -: k] = v`.
-/

namespace Verif
variable {n m : Nat} {s t : Bool}

/-- **C111, 2-state, partial.** `x[base +: k] = v` and `x[base -: k] = v` replace exactly the
addressed bits by the low bits of `v` and keep an unsigned value canonical. Missing: a native
`v` narrower than `k`, and selections that leave the vector (`C111_refuted`). -/
theorem C111_part_select_partial (hn : 0 < n) (hN : n ≤ 2 ^ 31) (hM : m ≤ 2 ^ 31) (x : Bits n s)
    (op : Bits m t) (k base : Nat) (h0 : 0 < k) (hkm : k ≤ m) :
    (base + k ≤ n → ∃ y, x.updateBase (Rng.down n) k true base (Rng.down m) op = .ok y ∧
      (∀ i, i < n → y.bv.getLsbD i =
        if base ≤ i ∧ i < base + k then op.bv.getLsbD (i - base) else x.bv.getLsbD i) ∧
      (s = false → x.Clean → y.Clean)) ∧
    (base < n → k ≤ base + 1 → ∃ y, x.updateBase (Rng.down n) k false base (Rng.down m) op = .ok y ∧
      (∀ i, i < n → y.bv.getLsbD i =
        if base < i + k ∧ i ≤ base then op.bv.getLsbD (i + k - base - 1) else x.bv.getLsbD i) ∧
      (s = false → x.Clean → y.Clean)) := by
  constructor
  · intro hb
    have ec : tInt.conv (base : Int) = base := tInt_conv_of (by omega) (by omega)
    obtain ⟨y, hy, hbits, hc⟩ := C57_update_rt_partial hn (by omega) hN hM x op base (base + k - 1) (by omega)
      (by omega) (by omega)
    refine ⟨y, ?_, fun i hi => ?_, hc⟩
    · rw [Bits.updateBase]
      simp only [ec, if_true]
      rw [intRes_ok (by omega) (by omega), res_bind_ok, ← hy,
        show (base : Int) + ((k : Int) - 1) = ((base + k - 1 : Nat) : Int) by omega]
    · rw [hbits i hi]
      by_cases h : base ≤ i ∧ i < base + k
      · rw [if_pos (by omega), if_pos h, show min base (base + k - 1) = base by omega]
      · rw [if_neg (by omega), if_neg h]
  · intro hb hkb
    have ec : tInt.conv (base : Int) = base := tInt_conv_of (by omega) (by omega)
    obtain ⟨y, hy, hbits, hc⟩ := C57_update_rt_partial hn (by omega) hN hM x op base (base + 1 - k) (by omega)
      (by omega) (by omega)
    refine ⟨y, ?_, fun i hi => ?_, hc⟩
    · rw [Bits.updateBase]
      simp only [ec, Bool.false_eq_true, if_false]
      rw [intRes_ok (by omega) (by omega), res_bind_ok, ← hy,
        show (base : Int) - ((k : Int) - 1) = ((base + 1 - k : Nat) : Int) by omega]
    · rw [hbits i hi]
      by_cases h : base < i + k ∧ i ≤ base
      · rw [if_pos (by omega), if_pos h, show i - min base (base + 1 - k) = i + k - base - 1 by omega]
      · rw [if_neg (by omega), if_neg h]

/-- **C111, 4-state, partial.** The same with x and z; a value narrower than the selection
is extended with zeros. Missing: an x or z of `v` at position 64 or above, and selections
that leave the vector (`C111_refuted`). -/
theorem C111_part_select_logic_partial (hn : 0 < n) (hm : 0 < m) (hN : n ≤ 2 ^ 31) (hM : m ≤ 2 ^ 31) (x : Lg n s)
    (op : Lg m t) (k base : Nat) (h0 : 0 < k)
    (hx : ∀ j, j < k → 64 ≤ j → j < m → (op.at j).isKnown = true) :
    (base + k ≤ n → ∃ y, x.updateBase (Rng.down n) k true base (Rng.down m) op = .ok y ∧
      ∀ i, i < n → y.at i =
        if base ≤ i ∧ i < base + k then (if i - base < m then op.at (i - base) else .b0) else x.at i) ∧
    (base < n → k ≤ base + 1 → ∃ y, x.updateBase (Rng.down n) k false base (Rng.down m) op = .ok y ∧
      ∀ i, i < n → y.at i =
        if base < i + k ∧ i ≤ base then (if i + k - base - 1 < m then op.at (i + k - base - 1) else .b0)
        else x.at i) := by
  constructor
  · intro hb
    have ec : tInt.conv (base : Int) = base := tInt_conv_of (by omega) (by omega)
    obtain ⟨y, hy, hbits⟩ := C56_update_rt_bits hn hm hN hM x op base (base + k - 1) (by omega)
      (by omega) (fun j hj => hx j (by omega))
    refine ⟨y, ?_, fun i hi => ?_⟩
    · rw [Lg.updateBase]
      simp only [ec, if_true]
      rw [intRes_ok (by omega) (by omega), res_bind_ok, ← hy,
        show (base : Int) + ((k : Int) - 1) = ((base + k - 1 : Nat) : Int) by omega]
    · rw [hbits i hi]
      by_cases h : base ≤ i ∧ i < base + k
      · rw [if_pos (by omega), if_pos h, show min base (base + k - 1) = base by omega]
      · rw [if_neg (by omega), if_neg h]
  · intro hb hkb
    have ec : tInt.conv (base : Int) = base := tInt_conv_of (by omega) (by omega)
    obtain ⟨y, hy, hbits⟩ := C56_update_rt_bits hn hm hN hM x op base (base + 1 - k) (by omega)
      (by omega) (fun j hj => hx j (by omega))
    refine ⟨y, ?_, fun i hi => ?_⟩
    · rw [Lg.updateBase]
      simp only [ec, Bool.false_eq_true, if_false]
      rw [intRes_ok (by omega) (by omega), res_bind_ok, ← hy,
        show (base : Int) - ((k : Int) - 1) = ((base + 1 - k : Nat) : Int) by omega]
    · rw [hbits i hi]
      by_cases h : base < i + k ∧ i ≤ base
      · rw [if_pos (by omega), if_pos h, show i - min base (base + 1 - k) = i + k - base - 1 by omega]
      · rw [if_neg (by omega), if_neg h]

/-- `x[base +: k]` read back after `x[base +: k] = v` is `v` when `v` has `k` bits -/
theorem C111_read_back (hN : n ≤ 2 ^ 31) (h1 : 1 < n) (x : Bits n s) (k base : Nat) (v : Bits k t) (h0 : 0 < k)
    (hb : base + k ≤ n) :
    ∃ y z, x.updateBase (Rng.down n) k true base (Rng.down k) v = .ok y ∧
      y.sliceBase (Rng.down n) k true base = .ok z ∧ z.bv = v.bv := by
  obtain ⟨y, hy, hbits, -⟩ := (C111_part_select_partial (by omega) hN (by omega) x v k base h0 le_rfl).1 hb
  obtain ⟨z, hz, hzb⟩ := (C51_base_partial h1 hN y k base h0).1 hb
  refine ⟨y, z, hy, hz, BitVec.eq_of_getLsbD_eq fun i hi => ?_⟩
  rw [hzb i hi, hbits _ (by omega), if_pos (by omega), Nat.add_sub_cancel_left]

/-- `a[2 +: 4] = 10` and `a[5 -: 4] = 10` on eight bits -/
example : ((Bits.ofInt 0 : Bits 8 false).updateBase (Rng.down 8) 4 true 2 (Rng.down 4)
    (Bits.ofInt 10 : Bits 4 false)).map (·.bv) = .ok 0x28#8 ∧
  ((Lg.ofInt 0xff : Lg 8 false).updateBase (Rng.down 8) 4 false 5 (Rng.down 4)
    (Lg.ofInt 10 : Lg 4 false)).map (·.value.bv) = .ok 0xeb#8 := by decide +kernel

/-- the case of `tests/test_logic.cc` 1336-1342: `a[4 +: 4] = 0` on 16 ones -/
example : ((Bits.ofInt 0xffff : Bits 16 false).updateBase (Rng.down 16) 4 true 4 (Rng.down 4)
    (Bits.ofInt 0 : Bits 4 false)).map (·.bv) = .ok 0xff0f#16 := by decide +kernel

/-- **C111 is false as stated.** `x[0 +: 33] = v` with an eight bit `v` is undefined
behaviour. `x[3 +: 4] = 15` on five bits, whose upper two bits lie outside, leaves a
value that differs from the five bit value with the same bits. `x[4 -: 6]`, which starts
below bit 0, is undefined behaviour. -/
theorem C111_refuted :
    (Bits.ofInt 0 : Bits 64 false).updateBase (Rng.down 64) 33 true 0 (Rng.down 8) (Bits.ofInt 15 : Bits 8 false) =
      .error .shift ∧
    ((Bits.ofInt 0 : Bits 5 false).updateBase (Rng.down 5) 4 true 3 (Rng.down 4) (Bits.ofInt 15 : Bits 4 false)).map
      (fun y => (y.bv, y.eq (Bits.ofInt 24 : Bits 5 false))) = .ok (24#5, false) ∧
    (Bits.ofInt 0 : Bits 8 false).updateBase (Rng.down 8) 6 false 4 (Rng.down 6) (Bits.ofInt 63 : Bits 6 false) =
      .error .shift ∧
    (∀ (x op : Lg 100 false), (∀ i, i < 100 → op.at i = .x) →
      x.updateBase (Rng.down 100) 100 true 0 (Rng.down 100) op = .error .shift) := by
  refine ⟨by decide +kernel, by decide +kernel, by decide +kernel, fun x op h => ?_⟩
  rw [Lg.updateBase]
  simp only [if_true]
  rw [show tInt.conv 0 = 0 by decide, intRes_ok (by decide) (by decide), res_bind_ok, C56_update_swap, C56_update_rt]
  exact C55_refuted.1 x op h
end Verif
