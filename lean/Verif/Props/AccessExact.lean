import Verif.Lemmas.AccessExact
import Verif.Props.Access

/-!
# Single-bit access at every index (C04, C06, C118)

Completes `Props/Access.lean`: which ranges are addressed consistently, and what
reads and writes of 2-state objects do at any `int` index.
-/

namespace Verif

variable {n m : Nat} {s t : Bool}

/-! ## C04 -/

/-- **C04, every range with another low bound.** Whatever the bounds, if the low bound
is not 0 there is a declared index at which writing 1 into the zero value is not read
back as 1. -/
theorem C04_base_refuted_all (r : Rng) (h0 : r.lo ≠ 0) (hl : -2 ^ 31 ≤ r.lo) (hh : r.hi < 2 ^ 31) :
    ∃ i, r.lo ≤ i ∧ i ≤ r.hi ∧
      ∀ y, (Bits.zero : Bits r.size s).set r i true = .ok y → y.get r i ≠ .ok true := by
  have hsz : (r.size : Int) = r.hi - r.lo + 1 := by
    simp only [Rng.size, Rng.hi, Rng.lo]; omega
  have hle : r.lo ≤ r.hi := by simp only [Rng.hi, Rng.lo]; omega
  have hconv : ∀ a : Int, -2 ^ 33 ≤ a → a < 0 → 2 ^ 63 ≤ (tU64.conv a).toNat := by
    intro a h1 h2; simp only [CTy.conv]; omega
  have hN : r.size ≤ 2 ^ 32 := by omega
  by_cases hb : r.lsb ≤ r.msb
  · -- descending: index `lo` is written at position 0 and read at position `lo`
    have hlo : r.lo = r.lsb := by simp only [Rng.lo]; omega
    have hphys : Bits.physIdx r r.lo = r.lo := by
      simp [Bits.physIdx, Rng.bigEndian, hb]
    refine ⟨r.lo, le_refl _, hle, fun y hy hg => ?_⟩
    obtain ⟨y', hy', hr⟩ := Bits.set_phys r (Bits.zero : Bits r.size s) r.lo 0 (by rw [hphys]; simp)
      (by omega) hN true
    rw [hy] at hy'
    obtain rfl : y = y' := by simpa using hy'
    by_cases h : r.size ≤ 64
    · by_cases hneg : Bits.physIdx r r.lo < 0 ∨
          ((holderTy r.size s).promote.width : Int) ≤ Bits.physIdx r r.lo
      · rw [Bits.get_native_fault r h y r.lo hneg] at hg; cases hg
      · rw [Bits.get_native_exact r h y r.lo r.lo.toNat (by omega) (by omega), Except.ok.injEq,
          Bits.promBit] at hg
        split at hg
        · rw [hr, if_neg (by omega), Bits.raw_zero] at hg; cases hg
        · by_cases h1 : 1 < r.size
          · have := hw_ge_eight (n := r.size) (by omega)
            rw [hr, if_neg (by omega), Bits.raw_zero] at hg; simp at hg
          · simp [h1] at hg
    · by_cases hneg : r.lo < 0
      · have := hconv r.lo (by omega) hneg
        rw [Bits.get_big_out r h y r.lo (by rw [hphys]; omega)] at hg; cases hg
      · by_cases hin : r.lo < r.size
        · rw [Bits.get_phys r y r.lo r.lo.toNat (by omega) (by omega) hN, Bits.getLsbD_bv, hr,
            if_neg (by omega), Bits.raw_zero] at hg
          simp at hg
        · rw [Bits.get_big_out r h y r.lo (by
            rw [hphys, tU64_conv_of (by omega) (by omega)]; omega)] at hg
          cases hg
  · -- ascending: index `i` is written at position `hi - lo - i` and read at `hi - i`
    have hlo : r.hi = r.lsb := by simp only [Rng.hi]; omega
    have h1 : 1 < r.size := by simp only [Rng.size]; omega
    have hphys : ∀ i, Bits.physIdx r i = r.hi - i := by
      intro i; simp [Bits.physIdx, Rng.bigEndian, hb, hlo]
    by_cases hpos : 0 < r.lo
    · refine ⟨r.hi, hle, le_refl _, fun y hy hg => ?_⟩
      by_cases h : r.size ≤ 64
      · have := hconv (-r.lo) (by omega) (by omega)
        simp only [Bits.set, h, dif_pos, hphys, sub_self, zero_sub] at hy
        rw [Bits.setNat_fault h _ _ _ (Or.inr (by
          show 64 ≤ tU64.conv (-r.lo); omega))] at hy
        cases hy
      · have := hconv (-r.lo) (by omega) (by omega)
        rw [Bits.set_out_big h r _ _ _ (by
          rw [hphys, sub_self, zero_sub]; omega), Except.ok.injEq] at hy
        subst hy
        rw [Bits.get_phys r _ r.hi 0 (by rw [hphys]; simp) (by omega) hN, Bits.getLsbD_bv,
          Bits.raw_zero] at hg
        simp at hg
    · refine ⟨r.lo, le_refl _, hle, fun y hy hg => ?_⟩
      have hq : Bits.physIdx r r.lo - r.lo = ((r.size - 1 + (-r.lo).toNat : Nat) : Int) := by
        rw [hphys]; omega
      have hp : Bits.physIdx r r.lo = ((r.size - 1 : Nat) : Int) := by rw [hphys]; omega
      have hc : tU64.conv ((r.size - 1 + (-r.lo).toNat : Nat) : Int) =
          ((r.size - 1 + (-r.lo).toNat : Nat) : Int) := tU64_conv_of (by omega) (by omega)
      have key : y.raw (r.size - 1) = false := by
        by_cases h : r.size ≤ 64
        · simp only [Bits.set, h, dif_pos, hq] at hy
          by_cases h64 : r.size - 1 + (-r.lo).toNat < 64
          · obtain ⟨y', hy', hr⟩ := Bits.setNat_exact h h1 (Bits.zero : Bits r.size s)
              (TV.u64 ((r.size - 1 + (-r.lo).toNat : Nat) : Int)) _ hc h64 true
            rw [hy] at hy'
            obtain rfl : y = y' := by simpa using hy'
            rw [hr, if_neg (by omega), Bits.raw_zero]
          · rw [Bits.setNat_fault h _ _ _ (Or.inr (by
              show 64 ≤ tU64.conv _; rw [hc]; omega))] at hy
            cases hy
        · rw [Bits.set_out_big h r _ _ _ (by rw [hq, hc]; omega), Except.ok.injEq] at hy
          subst hy
          exact Bits.raw_zero _
      rw [Bits.get_phys r y r.lo (r.size - 1) hp (by omega) hN, Bits.getLsbD_bv, key] at hg
      simp at hg

/-- **C04, exactly.** A 2-state range with `int` bounds reads back every write, and
nothing else changes, if and only if its low bound is 0. -/
theorem C04_base_iff (r : Rng) (hl : -2 ^ 31 ≤ r.lo) (hh : r.hi < 2 ^ 31) :
    (∀ (x : Bits r.size s) (i : Int) (v : Bool), r.lo ≤ i → i ≤ r.hi →
      ∃ y, x.set r i v = .ok y ∧ y.get r i = .ok v ∧
        ∀ j, r.lo ≤ j → j ≤ r.hi → j ≠ i → ∃ b, x.get r j = .ok b ∧ y.get r j = .ok b) ↔
    r.lo = 0 := by
  constructor
  · intro h
    by_contra h0
    obtain ⟨i, h1, h2, h3⟩ := C04_base_refuted_all (s := s) r h0 hl hh
    obtain ⟨y, hy, hg, -⟩ := h Bits.zero i true h1 h2
    exact h3 y hy hg
  · intro h0 x i v h1 h2
    exact C04_base_bit_partial r x h0 (by simp only [Rng.size, Rng.lo, Rng.hi] at *; omega) i h1 h2 v

-- the kinds of range: `bit<20,5>`, `bit<3,-2>`, `bit<1,80>`, `bit<-3,70>`
example : (Bits.zero : Bits 16 true).set ⟨20, 5⟩ 5 true = .ok (Bits.ofInt 1) ∧
    (Bits.ofInt 1 : Bits 16 true).get ⟨20, 5⟩ 5 = .ok false := by decide
example : (Bits.zero : Bits 6 false).set ⟨3, -2⟩ (-2) true = .ok (Bits.ofInt 1) ∧
    (Bits.ofInt 1 : Bits 6 false).get ⟨3, -2⟩ (-2) = .error .shift := by decide
example : (Bits.zero : Bits 80 false).set ⟨1, 80⟩ 80 true = .ok Bits.zero ∧
    (Bits.zero : Bits 80 false).get ⟨1, 80⟩ 80 = .ok false := by decide +kernel
example : (Bits.zero : Bits 74 false).set ⟨-3, 70⟩ (-3) true = .ok Bits.zero ∧
    (Bits.zero : Bits 74 false).get ⟨-3, 70⟩ (-3) = .ok false := by decide +kernel

/-! ## C06 -/

/-- **C06, native values of `[n-1:0]`, every index outside the range.** A negative index
or one from 64 on is an undefined shift. An index beyond the storage is ignored. An
index in the padding of the storage changes that padding bit and nothing else, so the
declared bits keep their values. -/
theorem C06_native_exact (h1 : 1 < n) (h : n ≤ 64) (x : Bits n s) (i : Int)
    (hi : -2 ^ 31 ≤ i ∧ i < 2 ^ 31) (v : Bool) :
    (i < 0 ∨ 64 ≤ i → x.set (Rng.down n) i v = .error .shift) ∧
    ((hw n : Int) ≤ i → i < 64 → x.set (Rng.down n) i v = .ok x) ∧
    ((n : Int) ≤ i → i < hw n →
      ∃ y, x.set (Rng.down n) i v = .ok y ∧ y.bv = x.bv ∧
        ∀ j : Nat, y.raw j = if (j : Int) = i then v else x.raw j) := by
  have hs : x.set (Rng.down n) i v = Bits.setNat h x (TV.u64 i) v := by
    simp only [Bits.set, h, dif_pos, Bits.physIdx_down (show 0 < n by omega),
      Rng.lo_down (show 0 < n by omega), Int.sub_zero]
  have hnw := le_hw h
  have hw64 := hw_le n
  have hpos : ∀ k : Nat, i = k → k < 64 → ∃ y, x.set (Rng.down n) i v = .ok y ∧
      ∀ j, y.raw j = if j = k ∧ j < hw n then v else x.raw j := by
    intro k e hk
    rw [hs]
    exact Bits.setNat_exact h h1 x _ k (by rw [e]; exact tU64_conv_of (by omega) (by omega)) hk v
  refine ⟨fun hf => ?_, fun ha hb => ?_, fun ha hb => ?_⟩
  · rw [hs]
    apply Bits.setNat_fault
    right
    show 64 ≤ tU64.conv i
    simp only [CTy.conv]
    omega
  · obtain ⟨y, hy, hr⟩ := hpos i.toNat (by omega) (by omega)
    rw [hy]
    congr 1
    apply Bits.ext_native h
    apply BitVec.eq_of_getLsbD_eq
    intro j hj
    rw [← Bits.raw_native h, ← Bits.raw_native h, hr, if_neg (by omega)]
  · obtain ⟨y, hy, hr⟩ := hpos i.toNat (by omega) (by omega)
    refine ⟨y, hy, ?_, fun j => ?_⟩
    · apply Bits.bv_eq_of_raw
      intro j hj
      rw [hr, if_neg (by omega)]
    · rw [hr]
      by_cases e : (j : Int) = i
      · rw [if_pos e, if_pos (by omega)]
      · rw [if_neg e, if_neg (by omega)]

/-- **C06, which native widths are safe.** For a native width above 1, every write to a
canonical value at an index from the width to 63 is ignored if and only if the width is
8, 16, 32 or 64. -/
theorem C06_native_iff (h1 : 1 < n) (h : n ≤ 64) :
    (∀ (x : Bits n s) (i : Int) (v : Bool), x.Clean → (n : Int) ≤ i → i < 64 →
      x.set (Rng.down n) i v = .ok x) ↔ n = 8 ∨ n = 16 ∨ n = 32 ∨ n = 64 := by
  have hf : (n = 8 ∨ n = 16 ∨ n = 32 ∨ n = 64) ↔ hw n = n := by
    rw [← Bits.full_iff (by omega) h, Full]; omega
  have hnw := le_hw h
  rw [hf]
  constructor
  · intro H
    by_contra hne
    obtain ⟨x, hx, -⟩ := Bits.exists_clean (n := n) (s := s) 0
    have hset := H x n (!x.raw n) hx (le_refl _) (by have := hw_le n; omega)
    obtain ⟨-, -, hex⟩ := C06_native_exact h1 h x n (by omega) (!x.raw n)
    obtain ⟨y, hy, -, hr⟩ := hex (le_refl _) (by omega)
    rw [hset] at hy
    obtain rfl : x = y := by simpa using hy
    have := hr n
    simp at this
  · intro e x i v _ ha hb
    exact (C06_native_exact h1 h x i (by omega) v).2.1 (by omega) hb

/-- **C06, one-bit values.** Writing 1 at any index from 1 to 63 sets the single bit;
writing 0 there is ignored. -/
theorem C06_one_bit (x : Bits 1 s) (i : Int) (h0 : 0 < i) (h : i < 64) :
    (∃ y, x.set (Rng.down 1) i true = .ok y ∧ y.bv = 1) ∧
    x.set (Rng.down 1) i false = .ok x := by
  obtain ⟨k, rfl⟩ := Int.eq_ofNat_of_zero_le (by omega : 0 ≤ i)
  have hk : k < 64 := by omega
  have hk0 : 0 < k := by omega
  have hx : x = Bits.mkN (by decide) ⟨.bool, 0⟩ ∨ x = Bits.mkN (by decide) ⟨.bool, 1⟩ := by
    rcases Bits.nv_one (by decide) (by decide) x with e | e
    · left; rw [← e, Bits.mkN_nv]
    · right; rw [← e, Bits.mkN_nv]
  clear h h0
  have key : ∀ s, ∀ k : Nat, k < 64 → 0 < k → ∀ b : Bool,
      ((Bits.mkN (by decide) ⟨.bool, if b then 1 else 0⟩ : Bits 1 s).set (Rng.down 1) k true =
        .ok (Bits.mkN (by decide) ⟨.bool, 1⟩)) ∧
      ((Bits.mkN (by decide) ⟨.bool, if b then 1 else 0⟩ : Bits 1 s).set (Rng.down 1) k false =
        .ok (Bits.mkN (by decide) ⟨.bool, if b then 1 else 0⟩)) := by decide +kernel
  have h1 : ∀ s, (Bits.mkN (by decide) ⟨.bool, 1⟩ : Bits 1 s).bv = 1 := by decide
  rcases hx with rfl | rfl
  · obtain ⟨e1, e2⟩ := key s k hk hk0 false
    exact ⟨⟨_, e1, h1 s⟩, e2⟩
  · obtain ⟨e1, e2⟩ := key s k hk hk0 true
    exact ⟨⟨_, e1, h1 s⟩, e2⟩

-- width 12: index 14 lies in the padding, 20 beyond it, 64 and -1 are undefined
example : (Bits.ofInt 9 : Bits 12 false).set (Rng.down 12) 14 true = .ok (.nat (by decide) 0x4009) ∧
    (Bits.ofInt 9 : Bits 12 false).set (Rng.down 12) 20 true = .ok (Bits.ofInt 9) ∧
    (Bits.ofInt 9 : Bits 12 false).set (Rng.down 12) 64 true = .error .shift ∧
    (Bits.ofInt 9 : Bits 12 false).set (Rng.down 12) (-1) false = .error .shift := by decide

/-! ## C118 -/

/-- the width of the promoted holder of a native value: `int` up to 32 bits, 64 above -/
theorem promote_width_eq (h : n ≤ 64) :
    (holderTy n s).promote.width = if n ≤ 32 then 32 else 64 := by
  by_cases h1 : n ≤ 1
  · rw [holderTy_one h1, if_pos (by omega)]; rfl
  · rw [holderTy_ge h1, hw]
    split_ifs <;> first | rfl | omega

/-- **C118, wide values.** Reading a wide 2-state value of `[n-1:0]` at any index outside
the range yields 0, signed or not. -/
theorem C118_wide_zero (hw : 64 < n) (hN : n ≤ 2 ^ 31) (x : Bits n s) (i : Int)
    (hi : -2 ^ 31 ≤ i ∧ i < 2 ^ 31) (ho : i < 0 ∨ (n : Int) ≤ i) :
    x.get (Rng.down n) i = .ok false := by
  apply Bits.get_big_out _ (by omega)
  rw [Bits.physIdx_down (by omega)]
  simp only [CTy.conv]
  omega

/-- **C118, unsigned native values.** Reading a canonical unsigned native value at any
index from its width up to the width of the promoted holder yields 0. Missing: signed
values (`C118_signed_refuted`), and negative and larger indices
(`C118_native_fault_refuted`). -/
theorem C118_native_zero_partial (hn : 0 < n) (h : n ≤ 64) {x : Bits n false} (hx : x.Clean) (i : Int)
    (h1 : (n : Int) ≤ i) (h2 : i < if n ≤ 32 then 32 else 64) :
    x.get (Rng.down n) i = .ok false := by
  rw [Bits.get_native_clean _ h hx i i.toNat (by rw [Bits.physIdx_down hn]; omega) (by omega)
    (by rw [promote_width_eq h]; split_ifs at h2 ⊢ <;> omega)]
  rfl

/-- **C118 is false for native values at other indices.** A negative index, or an index
from 32 (64 for more than 32 bits) on, is an undefined shift, for every native value. -/
theorem C118_native_fault_refuted (hn : 0 < n) (h : n ≤ 64) (x : Bits n s) (i : Int)
    (hi : i < 0 ∨ (if n ≤ 32 then 32 else 64) ≤ i) :
    x.get (Rng.down n) i = .error .shift := by
  apply Bits.get_native_fault _ h
  rw [Bits.physIdx_down hn, promote_width_eq h]
  rcases hi with e | e
  · exact Or.inl e
  · right; split_ifs at e ⊢ <;> exact_mod_cast e

/-- **C118 is false for signed native values.** For every signed native width above 1 and
every index from the width up to the width of the promoted holder the read yields the
sign bit, so it yields 1 for every negative value. -/
theorem C118_signed_refuted (h1 : 1 < n) (h : n ≤ 64) {x : Bits n true} (hx : x.Clean) (i : Int)
    (hi : (n : Int) ≤ i) (h2 : i < if n ≤ 32 then 32 else 64) :
    x.get (Rng.down n) i = .ok x.bv.msb := by
  rw [Bits.get_native_clean _ h hx i i.toNat (by rw [Bits.physIdx_down (by omega)]; omega) (by omega)
    (by rw [promote_width_eq h]; split_ifs at h2 ⊢ <;> omega)]
  simp [h1]

example : (Bits.ofInt 0xfff : Bits 12 false).get (Rng.down 12) 31 = .ok false ∧
    (Bits.ofInt (-1) : Bits 12 true).get (Rng.down 12) 31 = .ok true ∧
    (Bits.ofInt 0xfff : Bits 12 false).get (Rng.down 12) 32 = .error .shift ∧
    (Bits.ofInt (-1) : Bits 100 true).get (Rng.down 100) 100 = .ok false ∧
    (Bits.ofInt (-1) : Bits 100 true).get (Rng.down 100) (-1) = .ok false := by decide +kernel

end Verif
