import Verif.Lemmas.Slice
import Verif.Lemmas.OfBV
import Verif.Lemmas.Compare
import Verif.Show

/-!
# Slices (C49 - C51, C89)

`max a b - min a b + 1` is the width of the slice.
-/

namespace Verif

variable {n : Nat} {s : Bool}

theorem Bits.limb0_bits {k : Nat} (hk : k ≤ 64) (h0 : 0 < k) {v : Big k false} (hc : v.Clean) (i : Nat) :
    (Bits.mkN hk ⟨tU64, ((v.limb 0).toNat : Int)⟩ : Bits k false).raw i = v.get i := by
  have hb : ∀ j, ibit ((v.limb 0).toNat : Int) j = v.get j := by
    intro j
    have e : ibit ((v.limb 0).toNat : Int) j = (v.limb 0).getLsbD j := by
      by_cases hj : j < 64
      · have := getLsbD_ibit 64 ((v.limb 0).toNat : Int) j
        rw [show BitVec.ofInt 64 ((v.limb 0).toNat : Int) = v.limb 0 by
          rw [BitVec.ofInt_natCast, BitVec.ofNat_toNat, BitVec.setWidth_eq]] at this
        simpa [hj] using this.symm
      · rw [BitVec.getLsbD_of_ge _ _ (by omega)]
        exact ibit_of_lt (by omega) (w := 64) (by exact_mod_cast (v.limb 0).isLt) (by omega)
    rw [e, hc.get]
    by_cases hj : j < 64
    · rw [Big.raw_eq, Nat.div_eq_of_lt hj, Nat.mod_eq_of_lt hj]
    · rw [BitVec.getLsbD_of_ge _ _ (by omega), (Big.clean_iff v).1 hc j (by omega)]
  exact Bits.mkN_slice hk h0 hb (fun j hj => by rw [hc.get, (Big.clean_iff v).1 hc j hj]) i

/-- the wide constant slice is exact for both signednesses -/
theorem Bits.slice_wide (h : ¬ n ≤ 64) (r : Rng) (x : Bits n s) (a b : Nat) (h65 : max a b - min a b ≠ 64) :
    ∃ z, x.slice r a b = .ok z ∧
      ∀ i, z.raw i = (decide (i ≤ max a b - min a b) && x.bv.getLsbD (min a b + i)) := by
  have hg := fun i => Big.sliceFixed_get (x.bg h) a b i
  have hc := Big.sliceFixed_clean (x.bg h) a b
  by_cases hk : max a b - min a b + 1 ≤ 64
  · refine ⟨_, by rw [Bits.slice, dif_neg h]; simp only; rw [dif_pos hk], fun i => ?_⟩
    rw [Bits.limb0_bits hk (by omega) hc, hg, Bits.bv_big h, Big.getLsbD_bv]
  · refine ⟨_, by rw [Bits.slice, dif_neg h]; simp only; rw [dif_neg hk, if_neg h65], fun i => ?_⟩
    rw [Bits.raw_big hk]
    show (Big.sliceFixed a b (x.bg h)).raw i = _
    rw [← hc.get, hg, Bits.bv_big h, Big.getLsbD_bv]

/-- unsigned native constant slices, any low bound -/
theorem Bits.slice_native_unsigned (h : n ≤ 64) (r : Rng) (x : Bits n false) {a b p q : Nat}
    (hp : ((min a b : Nat) : Int) - r.lo = p) (hq : ((max a b : Nat) : Int) - r.lo = q) (hqn : q < n) :
    ∃ z, x.slice r a b = .ok z ∧
      ∀ i, z.raw i = (decide (i ≤ max a b - min a b) && x.bv.getLsbD (p + i)) := by
  have hk : max a b - min a b + 1 ≤ 64 := by omega
  by_cases h1 : 1 < n
  · obtain ⟨v, hv, hb⟩ := (Bits.slice_native h h1 r x hk hp hq hqn).1 (by have := le_hw h; simp; omega)
    refine ⟨_, hv, fun i => ?_⟩
    have hb' : ∀ j, ibit v.v j = (decide (j ≤ max a b - min a b) && x.bv.getLsbD (p + j)) := by
      intro j
      rw [hb, Bits.getLsbD_bv]
      by_cases hj : j ≤ max a b - min a b
      · rw [if_pos (by simp; omega)]
        have : p + j < n := by omega
        simp [hj, this]
      · rw [if_neg (by simp; omega)]; simp [hj]
    exact Bits.mkN_slice hk (by omega) hb' (fun j hj => by simp; omega) i
  · have hn1 : n = 1 := by omega
    subst hn1
    have hq0 : q = 0 := by omega
    have hp0 : p = 0 := by omega
    have hab : max a b = min a b := by omega
    subst hp0 hq0
    have hz : max a b - min a b + 1 = 1 := by omega
    refine ⟨Bits.mkN hk ⟨.bool, if x.nv.v != 0 then 1 else 0⟩, ?_, fun i => ?_⟩
    · rw [Bits.slice, dif_pos h, dif_pos hk, Bits.sliceNat]
      simp only
      rw [if_pos ⟨hz, trivial⟩]
    · have hb : ∀ j, ibit (if x.nv.v != 0 then 1 else 0) j = (decide (j ≤ max a b - min a b) && x.bv.getLsbD (0 + j)) := by
        intro j
        rw [Bits.getLsbD_bv, Nat.zero_add]
        rcases j with _ | j
        · rw [Bits.raw_nv (by decide) x (show 0 < hw 1 by decide)]
          rcases Bits.nv_one (by decide) (by decide) x with e | e <;> rw [e] <;> simp [ibit]
        · have h1 : ¬ j + 1 ≤ max a b - min a b := by omega
          simp only [h1, decide_false, Bool.false_and]
          split
          · exact ibit_of_lt (w := 1) (by decide) (by decide) (by omega)
          · exact ibit_zero _
      exact Bits.mkN_slice hk (by omega) (v := ⟨.bool, if x.nv.v != 0 then 1 else 0⟩) hb
        (fun j hj => by simp; omega) i

theorem clean_and_bits {k c : Nat} {z : Bits (c + 1) false} {x : Bits n s} {p : Nat} (hk : c = k)
    (hz : ∀ i, z.raw i = (decide (i ≤ k) && x.bv.getLsbD (p + i))) :
    z.Clean ∧ ∀ i, i ≤ k → z.bv.getLsbD i = x.bv.getLsbD (p + i) := by
  subst hk
  refine ⟨(Bits.clean_unsigned_iff _).2 fun i hi => by rw [hz]; simp; omega, fun i hi => ?_⟩
  have h1 : i < c + 1 := by omega
  rw [Bits.getLsbD_bv, hz]
  simp [hi, h1]

/-! ## C49 -/

/-- **C49, 2-state.** `slice<a,b>()` of an unsigned `[n-1:0]` value never faults, is
canonical, and its bit `i` is bit `min(a,b)+i` of the source. A slice of exactly 65
bits does not compile (`C49_65_bits`). -/
theorem C49_slice (x : Bits n false) (a b : Nat) (ha : a < n) (hb : b < n) (h65 : max a b - min a b ≠ 64) :
    ∃ z, x.slice (Rng.down n) a b = .ok z ∧ z.Clean ∧
      ∀ i, i ≤ max a b - min a b → z.bv.getLsbD i = x.bv.getLsbD (min a b + i) := by
  have hlo := Rng.lo_down (show 0 < n by omega)
  by_cases h : n ≤ 64
  · obtain ⟨z, hz, hr⟩ := Bits.slice_native_unsigned h (Rng.down n) x (a := a) (b := b) (p := min a b)
      (q := max a b) (by rw [hlo]; omega) (by rw [hlo]; omega) (by omega)
    exact ⟨z, hz, clean_and_bits rfl hr⟩
  · obtain ⟨z, hz, hr⟩ := Bits.slice_wide h (Rng.down n) x a b h65
    exact ⟨z, hz, clean_and_bits rfl hr⟩

/-- **C49, 65 bits.** Constant slices of exactly 65 bits do not compile, whatever the value:
the constraint of the small slice admits them and its body does not. -/
theorem C49_65_bits (r : Rng) (x : Bits n s) (a b : Nat) (h : 64 < n) (h65 : max a b - min a b = 64) :
    x.slice r a b = .error .illFormed := by
  rw [Bits.slice, dif_neg (by omega)]
  simp only
  rw [dif_neg (by omega), if_pos h65]

/-- **C49, 4-state.** -/
theorem C49_slice_logic (x : Lg n false) (a b : Nat) (ha : a < n) (hb : b < n) (h65 : max a b - min a b ≠ 64) :
    ∃ z, x.slice (Rng.down n) a b = .ok z ∧ z.Clean ∧
      ∀ i, i ≤ max a b - min a b → z.at i = x.at (min a b + i) := by
  obtain ⟨v, hv, hvc, hvb⟩ := C49_slice x.value a b ha hb h65
  obtain ⟨k, hk, hkc, hkb⟩ := C49_slice x.xz a b ha hb h65
  refine ⟨⟨v, k⟩, ?_, ⟨hvc, hkc⟩, fun i hi => ?_⟩
  · rw [Lg.slice, hv, res_bind_ok, hk, res_map_ok]
  · rw [Lg.at, Lg.at, hvb i hi, hkb i hi]

example : ((Bits.ofInt 0b10110100 : Bits 8 false).slice (Rng.down 8) 5 2).map (·.bv.toNat) = .ok 0b1101 := by
  decide +kernel

/-! ## C50 -/

/-- **C50, wide values**: exact and canonical. -/
theorem C50_slice_wide (h : 64 < n) (x : Bits n true) (a b : Nat) (h65 : max a b - min a b ≠ 64) :
    ∃ z, x.slice (Rng.down n) a b = .ok z ∧ z.Clean ∧
      ∀ i, i ≤ max a b - min a b → z.bv.getLsbD i = x.bv.getLsbD (min a b + i) := by
  obtain ⟨z, hz, hr⟩ := Bits.slice_wide (show ¬ n ≤ 64 by omega) (Rng.down n) x a b h65
  exact ⟨z, hz, clean_and_bits rfl hr⟩

/-- **C50, native values, exact.** For slices of more than one bit that do not reach the
top of the holder, the selected bits are right; the result is canonical exactly when
its holder has no spare bit or the bit above the slice is 0 (the mask of line 1139
reaches one bit too far). Missing: slices that reach the top of the holder, which are undefined
(`C50_refuted`), and one-bit slices (`C50_one_bit`). -/
theorem C50_slice_partial (h : n ≤ 64) (x : Bits n true) (a b : Nat) (ha : a < n) (hb : b < n)
    (hab : a ≠ b) (hq : max a b + 1 < hw n) :
    ∃ z, x.slice (Rng.down n) a b = .ok z ∧
      (∀ i, i ≤ max a b - min a b → z.bv.getLsbD i = x.bv.getLsbD (min a b + i)) ∧
      (z.Clean ↔ Full (max a b - min a b + 1) ∨ x.raw (max a b + 1) = false) := by
  have hlo := Rng.lo_down (show 0 < n by omega)
  have hk : max a b - min a b + 1 ≤ 64 := by omega
  have hk1 : 1 < max a b - min a b + 1 := by omega
  obtain ⟨v, hv, hbits⟩ := (Bits.slice_native h (by omega) (Rng.down n) x hk (p := min a b) (q := max a b)
    (by rw [hlo]; omega) (by rw [hlo]; omega) (by omega)).1 (by simpa using hq)
  simp only [if_true] at hbits
  have hraw : ∀ i, (Bits.mkN hk v : Bits _ false).raw i = (decide (i < hw (max a b - min a b + 1)) && ibit v.v i) :=
    Bits.raw_mkN hk hk1 v
  have hle := le_hw hk
  refine ⟨_, hv, fun i hi => ?_, ?_⟩
  · rw [Bits.getLsbD_bv, Bits.getLsbD_bv, hraw, hbits, if_pos (by omega)]
    have h1 : i < max a b - min a b + 1 := by omega
    have h2 : i < hw (max a b - min a b + 1) := by omega
    have h3 : min a b + i < n := by omega
    simp [h1, h2, h3]
  · rw [Bits.clean_unsigned_iff, Bits.full_iff (by omega) hk]
    constructor
    · intro hc
      by_cases hf : hw (max a b - min a b + 1) = max a b - min a b + 1
      · exact Or.inl hf
      · right
        have := hc (max a b - min a b + 1) (le_refl _)
        rw [hraw, hbits, if_pos (by omega)] at this
        have h2 : max a b - min a b + 1 < hw (max a b - min a b + 1) := by omega
        simp only [h2, decide_true, Bool.true_and] at this
        rw [show min a b + (max a b - min a b + 1) = max a b + 1 by omega] at this
        exact this
    · rintro (hf | hz) i hi
      · rw [hraw]; simp; omega
      · rw [hraw, hbits]
        by_cases hi2 : min a b + i ≤ max a b + 1
        · rw [if_pos hi2, show min a b + i = max a b + 1 by omega, hz]; simp
        · rw [if_neg hi2]
          by_cases hf : max a b + 1 + 1 = hw n
          · rw [show hw n - 1 = max a b + 1 by omega, hz]; simp
          · simp [hf]

/-- **C50, one-bit slices of native signed values**: the code returns the *or* of the
selected bit and the one above it. -/
theorem C50_one_bit (h : n ≤ 64) (h1 : 1 < n) (x : Bits n true) (a : Nat) (ha : a < n)
    (hq : a + 1 < hw n) :
    (x.slice (Rng.down n) a a).map (fun z => z.raw 0) = .ok (x.raw a || x.raw (a + 1)) := by
  have hlo := Rng.lo_down (show 0 < n by omega)
  have hm : max a a = a := by omega
  have hm' : min a a = a := by omega
  have hk : max a a - min a a + 1 ≤ 64 := by omega
  obtain ⟨v, hv, hbits⟩ := (Bits.slice_native h (by omega) (Rng.down n) x hk (p := a) (q := a)
    (by rw [hlo]; omega) (by rw [hlo]; omega) (by omega)).1 (by simpa using hq)
  simp only [if_true] at hbits
  rw [hv, res_map_ok]
  congr 1
  have e : ∀ k (hk : k ≤ 64), k = 1 → (Bits.mkN hk v : Bits k false).raw 0 = decide (v.v ≠ 0) := by
    intro k hk e
    subst e
    rw [Bits.raw_mkN_one]; simp
  rw [e _ hk (by omega), Bool.eq_iff_iff, decide_eq_true_iff, Bool.or_eq_true]
  constructor
  · intro hne
    obtain ⟨j, hj⟩ := exists_ibit hne
    rw [hbits] at hj
    split at hj
    · rcases j with _ | _ | j
      · exact Or.inl hj
      · exact Or.inr hj
      · omega
    · simp only [Bool.true_and, Bool.and_eq_true, decide_eq_true_iff] at hj
      obtain ⟨h2, h3⟩ := hj
      rw [show hw n - 1 = a + 1 by omega] at h3
      exact Or.inr h3
  · intro hor h0
    have z0 := hbits 0
    have z1 := hbits 1
    rw [h0, ibit_zero, if_pos (by omega)] at z0 z1
    rcases hor with h | h
    · rw [Nat.add_zero, h] at z0; exact absurd z0 (by decide)
    · rw [h] at z1; exact absurd z1 (by decide)

/-- **C50 is false of the code.** A signed slice that reaches the top bit of the holder
shifts by a huge amount (undefined behaviour), for every value of those widths; a
one-bit slice of the 4-bit signed value 0010 at index 0 is 1; the slice `[1:0]` of
the 4-bit signed 0101 is not canonical. -/
theorem C50_refuted :
    (∀ (n : Nat) (x : Bits n true) (b : Nat), (n = 8 ∨ n = 16 ∨ n = 32 ∨ n = 64) → b < n →
      x.slice (Rng.down n) (n - 1) b = .error .shift) ∧
    (((Bits.ofInt 2 : Bits 4 true).slice (Rng.down 4) 0 0).map (·.bv.toNat) = .ok 1) ∧
    (∃ z, (Bits.ofInt 5 : Bits 4 true).slice (Rng.down 4) 1 0 = .ok z ∧ ¬ z.Clean ∧
      z.eq (Bits.ofInt 1 : Bits 2 false) = false) := by
  refine ⟨fun n x b hn hb => ?_, by decide +kernel, ⟨Bits.ofInt 5, by decide +kernel⟩⟩
  have hlo := Rng.lo_down (show 0 < n by omega)
  have hw : hw n = n := by rcases hn with h | h | h | h <;> subst h <;> rfl
  exact (Bits.slice_native (by omega) (by omega) (Rng.down n) x (by omega) (p := min (n - 1) b)
    (q := max (n - 1) b) (by rw [hlo]; omega) (by rw [hlo]; omega) (by omega)).2 (by simp; omega)

/-! ## C51 -/

/-- the wide run-time slice -/
theorem Bits.sliceRt_wide (h : ¬ n ≤ 64) (hN : n ≤ 2 ^ 32) (r : Rng) (x : Bits n s) {k : Nat} (hk0 : 0 < k)
    {a b p q : Nat} (ha : a < n) (hb : b < n) (hp : min a b = p) (hq : max a b = q) (hk : q - p + 1 = k) :
    ∃ z, x.sliceRt r k a b = .ok z ∧ ∀ i, z.raw i = (decide (i < k) && x.bv.getLsbD (p + i)) := by
  have ea : (tU64.conv (a : Int)).toNat = a := by rw [tU64_conv_of (a := a) (by omega) (by omega)]; omega
  have eb : (tU64.conv (b : Int)).toNat = b := by rw [tU64_conv_of (a := b) (by omega) (by omega)]; omega
  obtain ⟨v, hv, hc, hg⟩ := Big.sliceRt_get (x.bg h) k a b (by omega)
  have hg' : ∀ i, v.get i = (decide (i < k) && x.bv.getLsbD (p + i)) := by
    intro i
    rw [hg, Bits.bv_big h, Big.getLsbD_bv, hp, hq]
    by_cases hi : i < k
    · have : i ≤ q - p := by omega
      simp [hi, this]
    · simp [hi]
  by_cases hk64 : k ≤ 64
  · refine ⟨_, by rw [Bits.sliceRt, dif_neg h, ea, eb, hv, res_map_ok, dif_pos hk64], fun i => ?_⟩
    rw [Bits.limb0_bits hk64 hk0 hc, hg']
  · refine ⟨_, by rw [Bits.sliceRt, dif_neg h, ea, eb, hv, res_map_ok, dif_neg hk64], fun i => ?_⟩
    rw [Bits.raw_big hk64]
    show v.raw i = _
    rw [← hc.get, hg']

/-- **C51, exact.** `slice<k>(a, b)` with `|a-b|+1 = k` in range, of any value wider than
one bit: the k selected bits are right. The result is canonical except when a signed
native source is negative and the slice reaches the top of its holder. Missing: one-bit values, for
which it is false (`C51_refuted`); `C51_canonical_iff` says exactly when the result is canonical. -/
theorem C51_slice_partial (h1 : 1 < n) (hN : n ≤ 2 ^ 32) (x : Bits n s) (k a b : Nat) (ha : a < n) (hb : b < n)
    (hk : max a b - min a b + 1 = k) :
    ∃ z, x.sliceRt (Rng.down n) k a b = .ok z ∧
      (∀ i, i < k → z.bv.getLsbD i = x.bv.getLsbD (min a b + i)) ∧
      (z.Clean ∨ (s = true ∧ n ≤ 64 ∧ max a b + 1 = hw n ∧ x.bv.getLsbD (n - 1) = true)) := by
  have hlo := Rng.lo_down (show 0 < n by omega)
  by_cases h : n ≤ 64
  · have hk64 : k ≤ 64 := by omega
    have hwn := le_hw h
    obtain ⟨v, hv, hbits⟩ := Bits.sliceRt_native h h1 (Rng.down n) x hk64 (a := a) (b := b) (p := min a b)
      (q := max a b) (by rw [hlo]; omega) (by rw [hlo]; omega) (by omega) (by omega)
    -- the bit of the result before conversion
    by_cases hfill : (s && decide (max a b + 1 = hw n) && x.raw (hw n - 1)) = true
    · rw [Bool.and_eq_true, Bool.and_eq_true, decide_eq_true_iff] at hfill
      obtain ⟨⟨hs, hq⟩, hr⟩ := hfill
      have hnw : hw n = n := by omega
      have hb0 : ∀ i, i < k → (Bits.mkN hk64 v : Bits k false).raw i = x.raw (min a b + i) := by
        intro i hi
        by_cases hk1 : k = 1
        · subst hk1
          have hi0 : i = 0 := by omega
          subst hi0
          rw [Bits.raw_mkN_one]
          have hab : max a b = min a b := by omega
          have hmin : min a b + 0 = hw n - 1 := by omega
          rw [hmin, hr]
          have z0 := hbits 0
          rw [if_pos (by omega), hmin, hr] at z0
          have : v.v ≠ 0 := by intro e; rw [e, ibit_zero] at z0; exact absurd z0 (by decide)
          simp [this]
        · rw [Bits.raw_mkN hk64 (by omega), hbits, if_pos (by omega)]
          have : i < hw k := by have := le_hw hk64; omega
          simp [this]
      refine ⟨_, hv, fun i hi => ?_, Or.inr ⟨hs, h, hq, ?_⟩⟩
      · rw [Bits.getLsbD_bv, Bits.getLsbD_bv, hb0 i hi]
        have : min a b + i < n := by omega
        simp [hi, this]
      · rw [Bits.getLsbD_bv]
        have : n - 1 < n := by omega
        rw [hnw] at hr
        simp [this, hr]
    · rw [Bool.not_eq_true] at hfill
      have hb' : ∀ j, ibit v.v j = (decide (j < k) && x.raw (min a b + j)) := by
        intro j
        rw [hbits, hfill]
        by_cases hj : j < k
        · rw [if_pos (by omega)]; simp [hj]
        · rw [if_neg (by omega)]; simp [hj]
      have hr := Bits.mkN_slice (t := false) hk64 (by omega) hb' (fun j hj => by simp; omega)
      refine ⟨_, hv, fun i hi => ?_, Or.inl ((Bits.clean_unsigned_iff _).2 fun i hi => by rw [hr]; simp; omega)⟩
      rw [Bits.getLsbD_bv, Bits.getLsbD_bv, hr]
      have : min a b + i < n := by omega
      simp [hi, this]
  · obtain ⟨z, hz, hr⟩ := Bits.sliceRt_wide h hN (Rng.down n) x (k := k) (by omega) ha hb rfl rfl hk
    refine ⟨z, hz, fun i hi => ?_, Or.inl ((Bits.clean_unsigned_iff _).2 fun i hi => by rw [hr]; simp; omega)⟩
    rw [Bits.getLsbD_bv, hr]
    simp [hi]

/-- **C51, 4-state** run-time slices of unsigned values wider than one bit: exact and
canonical. Missing: one-bit values, for which it is false (`C51_refuted`), and signed values, whose
planes are as in `C51_slice_partial`. -/
theorem C51_slice_logic_partial (h1 : 1 < n) (hN : n ≤ 2 ^ 32) (x : Lg n false) (k a b : Nat) (ha : a < n)
    (hb : b < n) (hk : max a b - min a b + 1 = k) :
    ∃ z, x.sliceRt (Rng.down n) k a b = .ok z ∧ z.Clean ∧ ∀ i, i < k → z.at i = x.at (min a b + i) := by
  obtain ⟨v, hv, hvb, hvc⟩ := C51_slice_partial h1 hN x.value k a b ha hb hk
  obtain ⟨m, hm, hmb, hmc⟩ := C51_slice_partial h1 hN x.xz k a b ha hb hk
  refine ⟨⟨v, m⟩, ?_, ⟨hvc.resolve_right (by simp), hmc.resolve_right (by simp)⟩, fun i hi => ?_⟩
  · rw [Lg.sliceRt, hv, res_bind_ok, hm, res_map_ok]
  · rw [Lg.at, Lg.at, hvb i hi, hmb i hi]

/-- **C51, `slice<k, increase>(base)`**: upwards the bits `base .. base+k-1`, downwards
`base-k+1 .. base`. Missing: one-bit values, for which it is false (`C51_refuted`). -/
theorem C51_base_partial (h1 : 1 < n) (hN : n ≤ 2 ^ 31) (x : Bits n s) (k base : Nat) (h0 : 0 < k) :
    (base + k ≤ n → ∃ z, x.sliceBase (Rng.down n) k true base = .ok z ∧
      ∀ i, i < k → z.bv.getLsbD i = x.bv.getLsbD (base + i)) ∧
    (base < n → k ≤ base + 1 → ∃ z, x.sliceBase (Rng.down n) k false base = .ok z ∧
      ∀ i, i < k → z.bv.getLsbD i = x.bv.getLsbD (base + 1 - k + i)) := by
  constructor
  · intro hb
    have ec : tInt.conv (base : Int) = base := tInt_conv_of (by omega) (by omega)
    obtain ⟨z, hz, hbits, _⟩ := C51_slice_partial h1 (by omega) x k base (base + k - 1) (by omega) (by omega) (by omega)
    refine ⟨z, ?_, fun i hi => ?_⟩
    · rw [Bits.sliceBase]
      simp only [ec, if_true]
      rw [intRes_ok (by omega) (by omega), res_bind_ok, ← hz,
        show (base : Int) + ((k : Int) - 1) = ((base + k - 1 : Nat) : Int) by omega]
    · rw [hbits i hi, show min base (base + k - 1) = base by omega]
  · intro hb hkb
    have ec : tInt.conv (base : Int) = base := tInt_conv_of (by omega) (by omega)
    obtain ⟨z, hz, hbits, _⟩ := C51_slice_partial h1 (by omega) x k base (base + 1 - k) (by omega) (by omega) (by omega)
    refine ⟨z, ?_, fun i hi => ?_⟩
    · rw [Bits.sliceBase]
      simp only [ec, Bool.false_eq_true, if_false]
      rw [intRes_ok (by omega) (by omega), res_bind_ok, ← hz,
        show (base : Int) - ((k : Int) - 1) = ((base + 1 - k : Nat) : Int) by omega]
    · rw [hbits i hi, show min base (base + 1 - k) = base + 1 - k by omega]

/-- **C51 is false of the code** for one-bit values: the run-time slice `[0:0]` of every
one-bit value is 0. For a signed 8-bit -1, `slice<4>(7,4)` is not canonical and is not
equal to 15. -/
theorem C51_refuted :
    (∀ x : Bits 1 s, (x.sliceRt (Rng.down 1) 1 0 0).map (·.bv.toNat) = .ok 0) ∧
    (∃ z, (Bits.ofInt (-1) : Bits 8 true).sliceRt (Rng.down 8) 4 7 4 = .ok z ∧ ¬ z.Clean ∧
      z.eq (Bits.ofInt 15 : Bits 4 false) = false) := by
  refine ⟨fun x => ?_, ⟨Bits.ofInt 255, by decide +kernel⟩⟩
  obtain ⟨v, hv⟩ : ∃ v : Bool, x = (Bits.ofInt (if v then 1 else 0) : Bits 1 s) := by
    rcases Bits.nv_one (by decide) (by decide) x with e | e
    · exact ⟨false, by rw [← Bits.mkN_nv (by decide) x, e]; cases s <;> decide⟩
    · exact ⟨true, by rw [← Bits.mkN_nv (by decide) x, e]; cases s <;> decide⟩
  rw [hv]
  cases v <;> cases s <;> decide +kernel

/-! ## C89: ranges with a non-zero low bound -/

/-- **C89, native unsigned values**: `slice<a,b>()` of a value declared `[msb:lsb]`,
`lsb ≤ msb`, takes the bits that `set` writes at the indices `min(a,b) ..`. Missing: wide values,
for which it is false (`C89_wide_exact`, `C89_refuted_all`), and native signed ones (C50). -/
theorem C89_slice_partial (r : Rng) (hr : r.size = n) (h : n ≤ 64) (hd : r.lsb ≤ r.msb) (x : Bits n false)
    (a b : Nat) (ha : r.lo ≤ a) (ha' : (a : Int) ≤ r.hi) (hb : r.lo ≤ b) (hb' : (b : Int) ≤ r.hi) :
    ∃ z, x.slice r a b = .ok z ∧ z.Clean ∧
      ∀ i, i ≤ max a b - min a b → z.bv.getLsbD i = x.bv.getLsbD (r.pos ((min a b + i : Nat) : Int)) := by
  have hlo : r.lo = r.lsb := by rw [Rng.lo]; omega
  have hhi : r.hi = r.msb := by rw [Rng.hi]; omega
  have hsz : (n : Int) = r.msb - r.lsb + 1 := by rw [← hr, Rng.size]; omega
  obtain ⟨z, hz, hraw⟩ := Bits.slice_native_unsigned h r x (a := a) (b := b)
    (p := (((min a b : Nat) : Int) - r.lo).toNat) (q := (((max a b : Nat) : Int) - r.lo).toNat)
    (by omega) (by omega) (by omega)
  obtain ⟨hc, hbits⟩ := clean_and_bits rfl hraw
  refine ⟨z, hz, hc, fun i hi => ?_⟩
  rw [hbits i hi]
  congr 1
  rw [Rng.pos, if_pos hd]
  omega

/-- **C89 is false of the code for wide values**: on a `[80:8]` value, after writing a
one at index 8, `slice<8,8>()` is 0, because the wide slice does not subtract the low
bound. -/
theorem C89_refuted : ∃ x : Bits 73 false,
    (Bits.zero : Bits 73 false).set ⟨80, 8⟩ 8 true = .ok x ∧
    (x.slice ⟨80, 8⟩ 8 8).map (·.bv.toNat) = .ok 0 := by
  refine ⟨.big (by decide) (Big.zero.set 0 true), ?_, ?_⟩ <;> decide +kernel

end Verif
