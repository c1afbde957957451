import Verif.Props.SliceExact
import Verif.Show

/-!
# Run-time part-selects that leave the vector (C127)

`slice<k>(a, b)` with bounds outside `[n-1:0]`. IEEE 1800 11.5.1: the bits outside read 0 in a
2-state and x in a 4-state vector, the bits inside read their value.
-/

namespace Verif

variable {n : Nat} {s : Bool}

/-- the storage of a clean native value above its width repeats the sign -/
theorem Bits.raw_above (h : n ≤ 64) (h1 : 1 < n) {x : Bits n s} (hx : x.Clean) {j : Nat} (hj : j < hw n) :
    x.raw j = if j < n then x.bv.getLsbD j else (s && x.bv.getLsbD (n - 1)) := by
  have e := Bits.ibit_nv h h1 x j
  rw [if_pos hj, (Bits.clean_native h x).1 hx, ibit_numOf (by omega)] at e
  rw [← e]
  simp [h1]

/-- a native slice within the holder -/
theorem Bits.sliceRt_raw (h : n ≤ 64) (h1 : 1 < n) (x : Bits n s) {k : Nat} (hk : k ≤ 64) {a b p q : Nat}
    (hp : min a b = p) (hq : max a b = q) (hqn : q < hw n) (hkq : q - p + 1 = k) :
    ∃ z, x.sliceRt (Rng.down n) k a b = .ok z ∧ ∀ i, i < k → z.raw i = x.raw (p + i) := by
  have hlo := Rng.lo_down (show 0 < n by omega)
  obtain ⟨v, hv, hb⟩ := Bits.sliceRt_holder h h1 (Rng.down n) x hk (a := a) (b := b) (p := p) (q := q)
    (by rw [hlo]; omega) (by rw [hlo]; omega) hqn
  refine ⟨_, hv, fun i hi => ?_⟩
  by_cases hk1 : k = 1
  · subst hk1
    obtain rfl : i = 0 := by omega
    rw [Bits.raw_mkN_one]
    simp only [decide_true, Bool.true_and]
    rw [Bool.eq_iff_iff, decide_eq_true_iff]
    have hqp : q = p := by omega
    constructor
    · intro hne
      obtain ⟨j, hj⟩ := exists_ibit hne
      rw [hb] at hj
      split_ifs at hj with hj'
      · rw [show p + 0 = p + j by omega]; exact hj
      · rw [Bool.and_eq_true, Bool.and_eq_true, decide_eq_true_iff] at hj
        rw [show p + 0 = hw n - 1 by omega]; exact hj.2
    · intro ht h0
      have := hb 0
      rw [h0, ibit_zero, if_pos (by omega), ht] at this
      exact absurd this (by decide)
  · rw [Bits.raw_mkN hk (by omega), hb, if_pos (by omega)]
    have : i < hw k := by have := le_hw hk; omega
    simp [this]

/-- **C127, native values, exact.** The slice is defined if and only if both bounds are inside
the holder of the value (8, 16, 32 or 64 bits); the bits outside the vector are then 0 for an
unsigned, the sign for a signed value. -/
theorem C127_native_exact (h : n ≤ 64) (h1 : 1 < n) (x : Bits n s) (hx : x.Clean) (k : Nat) (hk : k ≤ 64)
    (a b : Int) (hb : max a b < 2 ^ 31) (hab : max a b - min a b + 1 = k) :
    (0 ≤ min a b ∧ max a b < hw n → ∃ z, x.sliceRt (Rng.down n) k a b = .ok z ∧
      ∀ i : Nat, i < k → z.bv.getLsbD i =
        if min a b + i < n then x.bv.getLsbD ((min a b).toNat + i) else (s && x.bv.getLsbD (n - 1))) ∧
    (¬ (0 ≤ min a b ∧ max a b < hw n) → x.sliceRt (Rng.down n) k a b = .error .shift) := by
  have hlo := Rng.lo_down (show 0 < n by omega)
  have hwn := le_hw h
  constructor
  · rintro ⟨h0, hq⟩
    obtain ⟨z, hz, hr⟩ := Bits.sliceRt_raw h h1 x hk (a := a.toNat) (b := b.toNat) rfl rfl (by omega) (by omega)
    rw [Int.toNat_of_nonneg (by omega), Int.toNat_of_nonneg (by omega)] at hz
    refine ⟨z, hz, fun i hi => ?_⟩
    rw [Bits.getLsbD_bv, hr i hi, Bits.raw_above h h1 hx (by omega),
      show min a.toNat b.toNat + i = (min a b).toNat + i by omega]
    simp only [hi, decide_true, Bool.true_and]
    split_ifs with e1 e2 e2 <;> first | rfl | omega
  · intro hno
    by_cases h0 : 0 ≤ min a b
    · by_cases hpn : min a b < n
      · exact Bits.sliceRt_native_fault h h1 _ x hk (p := (min a b).toNat) (q := (max a b).toNat)
          (by rw [hlo]; omega) (by rw [hlo]; omega) (by omega) (by omega) (by omega)
      · -- the first mask shift may be legal
        have hsz : sizeofBits n = hw n := by rw [sizeofBits, if_neg (by omega)]
        rw [Bits.sliceRt, dif_pos h, dif_pos hk]
        simp only [hlo, sub_zero]
        cases hm : TV.shl (Bits.bitMask n) (TV.int (min a b)) with
        | error e =>
          rw [TV.shl] at hm
          split_ifs at hm
          injection hm with hm
          rw [← hm]; rfl
        | ok m1 =>
          rw [res_bind_ok, TV.shr_fault (Or.inr _)]
          · rfl
          · have hb' : (Bits.bitMask n).ty.promote.width ≤ 64 := by
              have := hw_le n
              rw [Bits.bitMask, holderMax, if_neg (by omega)]
              simp only [Bool.false_eq_true, if_false, CTy.promote]
              split <;> simp only [CTy.width] <;> omega
            have : (((Bits.bitMask n).ty.promote.width : Nat) : Int) ≤ 64 := by exact_mod_cast hb'
            have hc : 2 ^ 64 - 2 ^ 33 ≤ (TV.u64 ((sizeofBits n : Int) - max a b - 1)).v := by
              show _ ≤ tU64.conv _
              rw [hsz]
              simp only [CTy.conv]
              omega
            omega
    · rw [Bits.sliceRt, dif_pos h, dif_pos hk]
      simp only [hlo, sub_zero]
      have : TV.shl (Bits.bitMask n) (TV.int (min a b)) = .error .shift := by
        rw [TV.shl]; exact if_pos (Or.inl (by show min a b < 0; omega))
      rw [this]; rfl

/-- the wide slice for any bounds but -1 -/
theorem Bits.sliceRt_any (h : 64 < n) (x : Bits n s) {k : Nat} (hk0 : 0 < k) (a b : Int)
    {p q : Nat} (hp : min (tU64.conv a).toNat (tU64.conv b).toNat = p)
    (hq : max (tU64.conv a).toNat (tU64.conv b).toNat = q) (hq64 : q + 1 < 2 ^ 64) (hkq : k ≤ q - p + 1) :
    ∃ z, x.sliceRt (Rng.down n) k a b = .ok z ∧ z.Clean ∧ ∀ i, i < k → z.bv.getLsbD i = x.bv.getLsbD (p + i) := by
  have h' : ¬ n ≤ 64 := by omega
  obtain ⟨v, hv, hc, hg⟩ := Big.sliceRt_get (x.bg h') k (tU64.conv a).toNat (tU64.conv b).toNat (by omega)
  have hg' : ∀ i, v.get i = (decide (i < k) && x.bv.getLsbD (p + i)) := by
    intro i
    rw [hg, Bits.bv_big h', Big.getLsbD_bv, hp, hq]
    by_cases hi : i < k
    · have : i ≤ q - p := by omega
      simp [hi, this]
    · simp [hi]
  have key : ∀ z : Bits k false, (∀ i, z.raw i = (decide (i < k) && x.bv.getLsbD (p + i))) →
      z.Clean ∧ ∀ i, i < k → z.bv.getLsbD i = x.bv.getLsbD (p + i) := by
    intro z hz
    refine ⟨(Bits.clean_unsigned_iff _).2 fun i hi => by rw [hz]; simp; omega, fun i hi => ?_⟩
    rw [Bits.getLsbD_bv, hz]
    simp [hi]
  by_cases hk64 : k ≤ 64
  · refine ⟨_, by rw [Bits.sliceRt, dif_neg h', hv, res_map_ok, dif_pos hk64], key _ fun i => ?_⟩
    rw [Bits.limb0_bits hk64 hk0 hc, hg']
  · refine ⟨_, by rw [Bits.sliceRt, dif_neg h', hv, res_map_ok, dif_neg hk64], key _ fun i => ?_⟩
    rw [Bits.raw_big hk64]
    show v.raw i = _
    rw [← hc.get, hg']

/-- **C127, wide values, exact.** Bounds from 0 up read the selected bits, 0 outside; two bounds
below -1 read 0; a negative and a non-negative bound read the bits from the non-negative bound
*upwards*; a bound of -1 is an endless loop. -/
theorem C127_wide_exact (h : 64 < n) (hN : n ≤ 2 ^ 32) (x : Bits n s) (k : Nat) (a b : Int)
    (ha : -2 ^ 31 ≤ a ∧ a < 2 ^ 31) (hb : -2 ^ 31 ≤ b ∧ b < 2 ^ 31) (hab : max a b - min a b + 1 = k) :
    (0 ≤ min a b → ∃ z, x.sliceRt (Rng.down n) k a b = .ok z ∧ z.Clean ∧
      ∀ i, i < k → z.bv.getLsbD i = x.bv.getLsbD ((min a b).toNat + i)) ∧
    (max a b < -1 → ∃ z, x.sliceRt (Rng.down n) k a b = .ok z ∧ z.Clean ∧ z.bv = 0) ∧
    (min a b < -1 → 0 ≤ max a b → ∃ z, x.sliceRt (Rng.down n) k a b = .ok z ∧ z.Clean ∧
      ∀ i, i < k → z.bv.getLsbD i = x.bv.getLsbD ((max a b).toNat + i)) ∧
    (a = -1 ∨ b = -1 → x.sliceRt (Rng.down n) k a b = .error .diverge) := by
  have c : ∀ v : Int, -2 ^ 31 ≤ v → v < 2 ^ 31 → (tU64.conv v).toNat = if 0 ≤ v then v.toNat else (2 ^ 64 + v).toNat := by
    intro v h0 h1
    simp only [CTy.conv]
    split_ifs <;> omega
  have ca := c a ha.1 ha.2
  have cb := c b hb.1 hb.2
  refine ⟨fun h0 => ?_, fun h0 => ?_, fun h0 h1 => ?_, fun h0 => ?_⟩
  · rw [if_pos (by omega)] at ca cb
    exact Bits.sliceRt_any h x (by omega) a b (p := (min a b).toNat) (q := (max a b).toNat) (by omega) (by omega)
      (by omega) (by omega)
  · rw [if_neg (by omega)] at ca cb
    obtain ⟨z, hz, hc, hbits⟩ := Bits.sliceRt_any h x (k := k) (by omega) a b (p := (2 ^ 64 + min a b).toNat)
      (q := (2 ^ 64 + max a b).toNat) (by omega) (by omega) (by omega) (by omega)
    refine ⟨z, hz, hc, ?_⟩
    apply BitVec.eq_of_getLsbD_eq
    intro i hi
    rw [hbits i hi, BitVec.getLsbD_of_ge _ _ (by omega)]
    simp
  · exact Bits.sliceRt_any h x (k := k) (by omega) a b (p := (max a b).toNat)
      (q := (2 ^ 64 + min a b).toNat) (by split_ifs at ca cb <;> omega) (by split_ifs at ca cb <;> omega) (by omega)
      (by omega)
  · rw [Bits.sliceRt, dif_neg (by omega), Big.sliceRt, if_pos]
    · rfl
    · have : (tU64.conv (-1)).toNat = 2 ^ 64 - 1 := by decide
      rcases h0 with rfl | rfl <;> rw [this] <;> omega

/-- **C127, 2-state unsigned values, partial.** Bounds from 0 up, for a native value within its
holder: the bits inside are right, those outside are 0. Missing: the other bounds
(`C127_refuted`), 4-state vectors (`C127_logic_refuted`). -/
theorem C127_slice_partial (h1 : 1 < n) (hN : n ≤ 2 ^ 32) (x : Bits n false) (hx : x.Clean) (k a b : Nat)
    (hb : max a b < 2 ^ 31) (hab : max a b - min a b + 1 = k) (hd : n ≤ 64 → max a b < hw n) :
    ∃ z, x.sliceRt (Rng.down n) k a b = .ok z ∧
      ∀ i, i < k → z.bv.getLsbD i = (decide (min a b + i < n) && x.bv.getLsbD (min a b + i)) := by
  by_cases h : n ≤ 64
  · have := hw_le n
    have hd := hd h
    obtain ⟨z, hz, hbits⟩ := (C127_native_exact h h1 x hx k (by omega) a b (by omega) (by omega)).1 (by omega)
    refine ⟨z, hz, fun i hi => ?_⟩
    rw [hbits i hi, show (min (a : Int) b).toNat + i = min a b + i by omega]
    by_cases h' : min a b + i < n
    · rw [if_pos (by omega)]; simp [h']
    · rw [if_neg (by omega)]; simp [h']
  · obtain ⟨z, hz, -, hbits⟩ := (C127_wide_exact (by omega) hN x k a b (by omega) (by omega) (by omega)).1 (by omega)
    refine ⟨z, hz, fun i hi => ?_⟩
    rw [hbits i hi, show (min (a : Int) b).toNat + i = min a b + i by omega]
    by_cases h' : min a b + i < n
    · simp [h']
    · rw [BitVec.getLsbD_of_ge _ _ (by omega)]; simp

/-- **C127, 4-state, false of the code for every vector:** a slice that leaves the vector at the
top and is defined reads no x outside. -/
theorem C127_logic_refuted (h1 : 1 < n) (hN : n ≤ 2 ^ 32) (x : Lg n s) (hx : x.Clean) (k a b : Nat)
    (hb : max a b < 2 ^ 31) (hab : max a b - min a b + 1 = k) (hn : n ≤ max a b) (hd : n ≤ 64 → max a b < hw n) :
    ∃ z, x.sliceRt (Rng.down n) k a b = .ok z ∧ (z.at (k - 1)).isKnown = true := by
  by_cases h : n ≤ 64
  · have := hw_le n
    have hd := hd h
    obtain ⟨v, hv, -⟩ := (C127_native_exact h h1 x.value hx.1 k (by omega) a b (by omega) (by omega)).1 (by omega)
    obtain ⟨m, hm, hmb⟩ := (C127_native_exact h h1 x.xz hx.2 k (by omega) a b (by omega) (by omega)).1 (by omega)
    refine ⟨⟨v, m⟩, by rw [Lg.sliceRt, hv, res_bind_ok, hm, res_map_ok], ?_⟩
    rw [Lg.at, isKnown_mk, hmb _ (by omega), if_neg (by omega)]
    rfl
  · obtain ⟨v, hv, -, -⟩ := (C127_wide_exact (by omega) hN x.value k a b (by omega) (by omega) (by omega)).1 (by omega)
    obtain ⟨m, hm, -, hmb⟩ := (C127_wide_exact (by omega) hN x.xz k a b (by omega) (by omega) (by omega)).1 (by omega)
    refine ⟨⟨v, m⟩, by rw [Lg.sliceRt, hv, res_bind_ok, hm, res_map_ok], ?_⟩
    rw [Lg.at, isKnown_mk, hmb _ (by omega), BitVec.getLsbD_of_ge _ _ (by omega)]
    rfl

/-- **C127 is false of the code** for 2-state vectors: every native slice that reaches past the
holder or below 0 is undefined; every wide slice down to -1 does not end; a wide slice from a
lower bound below -1 up to bit 0 reads the lowest bit of the vector as its bit 0 (it is the top
bit selected). -/
theorem C127_refuted :
    (∀ (n : Nat) (s : Bool) (x : Bits n s) (k : Nat) (a b : Int), n ≤ 64 → 1 < n → x.Clean → k ≤ 64 → max a b < 2 ^ 31 →
      max a b - min a b + 1 = k → min a b < 0 ∨ hw n ≤ max a b → x.sliceRt (Rng.down n) k a b = .error .shift) ∧
    (∀ (n : Nat) (s : Bool) (x : Bits n s) (k : Nat) (a : Int), 64 < n → n ≤ 2 ^ 32 → 0 ≤ a → a < 2 ^ 31 → a + 2 = k →
      x.sliceRt (Rng.down n) k a (-1) = .error .diverge) ∧
    (∀ (n : Nat) (s : Bool) (x : Bits n s) (k : Nat), 64 < n → n ≤ 2 ^ 32 → 2 < k → k ≤ 2 ^ 31 →
      ∃ z, x.sliceRt (Rng.down n) k 0 (1 - k) = .ok z ∧ z.bv.getLsbD 0 = x.bv.getLsbD 0) := by
  refine ⟨fun n s x k a b h h1 hx hk hb hab ho => ?_, fun n s x k a h hN h0 h1 hk => ?_, fun n s x k h hN h2 hk => ?_⟩
  · exact (C127_native_exact h h1 x hx k hk a b hb hab).2 (by omega)
  · exact (C127_wide_exact h hN x k a (-1) (by omega) (by omega) (by omega)).2.2.2 (Or.inr rfl)
  · obtain ⟨z, hz, -, hb⟩ := (C127_wide_exact h hN x k 0 (1 - k) (by omega) (by omega) (by omega)).2.2.1 (by omega)
      (by omega)
    exact ⟨z, hz, by have := hb 0 (by omega); rwa [show (max 0 (1 - (k : Int))).toNat = 0 by omega] at this⟩

-- a signed 5-bit -3: bits [6:3] are 1 1 1 1, of an unsigned 29 they are 0011
example : ((Bits.ofInt (-3) : Bits 5 true).sliceRt (Rng.down 5) 4 6 3).map (·.bv.toNat) = .ok 15 := by decide +kernel
example : ((Bits.ofInt 29 : Bits 5 false).sliceRt (Rng.down 5) 4 6 3).map (·.bv.toNat) = .ok 3 := by decide +kernel
example : ((Bits.ofInt 29 : Bits 5 false).sliceRt (Rng.down 5) 4 8 5).map (·.bv.toNat) = .error .shift := by
  decide +kernel
-- 70 bits: [72:66]
example : ((Bits.ofInt 29 : Bits 70 false).sliceRt (Rng.down 70) 7 72 66).map (·.bv.toNat) = .ok 0 := by
  decide +kernel
example : ∃ x : Lg 5 false, x.Clean ∧ (x.sliceRt (Rng.down 5) 4 6 3).map (·.at 3) = .ok .b0 :=
  ⟨Lg.ofInt 29, by decide +kernel⟩

end Verif
