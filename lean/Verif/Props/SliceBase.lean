import Verif.Props.SliceOut
import Verif.Props.Convert

/-!
# Indexed part-selects `[base +: k]`, `[base -: k]` (C130)
-/

namespace Verif

variable {n m : Nat} {s t : Bool}

/-- the planes are selected separately -/
theorem Lg.sliceBase_eq (r : Rng) (x : Lg n s) (k : Nat) (inc : Bool) (base : Int) :
    x.sliceBase r k inc base =
      (x.value.sliceBase r k inc base).bind fun v => (x.xz.sliceBase r k inc base).map fun k => ⟨v, k⟩ := by
  rw [Lg.sliceBase, Bits.sliceBase, Bits.sliceBase]
  cases intRes (if inc then tInt.conv base + ((k : Int) - 1) else tInt.conv base - ((k : Int) - 1)) with
  | error e => rfl
  | ok e => rfl

/-- the bounds of an indexed part-select -/
theorem Bits.sliceBase_bounds (r : Rng) (x : Bits n s) {k : Nat} (h0 : 0 < k) (hk : k ≤ 2 ^ 31) (inc : Bool) {base lo hi : Int}
    (hb : -2 ^ 31 ≤ base ∧ base < 2 ^ 31) (hlo : lo = if inc then base else base - (k - 1))
    (hhi : hi = if inc then base + (k - 1) else base) :
    (lo < -2 ^ 31 ∨ 2 ^ 31 ≤ hi → x.sliceBase r k inc base = .error .overflow) ∧
    (-2 ^ 31 ≤ lo → hi < 2 ^ 31 → ∃ a b, (min a b = lo ∧ max a b = hi) ∧ x.sliceBase r k inc base = x.sliceRt r k a b) := by
  have ec : tInt.conv base = base := tInt_conv_of hb.1 hb.2
  rw [Bits.sliceBase]
  simp only [ec]
  cases inc
  · simp only [Bool.false_eq_true, if_false] at hlo hhi ⊢
    refine ⟨fun h => ?_, fun h1 h2 => ⟨base, lo, by omega, ?_⟩⟩
    · rw [intRes, if_neg (by omega)]; rfl
    · rw [← hlo, intRes_ok (by omega) (by omega), res_bind_ok]
  · simp only [if_true] at hlo hhi ⊢
    refine ⟨fun h => ?_, fun h1 h2 => ⟨base, hi, by omega, ?_⟩⟩
    · rw [intRes, if_neg (by omega)]; rfl
    · rw [← hhi, intRes_ok (by omega) (by omega), res_bind_ok]


/-- **C130, native vectors, exact,** for every base in the range of `int`: with `lo` and `hi` the
bounds of the part-select, defined if and only if they are inside the holder. Bits outside the
vector are 0 for an unsigned, the top bit for a signed vector. -/
theorem C130_native_exact (h : n ≤ 64) (h1 : 1 < n) (x : Lg n s) (hx : x.Clean) (k : Nat) (h0 : 0 < k) (hk : k ≤ 64)
    (inc : Bool) (base lo hi : Int) (hb : -2 ^ 31 ≤ base ∧ base < 2 ^ 31)
    (hlo : lo = if inc then base else base - (k - 1)) (hhi : hi = if inc then base + (k - 1) else base) :
    (0 ≤ lo ∧ hi < hw n → ∃ z, x.sliceBase (Rng.down n) k inc base = .ok z ∧
      ∀ i, i < k → z.at i = if lo + i < n then x.at (lo.toNat + i) else V4.ofBool (s && x.value.bv.getLsbD (n - 1))) ∧
    (¬ (0 ≤ lo ∧ hi < hw n) → x.sliceBase (Rng.down n) k inc base =
      .error (if -2 ^ 31 ≤ lo ∧ hi < 2 ^ 31 then .shift else .overflow)) := by
  have hwn := hw_le n
  have hbv := Bits.sliceBase_bounds (Rng.down n) x.value h0 (by omega) inc hb hlo hhi
  have hbx := Bits.sliceBase_bounds (Rng.down n) x.xz h0 (by omega) inc hb hlo hhi
  have hd : hi - lo + 1 = k := by cases inc <;> simp only [Bool.false_eq_true, if_false, if_true] at hlo hhi <;> omega
  rw [Lg.sliceBase_eq]
  constructor
  · rintro ⟨g0, g1⟩
    obtain ⟨a, b, ⟨rfl, rfl⟩, ev⟩ := hbv.2 (by omega) (by omega)
    obtain ⟨a', b', ⟨ea, eb⟩, ex⟩ := hbx.2 (by omega) (by omega)
    obtain ⟨v, hv, hvb⟩ := (C127_native_exact h h1 x.value hx.1 k hk a b (by omega) (by omega)).1 (by omega)
    obtain ⟨w, hw', hwb⟩ := (C127_native_exact h h1 x.xz hx.2 k hk a' b' (by omega) (by omega)).1 (by omega)
    refine ⟨⟨v, w⟩, by rw [ev, ex, hv, res_bind_ok, hw', res_map_ok], fun i hi => ?_⟩
    rw [Lg.at, hvb i hi, hwb i hi, ea]
    by_cases g : min a b + (i : Int) < n
    · rw [if_pos g, if_pos g, if_pos g]; rfl
    · rw [if_neg g, if_neg g, if_neg g]
      rw [Bool.false_and]
      cases (s && x.value.bv.getLsbD (n - 1)) <;> rfl
  · intro hno
    by_cases g : -2 ^ 31 ≤ lo ∧ hi < 2 ^ 31
    · rw [if_pos g]
      obtain ⟨a, b, ⟨rfl, rfl⟩, ev⟩ := hbv.2 g.1 g.2
      rw [ev, (C127_native_exact h h1 x.value hx.1 k hk a b (by omega) (by omega)).2 hno]; rfl
    · rw [if_neg g, hbv.1 (by omega)]; rfl

/-- **C130, wide vectors, exact:** bits above the vector read 0, bits below it read 0 only if the
whole part-select is below -1; a part-select that starts below -1 and ends inside reads from its
*upper* bound upwards; one with a bound of -1 does not end. -/
theorem C130_wide_exact (h : 64 < n) (hN : n ≤ 2 ^ 32) (x : Lg n s) (k : Nat) (h0 : 0 < k) (hk : k ≤ 2 ^ 31)
    (inc : Bool) (base lo hi : Int) (hb : -2 ^ 31 ≤ base ∧ base < 2 ^ 31)
    (hlo : lo = if inc then base else base - (k - 1)) (hhi : hi = if inc then base + (k - 1) else base) :
    (0 ≤ lo → hi < 2 ^ 31 → ∃ z, x.sliceBase (Rng.down n) k inc base = .ok z ∧ z.Clean ∧
      ∀ i, i < k → z.at i = if lo + i < n then x.at (lo.toNat + i) else .b0) ∧
    (-2 ^ 31 ≤ lo → hi < -1 → ∃ z, x.sliceBase (Rng.down n) k inc base = .ok z ∧ z.Clean ∧
      ∀ i, i < k → z.at i = .b0) ∧
    (-2 ^ 31 ≤ lo → lo < -1 → 0 ≤ hi → hi < 2 ^ 31 → ∃ z, x.sliceBase (Rng.down n) k inc base = .ok z ∧ z.Clean ∧
      ∀ i, i < k → z.at i = if hi + i < n then x.at (hi.toNat + i) else .b0) ∧
    (-2 ^ 31 ≤ lo → hi < 2 ^ 31 → lo = -1 ∨ hi = -1 → x.sliceBase (Rng.down n) k inc base = .error .diverge) ∧
    (lo < -2 ^ 31 ∨ 2 ^ 31 ≤ hi → x.sliceBase (Rng.down n) k inc base = .error .overflow) := by
  have hbv := Bits.sliceBase_bounds (Rng.down n) x.value h0 (by omega) inc hb hlo hhi
  have hbx := Bits.sliceBase_bounds (Rng.down n) x.xz h0 (by omega) inc hb hlo hhi
  have hd : hi - lo + 1 = k := by cases inc <;> simp only [Bool.false_eq_true, if_false, if_true] at hlo hhi <;> omega
  rw [Lg.sliceBase_eq]
  have out : ∀ j : Nat, n ≤ j → V4.mk (x.value.bv.getLsbD j) (x.xz.bv.getLsbD j) = .b0 := by
    intro j hj
    rw [BitVec.getLsbD_of_ge _ _ hj, BitVec.getLsbD_of_ge _ _ hj]; rfl
  have ins : ∀ (l : Int) (i : Nat), 0 ≤ l → V4.mk (x.value.bv.getLsbD (l.toNat + i)) (x.xz.bv.getLsbD (l.toNat + i)) =
      if l + i < n then x.at (l.toNat + i) else .b0 := by
    intro l i hl
    split_ifs with g
    · rfl
    · exact out _ (by omega)
  refine ⟨fun g0 g1 => ?_, fun g0 g1 => ?_, fun g0 g1 g2 g3 => ?_, fun g0 g1 g2 => ?_, fun g => ?_⟩
  · obtain ⟨a, b, ⟨rfl, rfl⟩, ev⟩ := hbv.2 (by omega) (by omega)
    obtain ⟨a', b', ⟨ea, eb⟩, ex⟩ := hbx.2 (by omega) (by omega)
    clear hbv hbx hlo hhi
    obtain ⟨v, hv, hvc, hvb⟩ := (C127_wide_exact h hN x.value k a b (by omega) (by omega) (by omega)).1 (by omega)
    obtain ⟨w, hw', hwc, hwb⟩ := (C127_wide_exact h hN x.xz k a' b' (by omega) (by omega) (by omega)).1 (by omega)
    refine ⟨⟨v, w⟩, by rw [ev, ex, hv, res_bind_ok, hw', res_map_ok], ⟨hvc, hwc⟩, fun i hi => ?_⟩
    rw [Lg.at, hvb i hi, hwb i hi, ea, ins _ _ g0]
  · obtain ⟨a, b, ⟨rfl, rfl⟩, ev⟩ := hbv.2 (by omega) (by omega)
    obtain ⟨a', b', ⟨ea, eb⟩, ex⟩ := hbx.2 (by omega) (by omega)
    clear hbv hbx hlo hhi
    obtain ⟨v, hv, hvc, hvb⟩ := (C127_wide_exact h hN x.value k a b (by omega) (by omega) (by omega)).2.1 (by omega)
    obtain ⟨w, hw', hwc, hwb⟩ := (C127_wide_exact h hN x.xz k a' b' (by omega) (by omega) (by omega)).2.1 (by omega)
    refine ⟨⟨v, w⟩, by rw [ev, ex, hv, res_bind_ok, hw', res_map_ok], ⟨hvc, hwc⟩, fun i hi => ?_⟩
    rw [Lg.at, hvb, hwb]; simp [V4.mk]
  · obtain ⟨a, b, ⟨rfl, rfl⟩, ev⟩ := hbv.2 (by omega) (by omega)
    obtain ⟨a', b', ⟨ea, eb⟩, ex⟩ := hbx.2 (by omega) (by omega)
    clear hbv hbx hlo hhi
    obtain ⟨v, hv, hvc, hvb⟩ := (C127_wide_exact h hN x.value k a b (by omega) (by omega) (by omega)).2.2.1 (by omega) (by omega)
    obtain ⟨w, hw', hwc, hwb⟩ :=
      (C127_wide_exact h hN x.xz k a' b' (by omega) (by omega) (by omega)).2.2.1 (by omega) (by omega)
    refine ⟨⟨v, w⟩, by rw [ev, ex, hv, res_bind_ok, hw', res_map_ok], ⟨hvc, hwc⟩, fun i hi => ?_⟩
    rw [Lg.at, hvb i hi, hwb i hi, eb, ins _ _ g2]
  · obtain ⟨a, b, ⟨rfl, rfl⟩, ev⟩ := hbv.2 (by omega) (by omega)
    clear hbv hbx hlo hhi
    rw [ev, (C127_wide_exact h hN x.value k a b (by omega) (by omega) (by omega)).2.2.2 (by omega)]; rfl
  · rw [hbv.1 g]; rfl

/-- **C130, partial:** an indexed part-select inside the vector reads the selected bits, x and z
included, in both directions. Missing: part-selects that leave the vector and bases with an x or
z (`C130_refuted`), one-bit vectors (C51). -/
theorem C130_select_partial (h1 : 1 < n) (hN : n ≤ 2 ^ 31) (x : Lg n s) (k base : Nat) (h0 : 0 < k) :
    (base + k ≤ n → ∃ z, x.sliceBase (Rng.down n) k true base = .ok z ∧ ∀ i, i < k → z.at i = x.at (base + i)) ∧
    (base < n → k ≤ base + 1 → ∃ z, x.sliceBase (Rng.down n) k false base = .ok z ∧
      ∀ i, i < k → z.at i = x.at (base + 1 - k + i)) := by
  have hv := C51_base_partial h1 hN x.value k base h0
  have hm := C51_base_partial h1 hN x.xz k base h0
  constructor
  · intro hb
    obtain ⟨v, ev, bv⟩ := hv.1 hb
    obtain ⟨m, em, bm⟩ := hm.1 hb
    exact ⟨⟨v, m⟩, by rw [Lg.sliceBase_eq, ev, res_bind_ok, em, res_map_ok], fun i hi => by
      rw [Lg.at, bv i hi, bm i hi]; rfl⟩
  · intro hb hk
    obtain ⟨v, ev, bv⟩ := hv.2 hb hk
    obtain ⟨m, em, bm⟩ := hm.2 hb hk
    exact ⟨⟨v, m⟩, by rw [Lg.sliceBase_eq, ev, res_bind_ok, em, res_map_ok], fun i hi => by
      rw [Lg.at, bv i hi, bm i hi]; rfl⟩

/-- the base is reduced modulo 2^32 -/
theorem C130_base_mod (x : Lg n s) (r : Rng) (k : Nat) (inc : Bool) (base j : Int) :
    x.sliceBase r k inc (base + j * 2 ^ 32) = x.sliceBase r k inc base := by
  rw [Lg.sliceBase, Lg.sliceBase]
  have : tInt.conv (base + j * 2 ^ 32) = tInt.conv base := by
    simp only [CTy.conv]
    rw [show ((2 : Int) ^ 32) = ((2 ^ 32 : Nat) : Int) by norm_num, Int.add_mul_bmod_self_right]
  rw [this]

/-- **C130 is false of the code** for every vector: with a base that has an x or z, `[base +: k]`
reads the bits from 0 (IEEE 1800 11.5.1: all x); with a 64-bit base of `2^32 + i` it reads from bit
`i` (all outside: x, or 0 in 2-state); with a base that reaches above the vector it reads, if defined,
no x; `[0 -: k]` for `k` of at least 2 is undefined on a native vector, and endless on a wide one
if `k = 2`. -/
theorem C130_refuted :
    (∀ (n m : Nat) (s t : Bool) (x : Lg n s) (y : Lg m t) (k : Nat), 1 < n → n ≤ 2 ^ 31 → 0 < k → k ≤ n →
      y.xz.anySet = true →
      ∃ z, x.sliceBase (Rng.down n) k true y.toNum = .ok z ∧ ∀ i, i < k → z.at i = x.at i) ∧
    (∀ (n : Nat) (s : Bool) (x : Lg n s) (y : Lg 64 false) (k i : Nat), 1 < n → n ≤ 2 ^ 31 → 0 < k → i + k ≤ n →
      y = Lg.ofInt (2 ^ 32 + i) →
      ∃ z, x.sliceBase (Rng.down n) k true y.toNum = .ok z ∧ ∀ j, j < k → z.at j = x.at (i + j)) ∧
    (∀ (n : Nat) (x : Lg n false) (k base : Nat), 64 < n → n ≤ 2 ^ 30 → 0 < k → k ≤ n → base < n → n < base + k →
      ∃ z, x.sliceBase (Rng.down n) k true base = .ok z ∧ z.at (k - 1) = .b0) ∧
    (∀ (n : Nat) (s : Bool) (x : Lg n s) (k : Nat), 1 < n → n ≤ 64 → x.Clean → 1 < k → k ≤ 64 →
      x.sliceBase (Rng.down n) k false 0 = .error .shift) ∧
    (∀ (n : Nat) (s : Bool) (x : Lg n s), 64 < n → n ≤ 2 ^ 32 →
      x.sliceBase (Rng.down n) 2 false 0 = .error .diverge) := by
  refine ⟨fun n m s t x y k h1 hN h0 hk hy => ?_, fun n s x y k i h1 hN h0 hk hy => ?_,
    fun n x k base h hN h0 hk hb hbk => ?_, fun n s x k h1 h hx h2 hk => ?_, fun n s x h hN => ?_⟩
  · obtain ⟨z, hz, hb⟩ := (C130_select_partial h1 hN x k 0 h0).1 (by omega)
    exact ⟨z, by rw [Lg.toNum, if_pos hy]; exact hz, fun i hi => by rw [hb i hi, Nat.zero_add]⟩
  · obtain ⟨z, hz, hb⟩ := (C130_select_partial h1 hN x k i h0).1 (by omega)
    have e : y.toNum = (i : Int) + 1 * 2 ^ 32 := by
      subst hy
      have hz : (Lg.ofInt (2 ^ 32 + i) : Lg 64 false).xz.anySet = false := by
        show (Bits.zero : Bits 64 false).anySet = false; decide +kernel
      rw [Lg.toNum, hz, if_neg (by decide), Lg.ofInt, Bits.toNum_eq (by decide)]
      show ((Bits.ofInt (2 ^ 32 + i) : Bits 64 false).nv).v = _
      rw [Bits.ofInt, dif_pos (by decide), Bits.nv_mkN]
      show tU64.conv (tU64.conv _) = _
      rw [tU64_conv_of (a := 2 ^ 32 + (i : Int)) (by omega) (by omega), tU64_conv_of (by omega) (by omega)]
      omega
    exact ⟨z, by rw [e, C130_base_mod]; exact hz, hb⟩
  · obtain ⟨z, hz, -, hb⟩ := (C130_wide_exact h (by omega) x k h0 (by omega) true base base (base + (k - 1)) (by omega)
      rfl rfl).1 (by omega) (by omega)
    exact ⟨z, hz, by rw [hb _ (by omega), if_neg (by omega)]⟩
  · have := (C130_native_exact h h1 x hx k (by omega) hk false 0 (0 - (k - 1)) 0 (by omega) rfl rfl).2 (by omega)
    rwa [if_pos (by omega)] at this
  · exact (C130_wide_exact h hN x 2 (by omega) (by omega) false 0 (-1) 0 (by omega) (by decide) rfl).2.2.2.1 (by omega)
      (by omega) (Or.inl rfl)

-- `a[2 +: 3]` and `a[4 -: 3]` of 5'b1x0z1, `a[3 +: 4]` of a signed 5'b1x001
example : ∃ x : Lg 5 false, x.Clean ∧ x.at 3 = .x ∧ x.at 1 = .z ∧
    (x.sliceBase (Rng.down 5) 3 true 2).map (fun z => [z.at 0, z.at 1, z.at 2]) = .ok [.b0, .x, .b1] ∧
    (x.sliceBase (Rng.down 5) 3 false 4).map (fun z => [z.at 0, z.at 1, z.at 2]) = .ok [.b0, .x, .b1] :=
  ⟨⟨Bits.ofInt 0b10011, Bits.ofInt 0b01010⟩, by decide +kernel⟩
example : ∃ x : Lg 5 true, x.Clean ∧
    (x.sliceBase (Rng.down 5) 4 true 3).map (fun z => [z.at 0, z.at 1, z.at 2, z.at 3]) = .ok [.x, .b1, .b1, .b1] :=
  ⟨⟨Bits.ofInt (-15), Bits.ofInt 0b01000⟩, by decide +kernel⟩
-- an x in the base: `a[4'bx +: 2]` of 8'h03
example : ∃ y : Lg 4 false, y.Clean ∧ y.xz.anySet = true ∧
    ((Lg.ofInt 3 : Lg 8 false).sliceBase (Rng.down 8) 2 true y.toNum).map (fun z => [z.at 0, z.at 1]) = .ok [.b1, .b1] :=
  ⟨⟨Bits.ofInt 0, Bits.ofInt 8⟩, by decide +kernel⟩

end Verif
