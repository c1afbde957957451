import Verif.Lemmas.ArithExact
import Verif.Props.Conservative

/-!
# Exact outcomes of wide arithmetic and of unnoticed x/z bits

Completes the partial statements of C15, C27, C30, C31, C33, C34 and C43: what the
code does on every canonical operand, not only where it is right.

`LowOnly b` says that no 64-bit chunk of `b` but the lowest has a one in its lower
half, `AnyLow b` that some chunk has: the tests of `fit_in_64()` and `any_set()`, whose
`std::reduce` accumulates in an `int`.
-/

namespace Verif

variable {n m : Nat} {s t : Bool}

/-! ## C30 -/

/-- **C30, wide, every canonical operand.** If both operands pass `fit_in_64()` their
lowest 64 bits are multiplied. Otherwise, if two one bits lie in chunks whose product
reaches beyond the array, the write is out of bounds. Otherwise the product is right. -/
theorem C30_wide_exact (h : 64 < n) (x : Bits n s) (y : Bits n t) (hx : x.Clean) (hy : y.Clean) :
    (LowOnly x.bv ∧ LowOnly y.bv → ∃ z, x.mul y = .ok z ∧
      z.bv.toNat = (x.bv.toNat % 2 ^ 64) * (y.bv.toNat % 2 ^ 64) % 2 ^ n) ∧
    (¬ (LowOnly x.bv ∧ LowOnly y.bv) →
      ((∃ i j, x.bv.getLsbD i = true ∧ y.bv.getLsbD j = true ∧ n ≤ 64 * (i / 64 + j / 64 + 1)) →
        x.mul y = .error .oob) ∧
      (¬ (∃ i j, x.bv.getLsbD i = true ∧ y.bv.getLsbD j = true ∧
          n ≤ 64 * (i / 64 + j / 64 + 1)) →
        ∃ z, x.mul y = .ok z ∧ z.bv = x.bv * y.bv)) :=
  Bits.mul_wide_exact (by omega) x y hx hy

/-- a vector with one bit at `96` and small low part passes `fit_in_64()` -/
theorem lowOnly_of (a k : Nat) (ha : a < 2 ^ 64) (hk : 32 ≤ k % 64) :
    LowOnly (BitVec.ofNat n (2 ^ k + a)) ∨ 2 ^ k < 2 ^ 64 := by
  by_cases h : k < 64
  · right; exact Nat.pow_lt_pow_right (by decide) h
  · left
    intro p hp hl
    rw [BitVec.getLsbD_ofNat]
    have hak : a < 2 ^ k := lt_of_lt_of_le ha (Nat.pow_le_pow_right (by decide) (by omega))
    have : (2 ^ k + a).testBit p = false := by
      have e : 2 ^ k + a = 2 ^ k * 1 + a := by ring
      rw [e, Nat.testBit_two_pow_mul_add 1 hak]
      split
      · exact Nat.testBit_lt_two_pow (lt_of_lt_of_le ha (Nat.pow_le_pow_right (by decide) hp))
      · apply Nat.testBit_lt_two_pow
        have h0 : p - k ≠ 0 := by
          intro e0
          have : p = k := by omega
          subst this; omega
        exact Nat.one_lt_two_pow h0
    rw [this, Bool.and_false]

theorem lowOnly_small (a : Nat) (ha : a < 2 ^ 64) : LowOnly (BitVec.ofNat n a) := by
  intro p hp _
  rw [BitVec.getLsbD_ofNat, Nat.testBit_lt_two_pow
    (lt_of_lt_of_le ha (Nat.pow_le_pow_right (by decide) hp)), Bool.and_false]

/-- **C30 is false at every width above 97**: `(2^96 + 3) * 2` gives 6. -/
theorem C30_wide_refuted_all (h : 97 < n) :
    ∃ (x y : Bits n false), x.Clean ∧ y.Clean ∧ x.bv.toNat = 2 ^ 96 + 3 ∧ y.bv.toNat = 2 ∧
      ∃ z, x.mul y = .ok z ∧ z.bv.toNat = 6 ∧ z.bv ≠ x.bv * y.bv := by
  have hp : 2 ^ 98 ≤ 2 ^ n := Nat.pow_le_pow_right (by decide) (by omega)
  obtain ⟨x, cx, ex⟩ := Bits.exists_clean (s := false) (BitVec.ofNat n (2 ^ 96 + 3))
  obtain ⟨y, cy, ey⟩ := Bits.exists_clean (s := false) (BitVec.ofNat n 2)
  have nx : x.bv.toNat = 2 ^ 96 + 3 := by
    rw [ex, BitVec.toNat_ofNat, Nat.mod_eq_of_lt (by omega)]
  have ny : y.bv.toNat = 2 := by
    rw [ey, BitVec.toNat_ofNat, Nat.mod_eq_of_lt (by omega)]
  have l1 : LowOnly x.bv := by
    rw [ex]; exact (lowOnly_of 3 96 (by decide) (by decide)).resolve_right (by decide)
  have l2 : LowOnly y.bv := by rw [ey]; exact lowOnly_small 2 (by decide)
  obtain ⟨z, hz, e⟩ := (C30_wide_exact (by omega) x y cx cy).1 ⟨l1, l2⟩
  have e6 : z.bv.toNat = 6 := by rw [e, nx, ny, Nat.mod_eq_of_lt (by omega)]; rfl
  refine ⟨x, y, cx, cy, nx, ny, z, hz, e6, fun hc => ?_⟩
  rw [hc, BitVec.toNat_mul, nx, ny, Nat.mod_eq_of_lt (by omega)] at e6
  omega

/-- **C30, an excluded case.** Two signed values of 17 to 64 bits whose product does not
fit `int` (up to 32 bits) or `int64_t`: undefined behaviour. -/
theorem C30_signed_overflow (h17 : 16 < n) (h : n ≤ 64) (x y : Bits n true) (hx : x.Clean)
    (hy : y.Clean)
    (ho : x.bv.toInt * y.bv.toInt < -2 ^ (if n ≤ 32 then 31 else 63) ∨
      2 ^ (if n ≤ 32 then 31 else 63) ≤ x.bv.toInt * y.bv.toInt) :
    x.mul y = .error .overflow := by
  have h1 : 1 < n := by omega
  have key := Bits.arith_exact h x y (· * ·) (fun _ a b => a * b) (fun w a b => BitVec.ofInt_mul a b)
  rw [if_pos (show hw n < 32 ∨ (true && true) = true from Or.inr rfl)] at key
  have hw' : max 32 (hw n) - 1 = if n ≤ 32 then 31 else 63 := by
    rw [hw_eq_of_gt h17]; split_ifs <;> rfl
  have := key.2 (by
    rw [Bits.fits, hw', (Bits.clean_signed_bounds h h1 hx).1, (Bits.clean_signed_bounds h h1 hy).1]
    omega)
  rw [Bits.mul, dif_pos h]
  show (TV.arith _ _ _).map _ = _
  rw [this]; rfl

/-- a canonical object with the given bits, for the examples -/
private def obj (n : Nat) (b : Nat) : Bits n false :=
  (List.range n).foldl (fun x i => if b.testBit i then (x.set (Rng.down n) i true).toOption.get! else x)
    Bits.zero

-- the three wide cases
example : ((obj 128 (2 ^ 100 + 5)).mul (obj 128 7)).map (·.bv.toNat) = .ok 35 := by decide +kernel
example : (obj 128 (2 ^ 64)).mul (obj 128 7) = .error .oob := by decide +kernel
example : ((obj 192 (2 ^ 64 + 2 ^ 40)).mul (obj 192 7)).map (·.bv.toNat) =
    .ok (7 * 2 ^ 64 + 7 * 2 ^ 40) := by decide +kernel
example : (Bits.ofInt (-70000) : Bits 20 true).mul (Bits.ofInt 70000 : Bits 20 true) =
    .error .overflow := by decide +kernel

/-! ## C31 -/

/-- **C31, wide, every canonical operand.** A divisor that fails `any_set()` gives 0
and 0. A divisor whose lowest 64 bits are 1 and that passes `fit_in_64()` acts as 1. A
dividend above the divisor, both passing `fit_in_64()`, is divided in the lowest 64
bits. In every other case quotient and remainder are right. -/
theorem C31_wide_exact (h : 64 < n) (hN : n ≤ 2 ^ 32) (x y : Bits n false) (hx : x.Clean)
    (hy : y.Clean) :
    ∃ q r, x.div y = .ok q ∧ x.mod y = .ok r ∧ q.Clean ∧ r.Clean ∧
      (¬ AnyLow y.bv → q.bv = 0 ∧ r.bv = 0) ∧
      (AnyLow y.bv →
        (y.bv.toNat % 2 ^ 64 = 1 ∧ LowOnly y.bv → q.bv = x.bv ∧ r.bv = 0) ∧
        (¬ (y.bv.toNat % 2 ^ 64 = 1 ∧ LowOnly y.bv) →
          (y.bv.toNat < x.bv.toNat ∧ LowOnly x.bv ∧ LowOnly y.bv →
            q.bv.toNat = (x.bv.toNat % 2 ^ 64) / (y.bv.toNat % 2 ^ 64) ∧
            r.bv.toNat = (x.bv.toNat % 2 ^ 64) % (y.bv.toNat % 2 ^ 64)) ∧
          (¬ (y.bv.toNat < x.bv.toNat ∧ LowOnly x.bv ∧ LowOnly y.bv) →
            q.bv = x.bv / y.bv ∧ r.bv = x.bv % y.bv))) :=
  Bits.div_wide_exact (by omega) hN x y hx hy

theorem not_anyLow_pow {k : Nat} (hk : 32 ≤ k % 64) : ¬ AnyLow (BitVec.ofNat n (2 ^ k)) := by
  rintro ⟨p, hp, hb⟩
  rw [BitVec.getLsbD_ofNat, Nat.testBit_two_pow] at hb
  simp only [Bool.and_eq_true, decide_eq_true_eq] at hb
  rw [← hb.2] at hp; omega

/-- **C31 is false at every wide width**: every dividend divided by `2^k`, `k` in the
upper half of a chunk, gives 0 remainder 0. -/
theorem C31_wide_refuted_all (h : 64 < n) (hN : n ≤ 2 ^ 32) (k : Nat) (hk : 32 ≤ k % 64) (hkn : k < n)
    (x : Bits n false) (hx : x.Clean) (hx0 : x.bv ≠ 0) :
    ∃ y : Bits n false, y.Clean ∧ y.bv.toNat = 2 ^ k ∧
      ∃ q r, x.div y = .ok q ∧ x.mod y = .ok r ∧ q.bv = 0 ∧ r.bv = 0 ∧
        x.bv.toNat ≠ q.bv.toNat * y.bv.toNat + r.bv.toNat := by
  obtain ⟨y, cy, ey⟩ := Bits.exists_clean (s := false) (BitVec.ofNat n (2 ^ k))
  have ny : y.bv.toNat = 2 ^ k := by
    rw [ey, BitVec.toNat_ofNat, Nat.mod_eq_of_lt (Nat.pow_lt_pow_right (by decide) hkn)]
  obtain ⟨q, r, hq, hr, -, -, h0, -⟩ := C31_wide_exact h hN x y hx cy
  obtain ⟨q0, r0⟩ := h0 (by rw [ey]; exact not_anyLow_pow hk)
  refine ⟨y, cy, ny, q, r, hq, hr, q0, r0, ?_⟩
  rw [q0, r0]
  intro e
  apply hx0
  apply BitVec.eq_of_toNat_eq
  simpa using e

-- divisor 2^96 + 1 acts as 1; 2^100 + 9 by 2^97 + 4 is divided in 64 bits
example : ((obj 128 (2 ^ 100)).div (obj 128 (2 ^ 96 + 1))).map (·.bv.toNat) = .ok (2 ^ 100) := by
  decide +kernel
example : ((obj 128 (2 ^ 100 + 9)).div (obj 128 (2 ^ 97 + 4))).map (·.bv.toNat) = .ok 2 := by
  decide +kernel

/-! ## C15 -/

/-- **C15 is false at every wide width**: dividing a known number by the known number
`2^32` gives all x although the 2-state quotient is defined. -/
theorem C15_refuted_all (h : 64 < n) (hN : n ≤ 2 ^ 32) (x : Lg n false) (hx : x.Clean)
    (_hxk : x.Known) :
    ∃ y : Lg n false, y.Clean ∧ y.Known ∧ y.value.bv.toNat = 2 ^ 32 ∧
      ∃ (z : Lg n false) (v : Bits n false), x.value.div y.value = .ok v ∧ x.div y = .ok z ∧
        ∀ i, i < n → z.at i = .x := by
  obtain ⟨v, cv, ev⟩ := Bits.exists_clean (s := false) (BitVec.ofNat n (2 ^ 32))
  have nv : v.bv.toNat = 2 ^ 32 := by
    rw [ev, BitVec.toNat_ofNat, Nat.mod_eq_of_lt (Nat.pow_lt_pow_right (by decide) (by omega))]
  obtain ⟨q, -, hq, -⟩ := C31_wide_exact h hN x.value v hx.1 cv
  have hany : v.anySet = false := by
    have hc := cv
    rw [Bits.clean_big (by omega)] at hc
    rw [← Bool.not_eq_true, Bits.anySet, dif_neg (by omega), Big.anySet_iff hc, ← Bits.bv_big (by omega), ev]
    exact not_anyLow_pow (by decide)
  obtain ⟨z, hz, hzx⟩ := Lg.divWith_x (f := Bits.div) (x := x) (y := ⟨v, Bits.zero⟩) (by omega)
    (Or.inr (Or.inr hany))
  exact ⟨⟨v, Bits.zero⟩, ⟨cv, (Lg.known_zero v).1⟩, Lg.known_zero v, nv, z, q, hq, hz, hzx⟩

/-! ## x/z bits that the emptiness test does not see: C33, C43, C27 -/

theorem Lg.anySet_iff_seen {x : Lg n s} (hx : x.xz.Clean) : x.xz.anySet = true ↔ x.SeenXZ := by
  constructor
  · intro h
    rw [Bits.anySet_iff] at h
    obtain ⟨i, hs, hr⟩ := h
    have hi : i < n := by
      by_contra hc
      rw [(Bits.clean_unsigned_iff x.xz).1 hx i (by omega)] at hr
      cases hr
    exact ⟨i, hi, hs, by rw [Lg.at_lt x hi, hr, isKnown_mk]; rfl⟩
  · rintro ⟨i, hi, hs, hk⟩
    exact Lg.anySet_of_unknown hi hs hk

/-- **C33, exactly.** A sum, difference or product of two vectors is all x if and only if
an operand has an x or z that the emptiness test sees: anywhere in a native value, in
the lower half of a 64-bit chunk of a wide one. -/
theorem C33_arith_x_iff (hn : 0 < n) (x : Lg n s) (y : Lg n t) (hx : x.xz.Clean) (hy : y.xz.Clean) :
    ((∃ z, x.add y = .ok z ∧ ∀ i, i < n → z.at i = .x) ↔ x.SeenXZ ∨ y.SeenXZ) ∧
    ((∃ z, x.sub y = .ok z ∧ ∀ i, i < n → z.at i = .x) ↔ x.SeenXZ ∨ y.SeenXZ) ∧
    ((∃ z, x.mul y = .ok z ∧ ∀ i, i < n → z.at i = .x) ↔ x.SeenXZ ∨ y.SeenXZ) := by
  have key : ∀ f : Bits n s → Bits n t → Res (Bits n (s && t)),
      (∃ z, Lg.arithWith f x y = .ok z ∧ ∀ i, i < n → z.at i = .x) ↔ x.SeenXZ ∨ y.SeenXZ := by
    intro f
    rw [← Lg.anySet_iff_seen hx, ← Lg.anySet_iff_seen hy]
    constructor
    · rintro ⟨z, hz, hall⟩
      by_contra hc
      rw [Lg.arithWith, if_neg (by simpa using hc)] at hz
      cases hv : f x.value y.value with
      | error e => rw [hv] at hz; cases hz
      | ok v =>
        rw [hv] at hz
        obtain rfl : (⟨v, Bits.zero⟩ : Lg n (s && t)) = z := by simpa [Except.map] using hz
        have := (Lg.known_zero v).2 0 hn
        rw [hall 0 hn] at this
        cases this
    · intro h; exact Lg.arithWith_x hn h
  exact ⟨key _, key _, key _⟩

/-- **C33, the unseen x/z bits.** When the emptiness test sees no x/z, the x/z bits are
dropped: the result is the 2-state result on the value planes, without x/z. -/
theorem C33_unseen_exact (x : Lg n s) (y : Lg n t) (hx : x.xz.Clean) (hy : y.xz.Clean)
    (hsx : ¬ x.SeenXZ) (hsy : ¬ y.SeenXZ) (v : Bits n (s && t)) :
    (x.value.add y.value = .ok v → ∃ z, x.add y = .ok z ∧ z.Known ∧ z.value = v) ∧
    (x.value.sub y.value = .ok v → ∃ z, x.sub y = .ok z ∧ z.Known ∧ z.value = v) ∧
    (x.value.mul y.value = .ok v → ∃ z, x.mul y = .ok z ∧ z.Known ∧ z.value = v) := by
  have key : ∀ f : Bits n s → Bits n t → Res (Bits n (s && t)), f x.value y.value = .ok v →
      ∃ z, Lg.arithWith f x y = .ok z ∧ z.Known ∧ z.value = v := by
    intro f hv
    refine ⟨⟨v, Bits.zero⟩, ?_, Lg.known_zero v, rfl⟩
    rw [← Lg.anySet_iff_seen hx, Bool.not_eq_true] at hsx
    rw [← Lg.anySet_iff_seen hy, Bool.not_eq_true] at hsy
    rw [Lg.arithWith, hsx, hsy, hv]; rfl
  exact ⟨key _, key _, key _⟩

/-- a canonical wide vector whose only unknown bit is an x at position 40 -/
theorem exists_unseen (h : 64 < n) (b : Bits n s) :
    ∃ x : Lg n s, x.value = b ∧ x.xz.Clean ∧ (x.at 40).isKnown = false ∧ ¬ x.SeenXZ := by
  obtain ⟨k, ck, ek⟩ := Bits.exists_clean (s := false) (BitVec.ofNat n (2 ^ 40))
  have hb : ∀ i, k.bv.getLsbD i = (decide (i < n) && decide (40 = i)) := by
    intro i; rw [ek, BitVec.getLsbD_ofNat, Nat.testBit_two_pow]
  refine ⟨⟨b, k⟩, rfl, ck, ?_, ?_⟩
  · show (V4.mk _ (k.bv.getLsbD 40)).isKnown = false
    rw [hb, decide_eq_true (by omega)]
    cases b.bv.getLsbD 40 <;> rfl
  · rintro ⟨i, hi, hs, hk⟩
    have : (V4.mk (b.bv.getLsbD i) (k.bv.getLsbD i)).isKnown = false := hk
    rw [hb, isKnown_mk] at this
    have h40 : 40 = i := by simpa [hi] using this
    subst h40
    rcases hs with hs | hs
    · omega
    · exact absurd hs (by decide)

/-- **C33 is false at every wide width**, whatever the value planes: an x at bit 40
disappears in the sum. -/
theorem C33_wide_refuted_all (h : 64 < n) (a b : Bits n false) :
    ∃ x y : Lg n false, x.value = a ∧ y.value = b ∧ (x.at 40).isKnown = false ∧
      ∃ z, x.add y = .ok z ∧ z.Known ∧ z.value.bv = a.bv + b.bv := by
  obtain ⟨x, rfl, cx, h40, hsx⟩ := exists_unseen h a
  obtain ⟨v, hv, e⟩ := C28_add_partial (by omega) x.value b (by simp)
  have hk := Lg.known_zero b
  obtain ⟨z, hz, hzk, hzv⟩ := (C33_unseen_exact x ⟨b, Bits.zero⟩ cx hk.1 hsx (by
    rintro ⟨i, hi, -, hc⟩; rw [hk.2 i hi] at hc; cases hc) v).1 hv
  exact ⟨x, ⟨b, Bits.zero⟩, rfl, rfl, h40, z, hz, hzk, by rw [hzv, e]⟩

/-- **C43, exactly.** Each of the six relational operators answers x if and only if an
operand has an x or z that the emptiness test sees. -/
theorem C43_rel_x_iff (x : Lg n s) (y : Lg m t) (hx : x.xz.Clean) (hy : y.xz.Clean) :
    ∀ r ∈ [x.eq y, x.ne y, x.gt y, x.lt y, x.ge y, x.le y],
      (∃ z, r = .ok z ∧ z.at 0 = .x) ↔ x.SeenXZ ∨ y.SeenXZ := by
  have key : ∀ f : Bits n s → Bits m t → Res Bool,
      (∃ z, Lg.relWith f x y = .ok z ∧ z.at 0 = .x) ↔ x.SeenXZ ∨ y.SeenXZ := by
    intro f
    rw [← Lg.anySet_iff_seen hx, ← Lg.anySet_iff_seen hy]
    constructor
    · rintro ⟨z, hz, hall⟩
      by_contra hc
      rw [Lg.relWith, if_neg (by simpa using hc)] at hz
      cases hv : f x.value y.value with
      | error e => rw [hv] at hz; cases hz
      | ok v =>
        rw [hv] at hz
        obtain rfl : Lg.known1 v = z := by simpa [Except.map] using hz
        rw [Lg.known1_at] at hall
        cases v <;> cases hall
    · intro h
      refine ⟨Lg.x1, ?_, Lg.x1_at⟩
      rw [Lg.relWith, if_pos (by simpa using h)]
  intro r hr
  simp only [List.mem_cons, List.not_mem_nil, or_false] at hr
  rcases hr with rfl | rfl | rfl | rfl | rfl | rfl <;> exact key _

/-- **C43 is false at every wide width**: a vector with an x at bit 40 compares equal
to its own value plane. -/
theorem C43_wide_refuted_all (h : 64 < n) (a : Bits n false) :
    ∃ x y : Lg n false, x.value = a ∧ y.value = a ∧ y.Known ∧ (x.at 40).isKnown = false ∧
      ∃ z, x.eq y = .ok z ∧ z.at 0 = .b1 := by
  obtain ⟨x, rfl, cx, h40, hsx⟩ := exists_unseen h a
  have hk := Lg.known_zero x.value
  refine ⟨x, ⟨x.value, Bits.zero⟩, rfl, rfl, hk, h40, Lg.known1 true, ?_, Lg.known1_at true⟩
  rw [← Lg.anySet_iff_seen cx, Bool.not_eq_true] at hsx
  rw [Lg.eq, Lg.relWith, hsx, hk.anySet]
  have : x.value.eq x.value = true := by
    rw [Bits.eq, dif_neg (by omega), dif_neg (by omega), Big.eq_same (by rfl : (false && false) = false)]
    simp
  simp [Except.map, this]

/-- **C27, the unseen x/z bits of a wide value.** When the emptiness test sees no x/z in
value and amount, a right shift moves the 4-state bits down and a left shift moves them
up, x and z included, with zeros shifted in. -/
theorem C27_unseen_exact (h : 64 < n) (hN : n ≤ 2 ^ 32) (x : Lg n false) (y : Lg m false)
    (hx : x.xz.Clean) (hy : y.xz.Clean) (hyc : y.value.Clean) (hsx : ¬ x.SeenXZ) (hsy : ¬ y.SeenXZ)
    (k : Nat) (hk : y.value.bv.toNat = k) :
    (∃ z, x.shr y = .ok z ∧ ∀ i, i < n → z.at i = if i + k < n then x.at (i + k) else .b0) ∧
    (∃ z, x.shl y = .ok z ∧ ∀ i, i < n → z.at i = if k ≤ i then x.at (i - k) else .b0) := by
  have hk' : numOf false y.value.bv = k := by simp [numOf, hk]
  rw [← Lg.anySet_iff_seen hx, Bool.not_eq_true] at hsx
  rw [← Lg.anySet_iff_seen hy, Bool.not_eq_true] at hsy
  have run : ∀ (f : {s' : Bool} → Bits n s' → Bits m false → Res (Bits n (s' && false)))
      (v c : Bits n false), f x.value y.value = .ok v → f x.xz y.value = .ok c →
      Lg.shiftWith f x y = .ok ⟨v, c⟩ := by
    intro f v c hv hc
    obtain ⟨d, hd, -, -⟩ := Lg.dflt_ok (n := n) (s := false && false) (by omega)
    rw [Lg.shiftWith, hd, res_bind_ok, hsx, hsy]
    simp only [Bool.or_self, Bool.false_eq_true, if_false]
    rw [hv, res_bind_ok]
    have : f x.xz y.value = .ok c := hc
    rw [this]; rfl
  constructor
  · obtain ⟨v, hv, ev⟩ := C24_shr_partial (by omega) hN x.value y.value hyc k hk' (by omega)
    obtain ⟨c, hc, ec⟩ := C24_shr_partial (by omega) hN x.xz y.value hyc k hk' (by omega)
    refine ⟨⟨v, c⟩, run Bits.shr v c hv hc, fun i hi => ?_⟩
    show V4.mk (v.bv.getLsbD i) (c.bv.getLsbD i) = _
    rw [ev, ec, BitVec.getLsbD_ushiftRight, BitVec.getLsbD_ushiftRight, Nat.add_comm k i]
    split
    · rfl
    · rw [BitVec.getLsbD_of_ge _ _ (by omega), BitVec.getLsbD_of_ge _ _ (by omega)]; rfl
  · obtain ⟨v, hv, ev⟩ := C25_shl_partial hN x.value y.value hyc k hk' (by omega)
    obtain ⟨c, hc, ec⟩ := C25_shl_partial hN x.xz y.value hyc k hk' (by omega)
    refine ⟨⟨v, c⟩, run Bits.shl v c hv hc, fun i hi => ?_⟩
    show V4.mk (v.bv.getLsbD i) (c.bv.getLsbD i) = _
    rw [ev, ec, BitVec.getLsbD_shiftLeft, BitVec.getLsbD_shiftLeft]
    by_cases hki : k ≤ i
    · rw [if_pos hki]; simp [hi, show ¬ i < k by omega]; rfl
    · rw [if_neg hki]; simp [show i < k by omega]; rfl

/-- **C27 is false at every wide width**: a vector with an x at bit 40 shifted by any
known amount below the width keeps known bits. -/
theorem C27_wide_refuted_all (h : 64 < n) (hN : n ≤ 2 ^ 32) (a : Bits n false) (y : Lg m false)
    (hy : y.Known) (hyc : y.value.Clean) (hk : 0 < y.value.bv.toNat) :
    ∃ x : Lg n false, x.value = a ∧ (x.at 40).isKnown = false ∧
      ∃ z, x.shl y = .ok z ∧ z.at 0 = .b0 := by
  obtain ⟨x, rfl, cx, h40, hsx⟩ := exists_unseen h a
  obtain ⟨-, z, hz, e⟩ := C27_unseen_exact h hN x y cx hy.1 hyc hsx (by
    rintro ⟨i, hi, -, hc⟩; rw [hy.2 i hi] at hc; cases hc) _ rfl
  exact ⟨x, rfl, h40, z, hz, by rw [e 0 (by omega), if_neg (by omega)]⟩

/-! ## C34 -/

/-- **C34, the excluded case.** At 32 and 64 bits the most negative number divided by
-1 is undefined behaviour, for the quotient and for the remainder. -/
theorem C34_min_overflow (hn : n = 32 ∨ n = 64) (x y : Bits n true) (hx : x.Clean) (hy : y.Clean)
    (ex : x.bv.toInt = -2 ^ (n - 1)) (ey : y.bv.toInt = -1) :
    x.div y = .error .overflow ∧ x.mod y = .error .overflow := by
  have h : n ≤ 64 := by omega
  have h1 : 1 < n := by omega
  have vx := (Bits.clean_signed_bounds h h1 hx).1
  have vy := (Bits.clean_signed_bounds h h1 hy).1
  rw [ex] at vx
  rw [ey] at vy
  have ht : CTy.usual x.nv.ty y.nv.ty = .int n true := by
    rw [Bits.nv_ty, Bits.nv_ty, usual_holder]
    rcases hn with rfl | rfl <;> rfl
  have key : TV.arith Int.tdiv x.nv y.nv = .error .overflow := by
    simp only [TV.arith, ht, vx, vy]
    rcases hn with rfl | rfl <;> decide
  have hne : ¬ (CTy.int n true).conv (-1) = 0 := by rcases hn with rfl | rfl <;> decide
  constructor
  · rw [Bits.div, dif_pos h, TV.div, ht, vy, if_neg hne, key]; rfl
  · rw [Bits.mod, dif_pos h, TV.mod, ht, vy, if_neg hne, key]; rfl

example : (Bits.ofInt (-2 ^ 63) : Bits 64 true).div (Bits.ofInt (-1) : Bits 64 true) =
    .error .overflow := by decide +kernel

end Verif
