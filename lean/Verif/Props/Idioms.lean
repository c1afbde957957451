import Verif.Props.CanonicalExact
import Verif.Props.Programs

/-!
# Idioms on unsigned vectors (C175-C177)

Carry and borrow tests, saturating addition, the midpoint of two numbers, the lowest one and the
test for a power of two, as they are written for unsigned numbers, on `bit<n-1, 0>`.
-/

namespace Verif

variable {n : Nat}

/-! ## C175: carry, borrow, saturation -/

/-- `<` and `>` of unsigned vectors of one width compare the whole storage -/
theorem Bits.lt_sto (x y : Bits n false) : x.lt y = .ok (decide (x.sto < y.sto)) := by
  by_cases h : n ≤ 64
  · obtain ⟨-, h2, -⟩ := Bits.order_native h h x y
    rw [h2, Bits.sto_native h, Bits.sto_native h, Bits.nv_v h, Bits.nv_v h]
    simp
  · rw [Bits.lt, dif_neg h, dif_neg h, Big.lt, Big.gt, if_neg (by simp), Big.gtMag_spec, Bits.sto_big h, Bits.sto_big h]

theorem Bits.gt_sto (x y : Bits n false) : x.gt y = .ok (decide (y.sto < x.sto)) := by
  by_cases h : n ≤ 64
  · obtain ⟨h1, -⟩ := Bits.order_native h h x y
    rw [h1, Bits.sto_native h, Bits.sto_native h, Bits.nv_v h, Bits.nv_v h]
    simp
  · rw [Bits.gt, dif_neg h, dif_neg h, Big.gt, if_neg (by simp), Big.gtMag_spec, Bits.sto_big h, Bits.sto_big h]

/-- `(a + b) < a`, the test for a carry -/
def Bits.carry (a b : Bits n false) : Res Bool := (a.add b).bind fun (s : Bits n false) => s.lt a

/-- `(a - b) > a`, the test for a borrow -/
def Bits.borrow (a b : Bits n false) : Res Bool := (a.sub b).bind fun (s : Bits n false) => s.gt a

/-- `s = a + b; if (s < a) s = ~zero;` -/
def Bits.addSat (a b : Bits n false) : Res (Bits n false) :=
  (a.add b).bind fun (s : Bits n false) => (s.lt a).map fun c => if c then (Bits.zero : Bits n false).not else s

/-- **C175, exactly.** The carry test finds a carry only at the widths without spare storage bits: 8, 16, 32,
64 and the multiples of 64; elsewhere it is always false, because the sum is stored with its carry. -/
theorem C175_carry_exact (h1 : 1 < n) (a b : Bits n false) (ha : a.Clean) (hb : b.Clean) :
    a.carry b = .ok (decide (2 ^ n ≤ a.bv.toNat + b.bv.toNat ∧ (Full n ∨ 64 < n ∧ 64 ∣ n))) := by
  obtain ⟨z, hz, -⟩ := C28_add_partial h1 a b (by simp)
  rw [Bits.carry, hz, res_bind_ok, Bits.lt_sto, Bits.sto_add h1 hz, Bits.sto_clean ha, Bits.sto_clean hb]
  congr 1
  rw [decide_eq_decide, ← stoW_eq h1]
  have hA := a.bv.isLt
  have hB := b.bv.isLt
  have hle := le_stoW (n := n)
  rcases Nat.eq_or_lt_of_le hle with e | e
  · rw [← e]
    simp only [and_true]
    by_cases hc : 2 ^ n ≤ a.bv.toNat + b.bv.toNat
    · rw [Nat.mod_eq_sub_mod hc, Nat.mod_eq_of_lt (by omega)]; omega
    · rw [Nat.mod_eq_of_lt (by omega)]; omega
  · have h2 : 2 ^ (n + 1) ≤ 2 ^ stoW n := Nat.pow_le_pow_right (by decide) e
    rw [pow_succ] at h2
    rw [Nat.mod_eq_of_lt (by omega)]
    constructor
    · intro h; omega
    · rintro ⟨-, h⟩; omega

/-- **C175, partial.** At the widths without spare storage bits the test is right. Missing: the other widths
(`C175_carry_refuted`). -/
theorem C175_carry_partial (hf : Full n ∨ 64 < n ∧ 64 ∣ n) (h1 : 1 < n) (a b : Bits n false) (ha : a.Clean) (hb : b.Clean) :
    a.carry b = .ok (decide (2 ^ n ≤ a.bv.toNat + b.bv.toNat)) := by
  rw [C175_carry_exact h1 a b ha hb]
  congr 1
  rw [decide_eq_decide]
  exact ⟨fun h => h.1, fun h => ⟨h, hf⟩⟩

/-- **C175 is false at every other width**: no pair of numbers with a carry passes the test. -/
theorem C175_carry_refuted (h1 : 1 < n) (hf : ¬ Full n) (h64 : ¬ (64 < n ∧ 64 ∣ n)) (a b : Bits n false)
    (ha : a.Clean) (hb : b.Clean) (_hc : 2 ^ n ≤ a.bv.toNat + b.bv.toNat) : a.carry b = .ok false := by
  rw [C175_carry_exact h1 a b ha hb, decide_eq_false]
  rintro ⟨-, h⟩
  exact h.elim hf h64

/-- **C175, borrow.** The borrow test is right at every width above one. -/
theorem C175_borrow (h1 : 1 < n) (a b : Bits n false) (ha : a.Clean) (hb : b.Clean) :
    a.borrow b = .ok (decide (a.bv.toNat < b.bv.toNat)) := by
  obtain ⟨z, hz, -⟩ := C29_sub_partial (by omega) a b (by simp)
  rw [Bits.borrow, hz, res_bind_ok, Bits.gt_sto, Bits.sto_sub h1 hz, Bits.sto_clean ha, Bits.sto_clean hb]
  congr 1
  rw [decide_eq_decide]
  have hA := a.bv.isLt
  have hB := b.bv.isLt
  have hle : 2 ^ n ≤ 2 ^ stoW n := Nat.pow_le_pow_right (by decide) le_stoW
  by_cases hc : a.bv.toNat < b.bv.toNat
  · rw [Nat.mod_eq_of_lt (by omega)]; omega
  · rw [show a.bv.toNat + (2 ^ stoW n - b.bv.toNat) = (a.bv.toNat - b.bv.toNat) + 2 ^ stoW n by omega,
      Nat.add_mod_right, Nat.mod_eq_of_lt (by omega)]
    omega

/-- **C175, saturation, exactly.** Saturating addition gives the smaller of the sum and the greatest number at
the widths without spare storage bits, and wraps at all others. -/
theorem C175_saturate_exact (h1 : 1 < n) (a b : Bits n false) (ha : a.Clean) (hb : b.Clean) :
    ∃ z, a.addSat b = .ok z ∧ z.bv.toNat =
      if Full n ∨ 64 < n ∧ 64 ∣ n then min (a.bv.toNat + b.bv.toNat) (2 ^ n - 1)
      else (a.bv.toNat + b.bv.toNat) % 2 ^ n := by
  obtain ⟨z, hz, e⟩ := C28_add_partial h1 a b (by simp)
  have hc := C175_carry_exact h1 a b ha hb
  rw [Bits.carry, hz, res_bind_ok] at hc
  have hA := a.bv.isLt
  have hB := b.bv.isLt
  refine ⟨_, by rw [Bits.addSat, hz, res_bind_ok, hc, res_map_ok], ?_⟩
  by_cases hf : Full n ∨ 64 < n ∧ 64 ∣ n
  · rw [if_pos hf]
    by_cases ho : 2 ^ n ≤ a.bv.toNat + b.bv.toNat
    · rw [decide_eq_true ⟨ho, hf⟩, if_pos rfl, Bits.bv_not (by omega), Bits.bv_zero, BitVec.toNat_not]
      rw [show BitVec.toNat (0 : BitVec n) = 0 by simp]; omega
    · rw [decide_eq_false (fun h => ho h.1), if_neg (by decide), e, BitVec.toNat_add, Nat.mod_eq_of_lt (by omega)]
      omega
  · rw [if_neg hf, decide_eq_false (fun h => hf h.2), if_neg (by decide), e, BitVec.toNat_add]

example : ∃ a b : Bits 8 false, a.Clean ∧ b.Clean ∧ 2 ^ 8 ≤ a.bv.toNat + b.bv.toNat ∧ a.carry b = .ok true :=
  ⟨Bits.ofInt 200, Bits.ofInt 100, by decide +kernel, by decide +kernel, by decide +kernel, by decide +kernel⟩
example : ∃ a b : Bits 12 false, a.Clean ∧ b.Clean ∧ 2 ^ 12 ≤ a.bv.toNat + b.bv.toNat ∧ a.carry b = .ok false ∧
    b.borrow a = .ok true :=
  ⟨Bits.ofInt 4000, Bits.ofInt 100, by decide +kernel, by decide +kernel, by decide +kernel, by decide +kernel,
    by decide +kernel⟩

/-! ## C176: the midpoint -/

theorem add_eq_xor_add_and (a b : Nat) : a + b = (a ^^^ b) + 2 * (a &&& b) := by
  induction a using Nat.strongRecOn generalizing b with
  | _ a ih =>
    rcases Nat.eq_zero_or_pos a with rfl | ha
    · simp
    · have h := ih (a / 2) (by omega) (b / 2)
      have hx : (a ^^^ b) = 2 * (a / 2 ^^^ b / 2) + (a % 2 + b % 2) % 2 := by
        have h1 : (a ^^^ b) / 2 = (a / 2) ^^^ (b / 2) := Nat.xor_div_two
        have h2 : (a ^^^ b) % 2 = (a % 2 + b % 2) % 2 := by
          rw [Nat.xor_mod_two_eq]; omega
        omega
      have hn : (a &&& b) = 2 * (a / 2 &&& b / 2) + (a % 2) * (b % 2) := by
        have h1 : (a &&& b) / 2 = (a / 2) &&& (b / 2) := Nat.and_div_two
        have h2 : (a &&& b) % 2 = (a % 2) * (b % 2) := by
          have := Nat.mod_two_eq_zero_or_one a
          have := Nat.mod_two_eq_zero_or_one b
          rw [show (a &&& b) % 2 = (a % 2) &&& (b % 2) by
            rw [show 2 = 2 ^ 1 from rfl]; exact Nat.and_mod_two_pow]
          rcases Nat.mod_two_eq_zero_or_one a with h | h <;> rcases Nat.mod_two_eq_zero_or_one b with h' | h' <;>
            simp [h, h']
        omega
      rcases Nat.mod_two_eq_zero_or_one a with h2 | h2 <;> rcases Nat.mod_two_eq_zero_or_one b with h3 | h3 <;>
        · rw [hx, hn, h2, h3]; omega

/-- `(a & b) + ((a ^ b) >> 1)` -/
def Bits.mid (a b : Bits n false) : Res (Bits n false) :=
  ((a.xor b : Bits n false).shr (amount 1)).bind fun (h : Bits n false) => (a.and b : Bits n false).add h

/-- `(a + b) >> 1` -/
def Bits.midSum (a b : Bits n false) : Res (Bits n false) := (a.add b).bind fun (s : Bits n false) => s.shr (amount 1)

/-- **C176.** The midpoint without overflow, at every width above one and for all contents. -/
theorem C176_mid (h1 : 1 < n) (hN : n ≤ 2 ^ 32) (a b : Bits n false) :
    ∃ z, a.mid b = .ok z ∧ z.bv.toNat = (a.bv.toNat + b.bv.toNat) / 2 := by
  obtain ⟨ca, na⟩ := amount_spec (i := 1) (by decide)
  obtain ⟨h, hh, eh⟩ := C24_shr_partial (by omega) hN (a.xor b : Bits n false) (amount 1) ca 1 na (fun _ => ⟨by decide, h1⟩)
  obtain ⟨z, hz, e⟩ := C28_add_partial h1 (a.and b : Bits n false) h (by simp)
  refine ⟨z, by rw [Bits.mid, hh, res_bind_ok, hz], ?_⟩
  have hA := a.bv.isLt
  have hB := b.bv.isLt
  have key := add_eq_xor_add_and a.bv.toNat b.bv.toNat
  rw [e, eh, Bits.bv_and (by omega), Bits.bv_xor, BitVec.toNat_add, BitVec.toNat_and, BitVec.toNat_ushiftRight,
    BitVec.toNat_xor, Nat.shiftRight_eq_div_pow, pow_one, Nat.mod_eq_of_lt (by omega)]
  omega

/-- **C176, the sum shifted, exactly.** `(a + b) >> 1` loses the carry at every width, also at those where the
sum is stored with it: `>>` masks to the declared width. -/
theorem C176_sum_exact (h1 : 1 < n) (hN : n ≤ 2 ^ 32) (a b : Bits n false) :
    ∃ z, a.midSum b = .ok z ∧ z.bv.toNat = (a.bv.toNat + b.bv.toNat) % 2 ^ n / 2 := by
  obtain ⟨ca, na⟩ := amount_spec (i := 1) (by decide)
  obtain ⟨s, hs, es⟩ := C28_add_partial h1 a b (by simp)
  obtain ⟨z, hz, e⟩ := C24_shr_partial (by omega) hN (s : Bits n false) (amount 1) ca 1 na (fun _ => ⟨by decide, h1⟩)
  refine ⟨z, by rw [Bits.midSum, hs, res_bind_ok, hz], ?_⟩
  rw [e, es, BitVec.toNat_ushiftRight, BitVec.toNat_add, Nat.shiftRight_eq_div_pow, pow_one]

example : ∃ (a b z : Bits 7 false), a.bv = 100 ∧ b.bv = 101 ∧ a.mid b = .ok z ∧ z.bv = 100 :=
  ⟨Bits.ofInt 100, Bits.ofInt 101, _, by decide +kernel, by decide +kernel, rfl, by decide +kernel⟩

/-! ## C177: the lowest one, powers of two -/

/-- `x & (~x + one)` -/
def Bits.lowest (x : Bits n false) : Res (Bits n false) :=
  ((x.not : Bits n false).add (Bits.oneN n)).map fun (y : Bits n false) => x.and y

/-- **C177, the lowest one.** Bit `i` of `x & (~x + 1)` is set exactly if it is the lowest one of `x`. -/
theorem C177_lowest (h1 : 1 < n) (x : Bits n false) :
    ∃ z, x.lowest = .ok z ∧ ∀ i, z.bv.getLsbD i = true ↔
      x.bv.getLsbD i = true ∧ ∀ j, j < i → x.bv.getLsbD j = false := by
  obtain ⟨y, hy, e⟩ := C28_add_partial h1 (x.not : Bits n false) (Bits.oneN n) (by simp)
  refine ⟨_, by rw [Bits.lowest, hy, res_map_ok], fun i => ?_⟩
  rw [Bits.bv_and (by omega), e, Bits.bv_not (by omega), (Bits.oneN_spec (by omega)).2,
    show (~~~x.bv + 1 : BitVec n) = -x.bv from (BitVec.neg_eq_not_add _).symm, BitVec.getLsbD_and, BitVec.getLsbD_neg,
    Bool.and_eq_true]
  constructor
  · rintro ⟨h, h'⟩
    refine ⟨h, fun j hj => ?_⟩
    rw [h, decide_eq_true (BitVec.lt_of_getLsbD h)] at h'
    rw [← Bool.not_eq_true]
    intro hc
    rw [decide_eq_true ⟨j, hj, hc⟩] at h'
    simp at h'
  · rintro ⟨h, h'⟩
    refine ⟨h, ?_⟩
    rw [h, decide_eq_false (p := ∃ j < i, x.bv.getLsbD j = true)]
    · simp
    · rintro ⟨j, hj, hc⟩
      rw [h' j hj] at hc; cases hc

/-- `x && !(x & (x - one))` -/
def Bits.isPow2 (x : Bits n false) : Res Bool :=
  if x.anySet then (x.sub (Bits.oneN n)).map fun (y : Bits n false) => !(x.and y : Bits n false).anySet else .ok false

/-- **C177, exactly.** The test is passed exactly if among the bits `any_set()` looks at (all of a native vector,
the lower halves of the 64-bit chunks of a wide one) some bit is set and each set one is the lowest one of the
whole number. -/
theorem C177_pow2_exact (hn : 0 < n) (x : Bits n false) (hx : x.Clean) :
    ∃ b, x.isPow2 = .ok b ∧ (b = true ↔
      (∃ i, (n ≤ 64 ∨ i % 64 < 32) ∧ x.bv.getLsbD i = true) ∧
      ∀ i, (n ≤ 64 ∨ i % 64 < 32) → x.bv.getLsbD i = true → ∀ j, j < i → x.bv.getLsbD j = false) := by
  have hraw : ∀ i, x.raw i = x.bv.getLsbD i := by
    intro i
    rw [Bits.getLsbD_bv]
    by_cases hi : i < n
    · simp [hi]
    · rw [(Bits.clean_unsigned_iff x).1 hx i (by omega)]; simp
  have hany : x.anySet = true ↔ ∃ i, (n ≤ 64 ∨ i % 64 < 32) ∧ x.bv.getLsbD i = true := by
    rw [Bits.anySet_iff]
    simp only [hraw, seen]
  by_cases ha : x.anySet = true
  · obtain ⟨y, hy, ey⟩ := C29_sub_partial hn x (Bits.oneN n) (fun _ h => absurd h (by decide))
    rw [(Bits.oneN_spec hn).2] at ey
    refine ⟨_, by rw [Bits.isPow2, if_pos ha, hy, res_map_ok], ?_⟩
    have hz : (x.and y : Bits n false).Clean := by
      by_cases h : n ≤ 64
      · refine (Bits.clean_unsigned_iff _).2 fun i hi => ?_
        have := Bits.raw_and_native h x y i
        rw [this, (Bits.clean_unsigned_iff x).1 hx i hi]; rfl
      · rw [Bits.clean_big h, Bits.and, dif_neg h]
        exact Big.clean_and hn _ _
    obtain ⟨k, hk, hkb⟩ := hany.1 ha
    obtain ⟨p, hp, hlow⟩ : ∃ p, x.bv.getLsbD p = true ∧ ∀ i, i < p → x.bv.getLsbD i = false := by
      have hex : ∃ p, x.bv.getLsbD p = true := ⟨k, hkb⟩
      refine ⟨Nat.find hex, Nat.find_spec hex, fun i hi => ?_⟩
      rw [← Bool.not_eq_true]; exact Nat.find_min hex hi
    have ez : (x.and y : Bits n false).bv = x.bv &&& (x.bv - 1) := by rw [Bits.bv_and hn, ey]
    have hraw' : ∀ i, (x.and y : Bits n false).raw i = (x.bv.getLsbD i && decide (i ≠ p)) := by
      intro i
      rw [← and_pred x.bv hp hlow i, ← ez, Bits.getLsbD_bv]
      by_cases hi : i < n
      · rw [decide_eq_true hi, Bool.true_and]
      · rw [(Bits.clean_unsigned_iff _).1 hz i (by omega)]; simp
    rw [Bool.not_eq_true', ← Bool.not_eq_true]
    have hany2 := Bits.anySet_iff (x.and y : Bits n false)
    simp only [hraw', seen, Bool.and_eq_true, decide_eq_true_eq] at hany2
    rw [hany2]
    constructor
    · intro h
      refine ⟨⟨k, hk, hkb⟩, fun i hi hb j hj => ?_⟩
      have : i = p := by
        by_contra hne
        exact h ⟨i, hi, hb, hne⟩
      exact hlow j (by omega)
    · rintro ⟨-, h⟩ ⟨i, hi, hb, hne⟩
      have hpi : p < i := by
        rcases Nat.lt_trichotomy p i with h' | h' | h'
        · exact h'
        · exact absurd h'.symm hne
        · rw [hlow i h'] at hb; cases hb
      rw [h i hi hb p hpi] at hp; cases hp
  · refine ⟨false, by rw [Bits.isPow2, if_neg ha], ?_⟩
    simp only [Bool.false_eq_true, false_iff]
    rintro ⟨h, -⟩
    exact ha (hany.2 h)

/-- **C177, partial.** For native vectors the test finds exactly the powers of two. Missing: wide vectors
(`C177_pow2_refuted`). -/
theorem C177_pow2_partial (hn : 0 < n) (h : n ≤ 64) (x : Bits n false) (hx : x.Clean) :
    ∃ b, x.isPow2 = .ok b ∧ (b = true ↔ ∃ k, x.bv.toNat = 2 ^ k) := by
  obtain ⟨b, hb, e⟩ := C177_pow2_exact hn x hx
  refine ⟨b, hb, e.trans ?_⟩
  constructor
  · rintro ⟨⟨k, -, hk⟩, hall⟩
    refine ⟨k, Nat.eq_of_testBit_eq fun j => ?_⟩
    rw [Nat.testBit_two_pow]
    show x.bv.getLsbD j = _
    rcases Nat.lt_trichotomy j k with h' | h' | h'
    · rw [hall k (Or.inl h) hk j h', decide_eq_false (by omega)]
    · subst h'; rw [hk, decide_eq_true rfl]
    · rw [decide_eq_false (by omega), ← Bool.not_eq_true]
      intro hj
      rw [hall j (Or.inl h) hj k h'] at hk; cases hk
  · rintro ⟨k, hk⟩
    have hbit : ∀ j, x.bv.getLsbD j = decide (k = j) := fun j => by
      rw [BitVec.getLsbD, hk, Nat.testBit_two_pow]
    refine ⟨⟨k, Or.inl h, by rw [hbit]; simp⟩, fun i _ hi j hj => ?_⟩
    rw [hbit, decide_eq_true_eq] at hi
    rw [hbit, decide_eq_false (by omega)]

/-- **C177 is false at every wide width**, both ways round: `2^32` fails the test and `2^32 + 1` passes it. -/
theorem C177_pow2_refuted (h : 64 < n) :
    (∃ x : Bits n false, x.Clean ∧ x.bv.toNat = 2 ^ 32 ∧ x.isPow2 = .ok false) ∧
    ∃ x : Bits n false, x.Clean ∧ x.bv.toNat = 2 ^ 32 + 1 ∧ x.isPow2 = .ok true := by
  have hpow : 2 ^ 64 ≤ 2 ^ n := Nat.pow_le_pow_right (by decide) (by omega)
  constructor
  · obtain ⟨x, cx, ex⟩ := Bits.exists_clean (s := false) (BitVec.ofNat n (2 ^ 32))
    have hx : x.bv.toNat = 2 ^ 32 := by rw [ex, BitVec.toNat_ofNat, Nat.mod_eq_of_lt (by omega)]
    refine ⟨x, cx, hx, ?_⟩
    obtain ⟨b, hb, e⟩ := C177_pow2_exact (by omega) x cx
    have : b = false := by
      rw [← Bool.not_eq_true, e]
      rintro ⟨⟨i, hi, hbit⟩, -⟩
      rw [BitVec.getLsbD, hx, Nat.testBit_two_pow, decide_eq_true_eq] at hbit
      omega
    rw [hb, this]
  · obtain ⟨x, cx, ex⟩ := Bits.exists_clean (s := false) (BitVec.ofNat n (2 ^ 32 + 1))
    have hx : x.bv.toNat = 2 ^ 32 + 1 := by rw [ex, BitVec.toNat_ofNat, Nat.mod_eq_of_lt (by omega)]
    have hbit : ∀ j, x.bv.getLsbD j = (decide (j = 0) || decide (j = 32)) := fun j => by
      rw [BitVec.getLsbD, hx]
      by_cases hj : j < 33
      · have : ∀ j, j < 33 → (2 ^ 32 + 1 : Nat).testBit j = (decide (j = 0) || decide (j = 32)) := by decide
        exact this j hj
      · rw [decide_eq_false (by omega), decide_eq_false (by omega)]
        exact Nat.testBit_lt_two_pow (Nat.lt_of_lt_of_le (by decide : 2 ^ 32 + 1 < 2 ^ 33)
          (Nat.pow_le_pow_right (by decide) (by omega)))
    refine ⟨x, cx, hx, ?_⟩
    obtain ⟨b, hb, e⟩ := C177_pow2_exact (by omega) x cx
    have : b = true := by
      rw [e]
      refine ⟨⟨0, Or.inr (by decide), by rw [hbit]; rfl⟩, fun i hi hb j hj => ?_⟩
      rw [hbit] at hb
      simp at hb
      omega
    rw [hb, this]

example : ∃ x : Bits 12 false, x.Clean ∧ x.bv = 512 ∧ x.isPow2 = .ok true :=
  ⟨Bits.ofInt 512, by decide +kernel, by decide +kernel, by decide +kernel⟩

end Verif
