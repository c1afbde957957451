import Verif.Props.Programs
import Verif.Props.Gates
import Verif.Props.Slice
import Verif.Props.Compare
import Verif.Props.UpdateOut

/-!
# A program: binary to decimal by shifting and adding three (C201)

The "double dabble" circuit on a register `bit<4*m-1, 0>` of `m` decimal digits: before every shift each
digit of at least five is increased by three, then the register is shifted and takes the next bit of the
number. It exercises run-time slices, their assignment, `>=`, `+`, `<<`, `operator[]` and `set` together.
-/

namespace Verif

variable {n m : Nat}

/-- one digit: `v = d.slice<4>(4*k+3, 4*k); if (v >= 5) d.update(4*k+3, 4*k, v + 3);` -/
def Bits.bcdAdjust (k : Nat) (d : Bits (4 * m) false) : Res (Bits (4 * m) false) :=
  (d.sliceRt (Rng.down (4 * m)) 4 (4 * k + 3 : Nat) (4 * k : Nat)).bind fun v =>
  (v.ge (Bits.ofInt 5 : Bits 4 false)).bind fun c =>
  if c then (v.add (Bits.ofInt 3 : Bits 4 false)).bind fun a =>
    d.updateRt (Rng.down (4 * m)) (4 * k + 3 : Nat) (4 * k : Nat) (Rng.down 4) a
  else .ok d

/-- one bit of the number: all digits adjusted, then `d = d << 1; d[0] = x[i];` -/
def Bits.bcdStep (x : Bits n false) (i : Nat) (d : Bits (4 * m) false) : Res (Bits (4 * m) false) :=
  (loopM 0 m d fun k d => d.bcdAdjust k).bind fun d =>
  (d.shl (amount 1)).bind fun d =>
  (x.get (Rng.down n) i).bind fun b => d.set (Rng.down (4 * m)) (0 : Nat) b

/-- `for (i = k - 1; i >= 0; i--)` over the bits of the number -/
def Bits.bcdFrom (x : Bits n false) : Nat → Bits (4 * m) false → Res (Bits (4 * m) false)
  | 0, d => .ok d
  | i + 1, d => (x.bcdStep i d).bind fun d => bcdFrom x i d

/-- `d = 0;` followed by the loop over all bits -/
def Bits.bcd (m : Nat) (x : Bits n false) : Res (Bits (4 * m) false) := x.bcdFrom n Bits.zero

/-! ### digits -/

/-- digit `k` of a register -/
def nibble (d : BitVec n) (k : Nat) : Nat := d.toNat / 16 ^ k % 16

theorem nibble_bits (d : BitVec n) (k : Nat) : nibble d k = (d.extractLsb' (4 * k) 4).toNat := by
  rw [nibble, BitVec.extractLsb'_toNat, Nat.shiftRight_eq_div_pow, Nat.pow_mul]

theorem Bits.bcdAdjust_spec {k : Nat} (hk : k < m) (hN : 4 * m ≤ 2 ^ 31) (d : Bits (4 * m) false)
    (hd : nibble d.bv k ≤ 9) :
    ∃ e, d.bcdAdjust k = .ok e ∧
      nibble e.bv k = (if 5 ≤ nibble d.bv k then nibble d.bv k + 3 else nibble d.bv k) ∧
      ∀ j, j ≠ k → nibble e.bv j = nibble d.bv j := by
  obtain ⟨v, hv, hb, hc⟩ := C51_slice_partial (by omega) (by omega) d 4 (4 * k + 3) (4 * k) (by omega) (by omega) (by omega)
  have hc : v.Clean := hc.resolve_right (by simp)
  have ev : v.bv = d.bv.extractLsb' (4 * k) 4 := by
    apply BitVec.eq_of_getLsbD_eq
    intro i hi
    rw [hb i hi, show min (4 * k + 3) (4 * k) = 4 * k by omega, BitVec.getLsbD_extractLsb']
    simp [hi]
  have en : v.bv.toNat = nibble d.bv k := by rw [ev, nibble_bits]
  have e5 : (Bits.ofInt 5 : Bits 4 false).bv.toNat = 5 := by decide
  have hge := (C40_ge_le_partial (by simp) v (Bits.ofInt 5 : Bits 4 false) hc (by decide +kernel) (by simp)).1
  rw [e5, en] at hge
  rw [Bits.bcdAdjust, hv, res_bind_ok, hge, res_bind_ok]
  by_cases h5 : 5 ≤ nibble d.bv k
  · rw [decide_eq_true h5, if_pos rfl, if_pos h5]
    obtain ⟨a, ha, ea⟩ := C28_add_partial (by decide) v (Bits.ofInt 3 : Bits 4 false) (by simp)
    have ea' : a.bv.toNat = nibble d.bv k + 3 := by
      have e3 : (Bits.ofInt 3 : Bits 4 false).bv.toNat = 3 := by decide
      have : a.bv.toNat = (v.bv.toNat + (Bits.ofInt 3 : Bits 4 false).bv.toNat) % 2 ^ 4 := by
        rw [ea]; exact BitVec.toNat_add _ _
      rw [this, e3, en, Nat.mod_eq_of_lt (by omega)]
    obtain ⟨y, hy, hr⟩ := Bits.updateRt_any (by omega) (by omega) (by decide) d a (4 * k : Nat) 4 (by omega) (by omega)
      (by omega) (by omega) (fun h => by omega) (fun j => a.bv.getLsbD j)
      (fun j hj => C01_read (by decide) (by decide) a j hj) (4 * k + 3 : Nat) (4 * k : Nat) (by omega) (by omega)
    have hyb : ∀ j, j < 4 * m → y.bv.getLsbD j = if 4 * k ≤ j ∧ j < 4 * k + 4 then a.bv.getLsbD (j - 4 * k) else d.bv.getLsbD j := by
      intro j hj
      have hcap : j < cap (4 * m) := by
        rw [cap]
        split_ifs with h
        · exact lt_of_lt_of_le hj (le_hw h)
        · exact hj
      rw [Bits.getLsbD_bv y, hr, Bits.getLsbD_bv d, decide_eq_true hj, Bool.true_and, Bool.true_and]
      by_cases h : 4 * k ≤ j ∧ j < 4 * k + 4
      · rw [if_pos h, if_pos ⟨by omega, hcap⟩, show ((j : Int) - (4 * k : Nat)).toNat = j - 4 * k by omega]
      · rw [if_neg h, if_neg (by omega)]
    refine ⟨y, by rw [ha, res_bind_ok, hy], ?_, fun j hj => ?_⟩
    · rw [nibble_bits, ← ea']
      congr 1
      apply BitVec.eq_of_getLsbD_eq
      intro i hi
      rw [BitVec.getLsbD_extractLsb', decide_eq_true hi, Bool.true_and, hyb _ (by omega), if_pos (by omega),
        Nat.add_sub_cancel_left]
    · rw [nibble_bits, nibble_bits]
      congr 1
      apply BitVec.eq_of_getLsbD_eq
      intro i hi
      rw [BitVec.getLsbD_extractLsb', BitVec.getLsbD_extractLsb']
      by_cases hl : 4 * j + i < 4 * m
      · rw [hyb _ hl, if_neg (by omega)]
      · rw [BitVec.getLsbD_of_ge _ _ (by omega), BitVec.getLsbD_of_ge _ _ (by omega)]
  · rw [decide_eq_false h5, if_neg h5]
    exact ⟨d, rfl, rfl, fun _ _ => rfl⟩

/-- the shift moves the top bit of a digit into the next one -/
theorem nibble_shift {d e : BitVec (4 * m)} {b : Bool}
    (he : ∀ j, j < 4 * m → e.getLsbD j = if j = 0 then b else d.getLsbD (j - 1)) {k : Nat} (hk : k < m) :
    nibble e k = 2 * nibble d k % 16 + (if k = 0 then b.toNat else nibble d (k - 1) / 8) := by
  have four : ∀ x : BitVec 4, x.toNat = (x.getLsbD 0).toNat + 2 * (x.getLsbD 1).toNat + 4 * (x.getLsbD 2).toNat +
      8 * (x.getLsbD 3).toNat := by decide
  have hx : ∀ (y : BitVec (4 * m)) k i, i < 4 → (y.extractLsb' (4 * k) 4).getLsbD i = y.getLsbD (4 * k + i) := by
    intro y k i hi
    rw [BitVec.getLsbD_extractLsb']; simp [hi]
  rw [nibble_bits, nibble_bits, nibble_bits, four (e.extractLsb' _ _), four (d.extractLsb' (4 * k) 4),
    four (d.extractLsb' (4 * (k - 1)) 4)]
  simp only [hx _ _ _ (show 0 < 4 by decide), hx _ _ _ (show 1 < 4 by decide), hx _ _ _ (show 2 < 4 by decide),
    hx _ _ _ (show 3 < 4 by decide)]
  rw [he (4 * k + 0) (by omega), he (4 * k + 1) (by omega), he (4 * k + 2) (by omega), he (4 * k + 3) (by omega),
    if_neg (show ¬ 4 * k + 1 = 0 by omega), if_neg (show ¬ 4 * k + 2 = 0 by omega), if_neg (show ¬ 4 * k + 3 = 0 by omega),
    show 4 * k + 1 - 1 = 4 * k + 0 by omega, show 4 * k + 2 - 1 = 4 * k + 1 by omega,
    show 4 * k + 3 - 1 = 4 * k + 2 by omega]
  have hb : ∀ c : Bool, c.toNat ≤ 1 := by decide
  have b0 := hb (d.getLsbD (4 * k + 0))
  have b1 := hb (d.getLsbD (4 * k + 1))
  have b2 := hb (d.getLsbD (4 * k + 2))
  have b3 := hb (d.getLsbD (4 * k + 3))
  by_cases h0 : k = 0
  · subst h0
    have bb := hb b
    simp only [Nat.mul_zero, Nat.add_zero, if_true] at *
    omega
  · rw [if_neg (by omega), if_neg h0, show 4 * k + 0 - 1 = 4 * (k - 1) + 3 by omega]
    have c0 := hb (d.getLsbD (4 * (k - 1) + 0))
    have c1 := hb (d.getLsbD (4 * (k - 1) + 1))
    have c2 := hb (d.getLsbD (4 * (k - 1) + 2))
    have c3 := hb (d.getLsbD (4 * (k - 1) + 3))
    omega

/-- doubling in decimal -/
theorem digit_double (X : Nat) (b : Bool) (k : Nat) :
    (2 * X + b.toNat) / 10 ^ k % 10 =
      2 * (X / 10 ^ k % 10) % 10 + (if k = 0 then b.toNat else if 5 ≤ X / 10 ^ (k - 1) % 10 then 1 else 0) := by
  have hb : b.toNat ≤ 1 := by cases b <;> decide
  cases k with
  | zero => simp; omega
  | succ k =>
    rw [if_neg (by omega), Nat.add_sub_cancel]
    have hp : 0 < 10 ^ k := Nat.pow_pos (by decide)
    have h2 : 10 ^ (k + 1) = 10 ^ k * 10 := pow_succ 10 k
    rw [h2, ← Nat.div_div_eq_div_mul, ← Nat.div_div_eq_div_mul]
    -- `X = 10^k * Q + R`
    obtain ⟨Q, R, hQ, hR, hlt⟩ : ∃ Q R, X / 10 ^ k = Q ∧ X = 10 ^ k * Q + R ∧ R < 10 ^ k :=
      ⟨X / 10 ^ k, X % 10 ^ k, rfl, (Nat.div_add_mod _ _).symm, Nat.mod_lt _ hp⟩
    rw [hQ]
    have : (2 * X + b.toNat) / 10 ^ k = 2 * Q + (2 * R + b.toNat) / 10 ^ k := by
      rw [hR, show 2 * (10 ^ k * Q + R) + b.toNat = (2 * R + b.toNat) + 10 ^ k * (2 * Q) by ring,
        Nat.add_mul_div_left _ _ hp, Nat.add_comm]
    rw [this]
    have hc : (2 * R + b.toNat) / 10 ^ k ≤ 1 := by
      have : (2 * R + b.toNat) / 10 ^ k < 2 := (Nat.div_lt_iff_lt_mul hp).2 (by omega)
      omega
    generalize (2 * R + b.toNat) / 10 ^ k = g at hc
    have h3 : (2 * Q + g) / 10 = 2 * (Q / 10) + (if 5 ≤ Q % 10 then 1 else 0) := by split_ifs <;> omega
    rw [h3]
    clear h3 this hR hQ
    generalize Q / 10 = q
    split_ifs <;> omega

theorem Bits.bcdStep_spec (hn : 0 < n) (hn' : n ≤ 2 ^ 32) (hm : 0 < m) (hN : 4 * m ≤ 2 ^ 31) (x : Bits n false) {i : Nat}
    (hi : i < n) (d : Bits (4 * m) false) (X : Nat) (hd : ∀ k, k < m → nibble d.bv k = X / 10 ^ k % 10) :
    ∃ e, x.bcdStep i d = .ok e ∧ ∀ k, k < m → nibble e.bv k = (2 * X + (x.bv.getLsbD i).toNat) / 10 ^ k % 10 := by
  obtain ⟨a, ha, hA⟩ := loopM_induct 0 m d (fun k d => d.bcdAdjust k)
    (fun j a => ∀ k, k < m → nibble a.bv k =
      if k < j ∧ 5 ≤ X / 10 ^ k % 10 then X / 10 ^ k % 10 + 3 else X / 10 ^ k % 10) (by omega)
    (fun k hk => by rw [if_neg (by omega)]; exact hd k hk)
    (by
      intro j a _ hj hA
      have h1 := hA j hj
      rw [if_neg (by omega)] at h1
      obtain ⟨e, he, e1, e2⟩ := Bits.bcdAdjust_spec hj hN a (by omega)
      refine ⟨e, he, fun k hk => ?_⟩
      by_cases hkj : k = j
      · subst hkj
        rw [e1, h1]
        simp
      · rw [e2 k hkj, hA k hk]
        by_cases h : k < j
        · simp [h, show k < j + 1 by omega]
        · simp [h, show ¬ k < j + 1 by omega])
  obtain ⟨ca, na⟩ := amount_spec (i := 1) (by decide)
  obtain ⟨s, hs, es⟩ := C25_shl_partial (by omega) a (amount 1) ca 1 na
    (fun h => ⟨by decide, by omega, by split_ifs <;> omega⟩)
  obtain ⟨e, he, eb⟩ := Bits.set_down (by omega) (by omega) s 0 (by omega) (x.bv.getLsbD i)
  refine ⟨e, ?_, fun k hk => ?_⟩
  · rw [Bits.bcdStep, ha, res_bind_ok, hs, res_bind_ok, C01_read hn hn' x i hi, res_bind_ok]; exact he
  · have hb : ∀ j, j < 4 * m → e.bv.getLsbD j = if j = 0 then x.bv.getLsbD i else a.bv.getLsbD (j - 1) := by
      intro j hj
      rw [eb]
      by_cases h : j = 0
      · rw [if_pos h, if_pos h]
      · rw [if_neg h, if_neg h]
        have : s.bv = a.bv <<< 1 := es
        rw [this, BitVec.getLsbD_shiftLeft, decide_eq_true hj, decide_eq_false (by omega)]; rfl
    rw [nibble_shift hb hk, digit_double, hA k hk]
    by_cases h0 : k = 0
    · rw [if_pos h0, if_pos h0]
      split_ifs <;> omega
    · rw [if_neg h0, if_neg h0, hA (k - 1) (by omega)]
      split_ifs <;> omega

theorem Bits.bcdFrom_spec (hn : 0 < n) (hn' : n ≤ 2 ^ 32) (hm : 0 < m) (hN : 4 * m ≤ 2 ^ 31) (x : Bits n false) :
    ∀ (i : Nat), i ≤ n → ∀ d : Bits (4 * m) false,
      (∀ k, k < m → nibble d.bv k = x.bv.toNat / 2 ^ i / 10 ^ k % 10) →
      ∃ e, x.bcdFrom i d = .ok e ∧ ∀ k, k < m → nibble e.bv k = x.bv.toNat / 10 ^ k % 10
  | 0, _, d, hd => ⟨d, rfl, fun k hk => by rw [hd k hk]; simp⟩
  | i + 1, hi, d, hd => by
    obtain ⟨e, he, hE⟩ := Bits.bcdStep_spec hn hn' hm hN x (show i < n by omega) d _ hd
    have hX : 2 * (x.bv.toNat / 2 ^ (i + 1)) + (x.bv.getLsbD i).toNat = x.bv.toNat / 2 ^ i := by
      have h1 : (x.bv.getLsbD i).toNat = x.bv.toNat / 2 ^ i % 2 := by
        rw [BitVec.getLsbD, Nat.testBit_eq_decide_div_mod_eq]
        rcases Nat.mod_two_eq_zero_or_one (x.bv.toNat / 2 ^ i) with h | h <;> simp [h]
      rw [h1, pow_succ, ← Nat.div_div_eq_div_mul]
      omega
    rw [hX] at hE
    obtain ⟨f, hf, hF⟩ := Bits.bcdFrom_spec hn hn' hm hN x i (by omega) e hE
    exact ⟨f, by rw [Bits.bcdFrom, he, res_bind_ok, hf], hF⟩

/-- **C201**: the circuit ends without undefined behaviour, and digit `k` of the register is the decimal
digit `k` of the number, for every width of the number and every number of digits; digits beyond the
register are dropped. -/
theorem C201_digits (hn : 0 < n) (hn' : n ≤ 2 ^ 32) (hm : 0 < m) (hN : 4 * m ≤ 2 ^ 31) (x : Bits n false) :
    ∃ d, x.bcd m = .ok d ∧ ∀ k, k < m → d.bv.toNat / 16 ^ k % 16 = x.bv.toNat / 10 ^ k % 10 := by
  obtain ⟨d, hd, hD⟩ := Bits.bcdFrom_spec hn hn' hm hN x n (Nat.le_refl n) Bits.zero (fun k hk => by
    rw [Nat.div_eq_of_lt x.bv.isLt, nibble, Bits.bv_zero]; simp)
  exact ⟨d, hd, hD⟩

example : ((Bits.ofInt 0xBEEF : Bits 16 false).bcd 5).map (·.bv.toNat) = .ok 0x48879 := by decide +kernel
example : ((Bits.ofInt 0xBEEF : Bits 16 false).bcd 3).map (·.bv.toNat) = .ok 0x879 := by decide +kernel

end Verif
