import Verif.Props.Programs
import Mathlib.Data.Nat.Count

/-!
# A program: counting ones in parallel (C202)

`x = (x & m[l]) + ((x >> (1 << l)) & m[l]);` for `l = 0, 1, ...` until a field covers the vector, where
`m[l]` selects every second group of `2^l` bits. Unlike the loop of C160 it needs no truth value, so it
is right for limb-based vectors too.
-/

namespace Verif

variable {n : Nat}

/-- one level -/
def Bits.swarStep (m : Nat → Bits n false) (l : Nat) (x : Bits n false) : Res (Bits n false) :=
  (x.shr (amount (2 ^ l))).bind fun y => (x.and (m l)).add ((Bits.and (s := false) y (m l)))

/-- all levels below `L` -/
def Bits.swar (m : Nat → Bits n false) (L : Nat) (x : Bits n false) : Res (Bits n false) :=
  loopM 0 L x fun l x => x.swarStep m l

/-- the mask of level `l`: the groups of `2^l` bits with an even number -/
def SwarMask (m : Bits n false) (l : Nat) : Prop := ∀ i, i < n → m.bv.getLsbD i = decide (i / 2 ^ l % 2 = 0)

/-- adding two numbers digit by digit, without carries -/
theorem add_fields {Q A C : Nat} (hQ : 0 < Q) (h : ∀ i, A / Q ^ i % Q + C / Q ^ i % Q < Q) (j : Nat) :
    (A + C) / Q ^ j = A / Q ^ j + C / Q ^ j := by
  induction j with
  | zero => simp
  | succ j ih =>
    rw [pow_succ, ← Nat.div_div_eq_div_mul, ih, Nat.add_div hQ, if_neg (by have := h j; omega), Nat.div_div_eq_div_mul,
      Nat.div_div_eq_div_mul, Nat.add_zero]

theorem field_bits (x : BitVec n) (k j : Nat) : x.toNat / (2 ^ k) ^ j % 2 ^ k = (x.extractLsb' (k * j) k).toNat := by
  rw [BitVec.extractLsb'_toNat, Nat.shiftRight_eq_div_pow, Nat.pow_mul]

/-- one level on the numbers: every pair of fields is replaced by its sum -/
theorem swar_fields {k : Nat} (hk : 0 < k) {x m : BitVec n} (hm : ∀ i, i < n → m.getLsbD i = decide (i / k % 2 = 0))
    (hs : ∀ j, x.toNat / (2 ^ k) ^ (2 * j) % 2 ^ k + x.toNat / (2 ^ k) ^ (2 * j + 1) % 2 ^ k < 2 ^ (2 * k)) (j : Nat) :
    ((x &&& m) + ((x >>> k) &&& m)).toNat / (2 ^ (2 * k)) ^ j % 2 ^ (2 * k) =
      x.toNat / (2 ^ k) ^ (2 * j) % 2 ^ k + x.toNat / (2 ^ k) ^ (2 * j + 1) % 2 ^ k := by
  have par : ∀ j i, i < 2 * k → (decide ((2 * k * j + i) / k % 2 = 0) = decide (i < k)) := by
    intro j i hi
    rw [show 2 * k * j + i = i + k * (2 * j) by ring, Nat.add_mul_div_left _ _ hk, Nat.add_mul_mod_self_left]
    by_cases h : i < k
    · rw [Nat.div_eq_of_lt h]; simp [h]
    · have : i / k = 1 := by
        rw [Nat.div_eq_iff hk]; constructor <;> omega
      rw [this]; simp [h]
  have fA : ∀ j, (x &&& m).toNat / (2 ^ (2 * k)) ^ j % 2 ^ (2 * k) = x.toNat / (2 ^ k) ^ (2 * j) % 2 ^ k := by
    intro j
    rw [field_bits, field_bits]
    have hlt : (x.extractLsb' (k * (2 * j)) k).toNat < 2 ^ (2 * k) :=
      lt_of_lt_of_le (BitVec.isLt _) (Nat.pow_le_pow_right (by decide) (by omega))
    rw [← Nat.mod_eq_of_lt hlt, ← BitVec.toNat_setWidth]
    congr 1
    apply BitVec.eq_of_getLsbD_eq
    intro i hi
    rw [BitVec.getLsbD_setWidth, BitVec.getLsbD_extractLsb', BitVec.getLsbD_extractLsb', BitVec.getLsbD_and, decide_eq_true hi,
      Bool.true_and, Bool.true_and, show k * (2 * j) + i = 2 * k * j + i by ring]
    by_cases hn : 2 * k * j + i < n
    · rw [hm _ hn, par j i hi, Bool.and_comm]
    · rw [BitVec.getLsbD_of_ge x _ (by omega)]; simp
  have fC : ∀ j, ((x >>> k) &&& m).toNat / (2 ^ (2 * k)) ^ j % 2 ^ (2 * k) = x.toNat / (2 ^ k) ^ (2 * j + 1) % 2 ^ k := by
    intro j
    rw [field_bits, field_bits]
    have hlt : (x.extractLsb' (k * (2 * j + 1)) k).toNat < 2 ^ (2 * k) :=
      lt_of_lt_of_le (BitVec.isLt _) (Nat.pow_le_pow_right (by decide) (by omega))
    rw [← Nat.mod_eq_of_lt hlt, ← BitVec.toNat_setWidth]
    congr 1
    apply BitVec.eq_of_getLsbD_eq
    intro i hi
    rw [BitVec.getLsbD_setWidth, BitVec.getLsbD_extractLsb', BitVec.getLsbD_extractLsb', BitVec.getLsbD_and, decide_eq_true hi,
      Bool.true_and, Bool.true_and, BitVec.getLsbD_ushiftRight, show k * (2 * j + 1) + i = k + (2 * k * j + i) by ring]
    by_cases hn : k + (2 * k * j + i) < n
    · rw [hm _ (by omega), par j i hi, Bool.and_comm]
    · rw [BitVec.getLsbD_of_ge x _ (by omega)]; simp
  -- the sum does not leave the vector
  have hle : (x &&& m).toNat + ((x >>> k) &&& m).toNat ≤ x.toNat := by
    have h1 : ((x >>> k) &&& m) = (x &&& ~~~m) >>> k := by
      apply BitVec.eq_of_getLsbD_eq
      intro i hi
      rw [BitVec.getLsbD_and, BitVec.getLsbD_ushiftRight, BitVec.getLsbD_ushiftRight, BitVec.getLsbD_and, BitVec.getLsbD_not]
      by_cases hn : k + i < n
      · rw [hm _ hi, hm _ hn, decide_eq_true hn, Bool.true_and, Nat.add_div_left _ hk]
        congr 1
        rcases Nat.mod_two_eq_zero_or_one (i / k) with h | h
        · rw [decide_eq_true h, decide_eq_false (by omega)]; rfl
        · rw [decide_eq_false (by omega), decide_eq_true (by omega)]; rfl
      · rw [BitVec.getLsbD_of_ge x _ (by omega)]; simp
    have h2 : (x &&& m).toNat + (x &&& ~~~m).toNat = x.toNat := by
      have hd : (x &&& m) &&& (x &&& ~~~m) = 0#n := by
        apply BitVec.eq_of_getLsbD_eq
        intro i hi
        simp only [BitVec.getLsbD_and, BitVec.getLsbD_not, BitVec.getLsbD_zero]
        cases x.getLsbD i <;> cases m.getLsbD i <;> simp
      rw [← BitVec.toNat_add_of_and_eq_zero hd, BitVec.add_eq_or_of_and_eq_zero _ _ hd]
      congr 1
      apply BitVec.eq_of_getLsbD_eq
      intro i hi
      simp only [BitVec.getLsbD_or, BitVec.getLsbD_and, BitVec.getLsbD_not, decide_eq_true hi, Bool.true_and]
      cases x.getLsbD i <;> cases m.getLsbD i <;> rfl
    have h3 : ((x &&& ~~~m) >>> k).toNat ≤ (x &&& ~~~m).toNat := by
      rw [BitVec.toNat_ushiftRight, Nat.shiftRight_eq_div_pow]; exact Nat.div_le_self _ _
    rw [h1]; omega
  have hQ : 0 < 2 ^ (2 * k) := Nat.pow_pos (by decide)
  rw [BitVec.toNat_add, Nat.mod_eq_of_lt (lt_of_le_of_lt hle x.isLt),
    add_fields hQ (fun i => by rw [fA, fC]; exact hs i), Nat.add_mod, fA, fC, Nat.mod_eq_of_lt (hs j)]

/-- the ones of a window -/
def onesIn (b : BitVec n) (lo len : Nat) : Nat := Nat.count (fun i => b.getLsbD (lo + i) = true) len

theorem onesIn_le (b : BitVec n) (lo len : Nat) : onesIn b lo len ≤ len := Nat.count_le _

theorem onesIn_split (b : BitVec n) (lo k : Nat) : onesIn b lo (k + k) = onesIn b lo k + onesIn b (lo + k) k := by
  rw [onesIn, Nat.count_add, onesIn, onesIn]
  congr 2
  funext i
  rw [Nat.add_assoc]

theorem Bits.swar_spec (h1 : 1 < n) (hN : n ≤ 2 ^ 31) (m : Nat → Bits n false) (L : Nat) (hm : ∀ l, l < L → SwarMask (m l) l)
    (hL : ∀ l, l < L → 2 ^ l < n) (x : Bits n false) :
    ∃ z, x.swar m L = .ok z ∧ ∀ j, z.bv.toNat / (2 ^ 2 ^ L) ^ j % 2 ^ 2 ^ L = onesIn x.bv (2 ^ L * j) (2 ^ L) := by
  refine loopM_induct 0 L x (fun l x => x.swarStep m l)
    (fun l z => ∀ j, z.bv.toNat / (2 ^ 2 ^ l) ^ j % 2 ^ 2 ^ l = onesIn x.bv (2 ^ l * j) (2 ^ l)) (by omega) ?_ ?_
  · intro j
    rw [field_bits, onesIn]
    have h1 : ∀ b : BitVec 1, b.toNat = (b.getLsbD 0).toNat := by decide
    show (x.bv.extractLsb' (1 * j) 1).toNat = Nat.count _ 1
    rw [h1, BitVec.getLsbD_extractLsb', Nat.count_succ, Nat.count_zero]
    simp only [Nat.add_zero, Nat.one_mul, pow_zero]
    cases x.bv.getLsbD j <;> simp
  · intro l z _ hl hz
    have hlt := hL l hl
    obtain ⟨ca, na⟩ := amount_spec (i := 2 ^ l) (by omega)
    obtain ⟨y, hy, ey⟩ := C24_shr_partial (by omega) (by omega) z (amount (2 ^ l)) ca (2 ^ l) na
      (fun h => ⟨by decide, hlt⟩)
    have ey : y.bv = z.bv >>> 2 ^ l := ey
    obtain ⟨w, hw, ew⟩ := C28_add_partial h1 (z.and (m l)) (Bits.and (s := false) y (m l)) (by simp)
    refine ⟨w, by rw [Bits.swarStep, hy, res_bind_ok]; exact hw, fun j => ?_⟩
    have ew : w.bv = (z.bv &&& (m l).bv) + ((z.bv >>> 2 ^ l) &&& (m l).bv) := by
      rw [ew, Bits.bv_and (by omega), Bits.bv_and (by omega), ey]
    have hp : 0 < 2 ^ l := Nat.pow_pos (by decide)
    have e2 : 2 ^ (l + 1) = 2 * 2 ^ l := by rw [pow_succ, Nat.mul_comm]
    have hb : 2 * 2 ^ l < 2 ^ (2 * 2 ^ l) := Nat.lt_two_pow_self
    rw [ew, e2, swar_fields hp (hm l hl) (fun j => by
      rw [hz, hz]
      have h3 := onesIn_le x.bv (2 ^ l * (2 * j)) (2 ^ l)
      have h4 := onesIn_le x.bv (2 ^ l * (2 * j + 1)) (2 ^ l)
      omega), hz, hz, Nat.two_mul (2 ^ l), onesIn_split]
    congr 2 <;> ring

/-- **C202**: with masks that select every second group, the levels `0 .. L-1` with `2^(L-1) < n <= 2^L` leave
the number of ones of `x` in the vector, with no undefined behaviour, for every width above one and every
contents, canonical or not. -/
theorem C202_count (h1 : 1 < n) (hN : n ≤ 2 ^ 31) (m : Nat → Bits n false) (L : Nat) (hn : n ≤ 2 ^ L)
    (hL : ∀ l, l < L → 2 ^ l < n) (hm : ∀ l, l < L → ∀ i, i < n → (m l).bv.getLsbD i = decide (i / 2 ^ l % 2 = 0))
    (x : Bits n false) :
    ∃ z, x.swar m L = .ok z ∧ z.bv.toNat = ((Finset.range n).filter fun i => x.bv.getLsbD i = true).card := by
  obtain ⟨z, hz, e⟩ := Bits.swar_spec h1 hN m L hm hL x
  refine ⟨z, hz, ?_⟩
  have h0 := e 0
  have hlt : z.bv.toNat < 2 ^ 2 ^ L := lt_of_lt_of_le z.bv.isLt (Nat.pow_le_pow_right (by decide) hn)
  rw [pow_zero, Nat.div_one, Nat.mod_eq_of_lt hlt, Nat.mul_zero, onesIn] at h0
  simp only [Nat.zero_add] at h0
  obtain ⟨r, hr⟩ := Nat.exists_eq_add_of_le hn
  rw [h0, hr, Nat.count_add, Nat.count_eq_card_filter_range]
  have : Nat.count (fun k => x.bv.getLsbD (n + k) = true) r = 0 := by
    rw [Nat.count_eq_card_filter_range, Finset.card_eq_zero, Finset.filter_eq_empty_iff]
    intro i _
    rw [BitVec.getLsbD_of_ge _ _ (by omega)]; simp
  rw [this, Nat.add_zero]

/-- the masks of eight bits -/
def swarMasks8 (l : Nat) : Bits 8 false := if l = 0 then Bits.ofInt 0x55 else if l = 1 then Bits.ofInt 0x33 else Bits.ofInt 0x0f

/-- the hypotheses are met by three levels on eight bits -/
example : (8 ≤ 2 ^ 3 ∧ ∀ l, l < 3 → 2 ^ l < 8) ∧
    ∀ l, l < 3 → ∀ i, i < 8 → (swarMasks8 l).bv.getLsbD i = decide (i / 2 ^ l % 2 = 0) := by decide +kernel
example : ((Bits.ofInt 0xB7 : Bits 8 false).swar swarMasks8 3).map (·.bv.toNat) = .ok 6 := by decide +kernel

end Verif
