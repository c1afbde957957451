import Verif.Props.ArithExact
import Verif.Props.Numbers
import Verif.Props.Laws

/-!
# A program: the inverse of an odd number modulo `2^n` (C204)

`x = a;` then `x = x * (2 - a * x);` a few times: every step doubles the number of right bits.
-/

namespace Verif

variable {n : Nat}

/-- `x * (2 - a * x)` -/
def Bits.newtonStep (a x : Bits n false) : Res (Bits n false) :=
  (a.mul x).bind fun p => (Bits.sub (Bits.ofInt 2 : Bits n false) (t := false) p).bind fun q => x.mul (t := false) q

/-- `k` steps -/
def Bits.newton (a : Bits n false) : Nat → Bits n false → Res (Bits n false)
  | 0, x => .ok x
  | k + 1, x => (a.newtonStep x).bind fun x => newton a k x

theorem Bits.newtonStep_spec (h1 : 1 < n) (hn : n ≤ 8 ∨ 16 < n ∧ n ≤ 64) (a x : Bits n false) :
    ∃ z, a.newtonStep x = .ok z ∧ z.bv = x.bv * (2 - a.bv * x.bv) := by
  obtain ⟨p, hp, ep⟩ := C30_mul_partial (by omega) a x (fun _ _ _ _ => by omega) (by simp) (fun _ => by omega)
  obtain ⟨q, hq, eq⟩ := C29_sub_partial (by omega) (Bits.ofInt 2 : Bits n false) (t := false) p (by simp)
  obtain ⟨z, hz, ez⟩ := C30_mul_partial (by omega) x (t := false) q (fun _ _ _ _ => by omega) (by simp) (fun _ => by omega)
  refine ⟨z, by rw [Bits.newtonStep, hp, res_bind_ok, hq, res_bind_ok]; exact hz, ?_⟩
  have ep : p.bv = a.bv * x.bv := ep
  have eq : q.bv = (Bits.ofInt 2 : Bits n false).bv - p.bv := eq
  have ez : z.bv = x.bv * q.bv := ez
  have e2 : (Bits.ofInt 2 : Bits n false).bv = 2 := by
    rw [C60_bits h1 (by omega)]; rfl
  rw [ez, eq, ep, e2]

theorem newton_bv {m : Nat} (a x : BitVec n) (c : BitVec n) (h : a * x = 1 + c * BitVec.ofNat n (2 ^ m)) :
    ∃ d, a * (x * (2 - a * x)) = 1 + d * BitVec.ofNat n (2 ^ (m + m)) := by
  refine ⟨-(c * c), ?_⟩
  have e : BitVec.ofNat n (2 ^ (m + m)) = BitVec.ofNat n (2 ^ m) * BitVec.ofNat n (2 ^ m) := by
    rw [pow_add, BitVec.ofNat_mul]
  rw [e, show a * (x * (2 - a * x)) = (a * x) * (2 - a * x) by grind, h]
  grind

theorem Bits.newton_spec (h1 : 1 < n) (hn : n ≤ 8 ∨ 16 < n ∧ n ≤ 64) (a : Bits n false) :
    ∀ (k m : Nat) (x : Bits n false) (c : BitVec n), a.bv * x.bv = 1 + c * BitVec.ofNat n (2 ^ m) →
      ∃ z d, a.newton k x = .ok z ∧ a.bv * z.bv = 1 + d * BitVec.ofNat n (2 ^ (m * 2 ^ k))
  | 0, m, x, c, h => ⟨x, c, rfl, by simpa using h⟩
  | k + 1, m, x, c, h => by
    obtain ⟨y, hy, ey⟩ := Bits.newtonStep_spec h1 hn a x
    obtain ⟨d, hd⟩ := newton_bv a.bv x.bv c h
    rw [← ey] at hd
    obtain ⟨z, d', hz, ez⟩ := Bits.newton_spec h1 hn a k (m + m) y d hd
    refine ⟨z, d', by rw [Bits.newton, hy, res_bind_ok, hz], ?_⟩
    rw [ez, show (m + m) * 2 ^ k = m * 2 ^ (k + 1) by ring]

/-- the square of an odd number is one more than a multiple of eight -/
theorem odd_sq (a : BitVec n) (ha : a.getLsbD 0 = true) : ∃ c, a * a = 1 + c * BitVec.ofNat n (2 ^ 3) := by
  have h : a.toNat % 2 = 1 := by
    have h2 := ha
    rw [BitVec.getLsbD, Nat.testBit_zero] at h2
    simpa using h2
  have hk : a.toNat = 2 * (a.toNat / 2) + 1 := by omega
  generalize a.toNat / 2 = k at hk
  have ea : a = BitVec.ofNat n (2 * k + 1) := by rw [← hk, BitVec.ofNat_toNat, BitVec.setWidth_eq]
  obtain ⟨c, hc⟩ : ∃ c, k * (k + 1) = 2 * c := by
    obtain ⟨c, hc⟩ := Nat.even_mul_succ_self k
    exact ⟨c, by omega⟩
  refine ⟨BitVec.ofNat n c, ?_⟩
  rw [ea, ← BitVec.ofNat_mul, ← BitVec.ofNat_mul]
  show _ = BitVec.ofNat n 1 + _
  rw [← BitVec.ofNat_add, show (2 * k + 1) * (2 * k + 1) = 1 + c * 2 ^ 3 by nlinarith]

/-- **C204, partial.** For unsigned vectors of 2 to 8 and of 17 to 64 bits and an odd `a`, `k` steps from `x = a`
with `n <= 3 * 2^k` (five always do) end with no undefined behaviour at the inverse of `a` modulo `2^n`.
Missing: 9 to 16 bits, where the products overflow `int` (`C204_u16_refuted`), and limb-based vectors
(`C204_wide_refuted`). -/
theorem C204_inverse_partial (h1 : 1 < n) (hn : n ≤ 8 ∨ 16 < n ∧ n ≤ 64) (a : Bits n false)
    (ha : a.bv.getLsbD 0 = true) (k : Nat) (hk : n ≤ 3 * 2 ^ k) :
    ∃ z, a.newton k a = .ok z ∧ a.bv.toNat * z.bv.toNat % 2 ^ n = 1 := by
  obtain ⟨c, hc⟩ := odd_sq a.bv ha
  obtain ⟨z, d, hz, ez⟩ := Bits.newton_spec h1 hn a k 3 a c hc
  refine ⟨z, hz, ?_⟩
  have h0 : BitVec.ofNat n (2 ^ (3 * 2 ^ k)) = 0 := by
    apply BitVec.eq_of_toNat_eq
    obtain ⟨r, hr⟩ := Nat.exists_eq_add_of_le hk
    rw [BitVec.toNat_ofNat, hr, pow_add, Nat.mul_mod_right]; rfl
  have e := congrArg BitVec.toNat ez
  rw [h0] at e
  have e' : (a.bv * z.bv).toNat = (1 : BitVec n).toNat := by
    rw [e]; congr 1; grind
  rw [BitVec.toNat_mul] at e'
  rw [e']
  show 1 % 2 ^ n = 1
  exact Nat.mod_eq_of_lt (Nat.one_lt_two_pow (by omega))

example : ((Bits.ofInt 12345 : Bits 32 false).newton 4 (Bits.ofInt 12345)).map (fun z => z.bv.toNat * 12345 % 2 ^ 32) = .ok 1 := by
  decide +kernel
example : ((Bits.ofInt 77 : Bits 64 false).newton 5 (Bits.ofInt 77)).map (fun z => z.bv.toNat * 77 % 2 ^ 64) = .ok 1 := by
  decide +kernel

/-- **C204 is false of the code at 9 to 16 bits**: for `a = 15` the second step is signed overflow, at each of these
widths. -/
theorem C204_u16_refuted : ∀ n, 9 ≤ n → n ≤ 16 →
    (Bits.ofInt 15 : Bits n false).newton 2 (Bits.ofInt 15) = .error .overflow := by
  intro n h9 h16
  obtain rfl | rfl | rfl | rfl | rfl | rfl | rfl | rfl : n = 9 ∨ n = 10 ∨ n = 11 ∨ n = 12 ∨ n = 13 ∨ n = 14 ∨ n = 15 ∨ n = 16 := by
    omega
  all_goals decide +kernel

/-- **C204 is false of the code for limb-based vectors**: at every multiple of 64 above 64, for every `a` from 2 to
`2^32 - 1` the first step writes outside the array. -/
theorem C204_wide_refuted (h : 64 < n) (hd : 64 ∣ n) (a : Bits n false) (h2 : 2 ≤ a.bv.toNat)
    (h32 : a.bv.toNat < 2 ^ 32) (k : Nat) : a.newton (k + 1) a = .error .oob := by
  have hc : ∀ x : Bits n false, x.Clean := fun x => clean_of_full (by omega) (Or.inr ⟨h, hd⟩) x
  have hp64 : (2 : Nat) ^ 64 < 2 ^ n := Nat.pow_lt_pow_right (by decide) h
  have hbit : ∀ p, 32 ≤ p → a.bv.getLsbD p = false := fun p hp => by
    rw [BitVec.getLsbD]
    exact Nat.testBit_lt_two_pow (lt_of_lt_of_le h32 (Nat.pow_le_pow_right (by decide) hp))
  have hlow : LowOnly a.bv := fun p hp _ => hbit p (by omega)
  have hsq : a.bv.toNat * a.bv.toNat < 2 ^ 64 := by nlinarith
  have hsq4 : 4 ≤ a.bv.toNat * a.bv.toNat := by nlinarith
  obtain ⟨p, hp, ep⟩ := (C30_wide_exact h a a (hc _) (hc _)).1 ⟨hlow, hlow⟩
  have ep : p.bv.toNat = a.bv.toNat * a.bv.toNat := by
    have : p.bv.toNat = (a.bv.toNat % 2 ^ 64) * (a.bv.toNat % 2 ^ 64) % 2 ^ n := ep
    rw [this, Nat.mod_eq_of_lt (show a.bv.toNat < 2 ^ 64 by omega), Nat.mod_eq_of_lt (by omega)]
  obtain ⟨q, hq, eq⟩ := Bits.sub_wide (by omega) (Bits.ofInt 2 : Bits n false) (t := false) p
  have e2 : (Bits.ofInt 2 : Bits n false).bv = BitVec.ofNat n 2 := by
    rw [C60_wide h]
    apply BitVec.eq_of_toNat_eq
    rw [BitVec.toNat_setWidth, BitVec.toNat_ofNat]; rfl
  have eq : q.bv = BitVec.ofNat n 2 - p.bv := by rw [← e2]; exact eq
  have eq' : q.bv = ~~~ (p.bv - BitVec.ofNat n 3) := by
    have e3 : BitVec.ofNat n 3 = BitVec.ofNat n 2 + 1#n := by rw [← BitVec.ofNat_add]
    have e4 : ~~~ (p.bv - BitVec.ofNat n 3) = -(p.bv - BitVec.ofNat n 3) - 1#n := by
      rw [BitVec.neg_eq_not_add]; grind
    rw [eq, e4, e3]
    grind
  have hr : (p.bv - BitVec.ofNat n 3).toNat < 2 ^ 64 := by
    rw [BitVec.toNat_sub_of_le, BitVec.toNat_ofNat, Nat.mod_eq_of_lt (by omega)]
    · omega
    · rw [BitVec.le_def, BitVec.toNat_ofNat, Nat.mod_eq_of_lt (by omega)]; omega
  have hqb : ∀ i, 64 ≤ i → i < n → q.bv.getLsbD i = true := by
    intro i h64 hi
    rw [eq', BitVec.getLsbD_not, decide_eq_true hi, BitVec.getLsbD,
      Nat.testBit_lt_two_pow (lt_of_lt_of_le hr (Nat.pow_le_pow_right (by decide) h64))]
    rfl
  obtain ⟨i, hi⟩ : ∃ i, a.bv.getLsbD i = true := by
    by_contra hne
    push Not at hne
    have : a.bv = 0#n := by
      apply BitVec.eq_of_getLsbD_eq
      intro i _
      rw [BitVec.getLsbD_zero]; simpa using hne i
    rw [this] at h2; simp at h2
  have hoob := ((C30_wide_exact h a q (hc _) (hc _)).2 (fun hl => by
      have := hl.2 64 (by omega) (by omega)
      rw [hqb 64 (by omega) h] at this; cases this)).1 ⟨i, n - 1, hi, hqb _ (by omega) (by omega), by omega⟩
  have : a.newtonStep a = .error .oob := by
    rw [Bits.newtonStep, hp, res_bind_ok, hq, res_bind_ok]; exact hoob
  rw [Bits.newton, this]; rfl

end Verif
