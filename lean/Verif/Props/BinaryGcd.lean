import Verif.Props.Programs
import Verif.Props.Idioms
import Verif.Props.Laws4
import Verif.Props.LimbSub

/-!
# A program: greatest common divisor without division (C221)

`while (b > 0) { if (!b[0]) b = b >> 1; else if (a > b) { t = a - b; a = b; b = t; } else b = b - a; }` for an odd `a`.
Euclid's algorithm (C158) is wrong of wide vectors, whose `%` is wrong; this one uses `>`, `>>` and `-` only.
-/

namespace Verif

variable {n : Nat}

/-- the loop; running out of rounds is divergence -/
def Bits.binGcd : Nat → Bits n false → Bits n false → Res (Bits n false)
  | 0, _, _ => .error .diverge
  | fuel + 1, a, b =>
    (b.gt (Bits.zero : Bits n false)).bind fun more =>
      if more then (b.get (Rng.down n) 0).bind fun odd =>
        if odd then (a.gt b).bind fun c =>
          if c then (a.sub b).bind fun (t : Bits n false) => Bits.binGcd fuel b t
          else (b.sub a).bind fun (t : Bits n false) => Bits.binGcd fuel a t
        else (b.shr (amount 1)).bind fun (t : Bits n false) => Bits.binGcd fuel a t
      else .ok a

/-- halving an unsigned vector -/
theorem Bits.halve (h1 : 1 < n) (hN : n ≤ 2 ^ 32) (x : Bits n false) :
    ∃ z : Bits n false, x.shr (amount 1) = .ok z ∧ z.Clean ∧ z.bv.toNat = x.bv.toNat / 2 := by
  obtain ⟨c1, e1⟩ := amount_spec (i := 1) (by norm_num)
  obtain ⟨z, hz, ez⟩ := C24_shr_partial (by omega) hN x (amount 1) c1 1 e1 (fun _ => ⟨by decide, h1⟩)
  refine ⟨z, hz, ?_, by rw [ez, BitVec.toNat_ushiftRight, Nat.shiftRight_eq_div_pow, pow_one]⟩
  by_cases h : n ≤ 64
  · obtain ⟨w, hw, hr⟩ := Bits.shr_native h (by omega) (by decide) x (amount 1) (Bits.amount_native (by decide) c1 e1) h1
    rw [hz] at hw; cases hw
    rw [Bits.clean_unsigned_iff]
    intro i hi
    rw [hr, decide_eq_false (by omega), Bool.false_and]
  · obtain ⟨w, hw, hc, -⟩ := Bits.shr_wide h hN x c1 e1
    rw [hz] at hw; cases hw; exact hc

/-- a difference that does not wrap -/
theorem Bits.diff_clean (h1 : 1 < n) (x y : Bits n false) (hx : x.Clean) (hy : y.Clean) (hle : y.bv.toNat ≤ x.bv.toNat) :
    ∃ z : Bits n false, x.sub y = .ok z ∧ z.Clean ∧ z.bv.toNat = x.bv.toNat - y.bv.toNat := by
  obtain ⟨z, hz, -⟩ := C29_sub_partial (s := false) (t := false) (by omega) x y (by simp)
  have e := Bits.sto_sub h1 hz
  have hs := Bits.sto_lt x
  have hs' := Bits.sto_lt y
  rw [Bits.sto_clean hx] at e hs
  rw [Bits.sto_clean hy] at e hs'
  have e' : Bits.sto (n := n) z = x.bv.toNat - y.bv.toNat := by
    rw [e]
    generalize 2 ^ stoW n = W at *
    rw [show x.bv.toNat + (W - y.bv.toNat) = (x.bv.toNat - y.bv.toNat) + W by omega, Nat.add_mod_right, Nat.mod_eq_of_lt (by omega)]
  have hc : Bits.Clean (n := n) (s := false) z := (Bits.clean_sto z).2 (by have := x.bv.isLt; omega)
  exact ⟨z, hz, hc, by rw [← Bits.sto_clean hc, e']⟩

theorem gcd_half {a b : Nat} (ha : a % 2 = 1) (hb : b % 2 = 0) : Nat.gcd a (b / 2) = Nat.gcd a b := by
  have h : Nat.Coprime 2 a := by rw [Nat.coprime_iff_gcd_eq_one, Nat.gcd_rec, ha]; rfl
  conv_rhs => rw [show b = 2 * (b / 2) by omega]
  exact (Nat.Coprime.gcd_mul_left_cancel_right _ h).symm

theorem Bits.binGcd_spec (h1 : 1 < n) (hN : n ≤ 2 ^ 32) : (fuel i j : Nat) → (a b : Bits n false) → a.Clean → b.Clean →
    a.bv.toNat % 2 = 1 → a.bv.toNat < 2 ^ i → b.bv.toNat < 2 ^ j → 2 * (i + j) ≤ fuel + (1 - b.bv.toNat % 2) →
    ∃ z, Bits.binGcd fuel a b = .ok z ∧ z.Clean ∧ z.bv.toNat = Nat.gcd a.bv.toNat b.bv.toNat
  | 0, i, j, a, b, _, _, ho, hi, _, hf => by
    have : i ≠ 0 := fun h => by rw [h, pow_zero] at hi; omega
    omega
  | fuel + 1, i, j, a, b, ha, hb, ho, hi, hj, hf => by
    have hi0 : i ≠ 0 := fun h => by rw [h, pow_zero] at hi; omega
    have hz0 : (Bits.zero : Bits n false).sto = 0 := by rw [Bits.sto_clean Bits.clean_zero, Bits.bv_zero]; simp
    rw [Bits.binGcd, Bits.gt_sto, hz0, Bits.sto_clean hb, res_bind_ok]
    by_cases hpos : 0 < b.bv.toNat
    · rw [decide_eq_true hpos, if_pos rfl, show (0 : Int) = ((0 : Nat) : Int) from rfl, C01_read (by omega) hN b 0 (by omega), res_bind_ok,
        BitVec.getLsbD, Nat.testBit_zero]
      by_cases hbo : b.bv.toNat % 2 = 1
      · rw [decide_eq_true hbo, if_pos rfl, Bits.gt_sto, Bits.sto_clean ha, Bits.sto_clean hb, res_bind_ok]
        by_cases hc : b.bv.toNat < a.bv.toNat
        · obtain ⟨t, ht, ct, et⟩ := Bits.diff_clean h1 a b ha hb hc.le
          obtain ⟨z, hz, cz, ez⟩ := Bits.binGcd_spec h1 hN fuel j i b t hb ct hbo hj (by omega) (by omega)
          refine ⟨z, ?_, cz, ?_⟩
          · rw [decide_eq_true hc, if_pos rfl, ht]; exact hz
          · rw [ez, et, Nat.gcd_sub_self_right hc.le, Nat.gcd_comm]
        · obtain ⟨t, ht, ct, et⟩ := Bits.diff_clean h1 b a hb ha (by omega)
          obtain ⟨z, hz, cz, ez⟩ := Bits.binGcd_spec h1 hN fuel i j a t ha ct ho hi (by omega) (by omega)
          refine ⟨z, ?_, cz, ?_⟩
          · rw [decide_eq_false hc, if_neg Bool.false_ne_true, ht]; exact hz
          · rw [ez, et, Nat.gcd_sub_self_right (by omega)]
      · obtain ⟨t, ht, ct, et⟩ := Bits.halve h1 hN b
        have hj0 : j ≠ 0 := fun h => by rw [h, pow_zero] at hj; omega
        have hj1 : 2 ^ j = 2 * 2 ^ (j - 1) := by rw [← pow_succ']; congr 1; omega
        obtain ⟨z, hz, cz, ez⟩ := Bits.binGcd_spec h1 hN fuel i (j - 1) a t ha ct ho hi (by omega) (by omega)
        refine ⟨z, ?_, cz, ?_⟩
        · rw [decide_eq_false hbo, if_neg Bool.false_ne_true, ht]; exact hz
        · rw [ez, et, gcd_half ho (by omega)]
    · refine ⟨a, by rw [decide_eq_false hpos, if_neg Bool.false_ne_true], ha, ?_⟩
      rw [show b.bv.toNat = 0 by omega, Nat.gcd_zero_right]

/-- **C221.** At every width above one bit, for an odd `a` and any `b`, the loop ends within four rounds per bit of the width,
with the greatest common divisor. -/
theorem C221_gcd (h1 : 1 < n) (hN : n ≤ 2 ^ 32) (a b : Bits n false) (ha : a.Clean) (hb : b.Clean) (ho : a.bv.toNat % 2 = 1)
    (fuel : Nat) (hf : 4 * n ≤ fuel) :
    ∃ z, Bits.binGcd fuel a b = .ok z ∧ z.Clean ∧ z.bv.toNat = Nat.gcd a.bv.toNat b.bv.toNat :=
  Bits.binGcd_spec h1 hN fuel n n a b ha hb ho a.bv.isLt b.bv.isLt (by omega)

/-- 45 and 120 in 12 bits; 9 and `3 * 2^40`, at which Euclid's loop (C158) stops too early, in 70 bits -/
example : ((Bits.binGcd 48 (Bits.ofInt 45 : Bits 12 false) (Bits.ofInt 120)).map fun z => z.bv.toNat) = .ok 15 ∧
    ((Bits.binGcd 280 (Bits.ofInt 9 : Bits 70 false) (Bits.ofInt (3 * 2 ^ 40))).map fun z => z.bv.toNat) = .ok 3 ∧
    ((Bits.gcdLoop 280 (Bits.ofInt 9 : Bits 70 false) (Bits.ofInt (3 * 2 ^ 40))).map fun z => z.bv.toNat) = .ok 9 := by decide +kernel

end Verif
