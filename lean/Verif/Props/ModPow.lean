import Verif.Props.ModMul
import Mathlib.FieldTheory.Finite.Basic
import Verif.Show

/-!
# A program: powers modulo a number by squaring (C223)

`r = 1; for (i = k; i-- > 0;) { r = mulmod(r, r); if (e[i]) r = mulmod(a, r); }` with the loop of C220 as `mulmod`:
the kernel of modular exponentiation, without a product or a division.
-/

namespace Verif

variable {n k : Nat} {s : Bool}

/-- one round, for bit `i` of the exponent -/
def Bits.modPowStep (a m : Bits n false) (e : Bits k s) (i : Nat) (r : Bits n false) : Res (Bits n false) :=
  (r.modMul m r).bind fun q => (e.get (Rng.down k) i).bind fun c => if c then a.modMul m q else .ok q

/-- the loop, from the highest bit of the exponent to the lowest -/
def Bits.modPow (a m : Bits n false) (e : Bits k s) : Res (Bits n false) :=
  loopM 0 k (Bits.oneN n) fun i r => a.modPowStep m e (k - 1 - i) r

/-- **C223, the power, partial.** If twice the modulus fits in the storage the loop gives `a ^ e % m`, as a clean vector, for every
`a` up to the modulus and every exponent. Missing: larger moduli at a width that fills the storage (`C223_refuted`). -/
theorem C223_power_partial (h1 : 1 < n) (hN : n ≤ 2 ^ 32) (hk : 0 < k) (hK : k ≤ 2 ^ 32) (a m : Bits n false) (ha : a.Clean) (hm : m.Clean)
    (e : Bits k s) (hM : 2 * m.bv.toNat ≤ 2 ^ stoW n) (h0 : 0 < m.bv.toNat) (ham : a.bv.toNat ≤ m.bv.toNat) :
    ∃ z, a.modPow m e = .ok z ∧ z.Clean ∧ z.bv.toNat = a.bv.toNat ^ e.bv.toNat % m.bv.toNat := by
  obtain ⟨c1, v1⟩ := Bits.oneN_spec (n := n) (by omega)
  have v1' : (Bits.oneN n).bv.toNat = 1 := by
    rw [v1]; show (BitVec.ofNat n 1).toNat = 1
    rw [BitVec.toNat_ofNat, Nat.mod_eq_of_lt (Nat.one_lt_two_pow (by omega))]
  obtain ⟨z, hz, cz, -, lz, ez⟩ := loopM_induct 0 k (Bits.oneN n) (fun i r => a.modPowStep m e (k - 1 - i) r)
    (fun i r => r.Clean ∧ r.bv.toNat ≤ m.bv.toNat ∧ (0 < i → r.bv.toNat < m.bv.toNat) ∧
      r.bv.toNat % m.bv.toNat = a.bv.toNat ^ (e.bv.toNat / 2 ^ (k - i)) % m.bv.toNat) (by omega)
    ⟨c1, by omega, fun h => by omega, by rw [v1', Nat.sub_zero, Nat.div_eq_of_lt e.bv.isLt, pow_zero]⟩
    (fun i r _ hi hr => by
      obtain ⟨cr, lr, -, er⟩ := hr
      obtain ⟨q, hq, cq, eq⟩ := C220_product_partial h1 (by omega) hN r m cr hm r hM h0 lr
      obtain ⟨w, hw, cw, ew⟩ := C220_product_partial h1 (by omega) hN a m ha hm q hM h0 ham
      have hd : e.bv.toNat / 2 ^ (k - (i + 1)) = 2 * (e.bv.toNat / 2 ^ (k - i)) + (e.bv.getLsbD (k - 1 - i)).toNat := by
        rw [show k - i = k - (i + 1) + 1 by omega, pow_succ, ← Nat.div_div_eq_div_mul, BitVec.getLsbD, Nat.toNat_testBit,
          show k - 1 - i = k - (i + 1) by omega]
        omega
      have lq : q.bv.toNat < m.bv.toNat := by rw [eq]; exact Nat.mod_lt _ h0
      have lw : w.bv.toNat < m.bv.toNat := by rw [ew]; exact Nat.mod_lt _ h0
      have hqq : q.bv.toNat = a.bv.toNat ^ (2 * (e.bv.toNat / 2 ^ (k - i))) % m.bv.toNat := by
        rw [eq, Nat.mul_mod, er, ← Nat.mul_mod, two_mul, pow_add]
      rw [Bits.modPowStep, hq, res_bind_ok, C01_read hk hK e _ (by omega), res_bind_ok, hd]
      cases e.bv.getLsbD (k - 1 - i)
      · exact ⟨q, rfl, cq, lq.le, fun _ => lq, by rw [Nat.mod_eq_of_lt lq, hqq]; rfl⟩
      · refine ⟨w, hw, cw, lw.le, fun _ => lw, ?_⟩
        rw [Nat.mod_eq_of_lt lw, ew, hqq, Nat.mul_mod_mod]
        congr 1
        show _ = a.bv.toNat ^ (_ + 1)
        rw [pow_succ, Nat.mul_comm])
  refine ⟨z, hz, cz, ?_⟩
  rw [Nat.sub_self, pow_zero, Nat.div_one, Nat.mod_eq_of_lt (lz hk)] at ez
  exact ez

/-- **C223, all moduli.** At a width below that of its storage the loop is right of every modulus. -/
theorem C223_all_moduli (h1 : 1 < n) (hn : n ≠ stoW n) (hN : n ≤ 2 ^ 32) (hk : 0 < k) (hK : k ≤ 2 ^ 32) (a m : Bits n false)
    (ha : a.Clean) (hm : m.Clean) (e : Bits k s) (h0 : 0 < m.bv.toNat) (ham : a.bv.toNat ≤ m.bv.toNat) :
    ∃ z, a.modPow m e = .ok z ∧ z.Clean ∧ z.bv.toNat = a.bv.toNat ^ e.bv.toNat % m.bv.toNat := by
  refine C223_power_partial h1 hN hk hK a m ha hm e ?_ h0 ham
  have : 2 ^ (n + 1) ≤ 2 ^ stoW n := Nat.pow_le_pow_right (by decide) (by have := le_stoW (n := n); omega)
  have := m.bv.isLt
  rw [pow_succ] at *
  omega

/-- **C223, Fermat's test.** At a width below that of its storage a prime passes: `a ^ (p - 1) % p` is 1 for every `a` from 1 to `p - 1`. -/
theorem C223_fermat (h1 : 1 < n) (hn : n ≠ stoW n) (hN : n ≤ 2 ^ 32) (a p e : Bits n false) (ha : a.Clean) (hp : p.Clean)
    (hprime : p.bv.toNat.Prime) (ha0 : 0 < a.bv.toNat) (hap : a.bv.toNat < p.bv.toNat) (he : e.bv.toNat = p.bv.toNat - 1) :
    ∃ z, a.modPow p e = .ok z ∧ z.bv.toNat = 1 := by
  obtain ⟨z, hz, -, ez⟩ := C223_all_moduli h1 hn hN (by omega) hN a p ha hp e hprime.pos hap.le
  refine ⟨z, hz, ?_⟩
  have hc : Nat.Coprime a.bv.toNat p.bv.toNat :=
    (Nat.coprime_comm.1 ((Nat.Prime.coprime_iff_not_dvd hprime).2 fun h => absurd (Nat.le_of_dvd ha0 h) (by omega)))
  have := Nat.ModEq.pow_totient hc
  rw [Nat.totient_prime hprime] at this
  rw [ez, he]
  have h := this
  rw [Nat.ModEq, Nat.mod_eq_of_lt hprime.one_lt] at h
  exact h

/-- **C223 is false at widths that fill the storage**: at 8 bits `254 ^ 2 % 255` comes out as 252. -/
theorem C223_refuted : ∃ (a m : Bits 8 false) (e : Bits 2 false), a.Clean ∧ m.Clean ∧ a.bv.toNat < m.bv.toNat ∧
    (a.modPow m e).map (·.bv.toNat) ≠ .ok (a.bv.toNat ^ e.bv.toNat % m.bv.toNat) :=
  ⟨Bits.ofInt 254, Bits.ofInt 255, Bits.ofInt 2, by decide +kernel⟩

/-- 12 bits, `3 ^ 1000 % 4093` and `0 ^ 0 % 1`; 70 bits, `5 ^ 9 % 7` -/
example : ((Bits.ofInt 3 : Bits 12 false).modPow (Bits.ofInt 4093) (Bits.ofInt 1000 : Bits 10 false)).map (·.bv.toNat) =
      .ok (3 ^ 1000 % 4093) ∧
    ((Bits.ofInt 0 : Bits 12 false).modPow (Bits.ofInt 1) (Bits.ofInt 0 : Bits 3 false)).map (·.bv.toNat) = .ok 0 ∧
    ((Bits.ofInt 5 : Bits 70 false).modPow (Bits.ofInt 7) (Bits.ofInt 9 : Bits 4 false)).map (·.bv.toNat) = .ok (5 ^ 9 % 7) := by
  decide +kernel

end Verif
