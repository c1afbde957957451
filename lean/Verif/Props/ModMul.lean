import Verif.Props.Programs
import Verif.Props.Idioms
import Verif.Props.LimbSub

/-!
# A program: multiplication modulo a number by doubling and adding (C220)

`for (i = k; i-- > 0;) { r = r + r; if (!(r < m)) r = r - m; if (b[i]) { r = r + a; if (!(r < m)) r = r - m; } }`
computes `a * b % m` without a product. `+` does not mask its result, so `<` sees the bits above the width: the loop is right
of every modulus unless the width fills the storage.
-/

namespace Verif

variable {n k : Nat} {s : Bool}

/-- `r = r + a; if (!(r < m)) r = r - m;` -/
def Bits.modAdd (r a m : Bits n false) : Res (Bits n false) :=
  (r.add a).bind fun (t : Bits n false) => (t.lt m).bind fun c => if c then .ok t else t.sub m

/-- one round, for bit `i` of the multiplier -/
def Bits.modMulStep (a m : Bits n false) (b : Bits k s) (i : Nat) (r : Bits n false) : Res (Bits n false) :=
  (r.modAdd r m).bind fun d => (b.get (Rng.down k) i).bind fun c => if c then d.modAdd a m else .ok d

/-- the loop, from the highest bit to the lowest -/
def Bits.modMul (a m : Bits n false) (b : Bits k s) : Res (Bits n false) :=
  loopM 0 k Bits.zero fun i r => a.modMulStep m b (k - 1 - i) r

theorem Bits.sto_modAdd (h1 : 1 < n) (r a m : Bits n false) (hM : 2 * m.sto ≤ 2 ^ stoW n) (hr : r.sto < m.sto) (ha : a.sto ≤ m.sto) :
    ∃ z, r.modAdd a m = .ok z ∧ z.sto = (r.sto + a.sto) % m.sto := by
  obtain ⟨t, ht, -⟩ := C28_add_partial (s := false) (t := false) h1 r a (by simp)
  obtain ⟨d, hd, -⟩ := C29_sub_partial (s := false) (t := false) (by omega) t m (by simp)
  have et := Bits.sto_add h1 ht
  have ed := Bits.sto_sub h1 hd
  rw [Nat.mod_eq_of_lt (by omega)] at et
  have hl := Bits.lt_sto (n := n) t m
  by_cases h : Bits.sto (n := n) t < m.sto
  · refine ⟨t, ?_, by rw [← et, Nat.mod_eq_of_lt h]⟩
    rw [Bits.modAdd, ht, res_bind_ok, hl, res_bind_ok, decide_eq_true h]; rfl
  · refine ⟨d, ?_, ?_⟩
    · rw [Bits.modAdd, ht, res_bind_ok, hl, res_bind_ok, decide_eq_false h]; exact hd
    · rw [ed, ← et]
      generalize Bits.sto t = T at *
      generalize 2 ^ stoW n = W at *
      rw [show T + (W - m.sto) = (T - m.sto) + W by omega, Nat.add_mod_right, Nat.mod_eq_of_lt (by omega),
        Nat.mod_eq_sub_mod (by omega), Nat.mod_eq_of_lt (by omega)]

/-- **C220, the product, partial.** If twice the modulus fits in the storage the loop gives `a * b % m`, as a clean vector, for every
`a` up to the modulus.
This holds of every modulus if the width is not that of the storage (`C220_all_moduli`).
Missing: larger moduli at a width that fills the storage (`C220_refuted`). -/
theorem C220_product_partial (h1 : 1 < n) (hk : 0 < k) (hK : k ≤ 2 ^ 32) (a m : Bits n false) (ha : a.Clean) (hm : m.Clean)
    (b : Bits k s) (hM : 2 * m.bv.toNat ≤ 2 ^ stoW n) (h0 : 0 < m.bv.toNat) (ham : a.bv.toNat ≤ m.bv.toNat) :
    ∃ z, a.modMul m b = .ok z ∧ z.Clean ∧ z.bv.toNat = a.bv.toNat * b.bv.toNat % m.bv.toNat := by
  have em := Bits.sto_clean hm
  have ea := Bits.sto_clean ha
  have hz0 : (Bits.zero : Bits n false).sto = 0 := by rw [Bits.sto_clean Bits.clean_zero, Bits.bv_zero]; simp
  obtain ⟨z, hz, e⟩ := loopM_induct 0 k (Bits.zero : Bits n false) (fun i r => a.modMulStep m b (k - 1 - i) r)
    (fun i r => r.sto = a.bv.toNat * (b.bv.toNat / 2 ^ (k - i)) % m.bv.toNat) (by omega)
    (by rw [hz0, Nat.sub_zero, Nat.div_eq_of_lt b.bv.isLt]; simp)
    (fun i r _ hi hr => by
      have hlt : r.sto < m.sto := by rw [hr, em]; exact Nat.mod_lt _ (by omega)
      obtain ⟨d, hd, ed⟩ := Bits.sto_modAdd h1 r r m (by omega) hlt hlt.le
      have hdl : d.sto < m.sto := by rw [ed]; exact Nat.mod_lt _ (by omega)
      obtain ⟨w, hw, ew⟩ := Bits.sto_modAdd h1 d a m (by omega) hdl (by omega)
      have hq : b.bv.toNat / 2 ^ (k - (i + 1)) = 2 * (b.bv.toNat / 2 ^ (k - i)) + (b.bv.getLsbD (k - 1 - i)).toNat := by
        rw [show k - i = k - (i + 1) + 1 by omega, pow_succ, ← Nat.div_div_eq_div_mul, BitVec.getLsbD, Nat.toNat_testBit,
          show k - 1 - i = k - (i + 1) by omega]
        omega
      have hdd : d.sto = a.bv.toNat * (2 * (b.bv.toNat / 2 ^ (k - i))) % m.bv.toNat := by
        rw [ed, hr, em, ← Nat.add_mod]; congr 1; ring
      rw [Bits.modMulStep, hd, res_bind_ok, C01_read hk hK b _ (by omega), res_bind_ok, hq]
      cases b.bv.getLsbD (k - 1 - i)
      · exact ⟨d, rfl, by rw [hdd]; simp⟩
      · refine ⟨w, hw, ?_⟩
        rw [ew, hdd, em, ea, Nat.mod_add_mod]; congr 1)
  rw [Nat.sub_self, pow_zero, Nat.div_one] at e
  have hlt : z.sto < m.bv.toNat := by rw [e]; exact Nat.mod_lt _ (by omega)
  have hc : z.Clean := (Bits.clean_sto z).2 (hlt.trans m.bv.isLt)
  exact ⟨z, hz, hc, by rw [← Bits.sto_clean hc, e]⟩

/-- **C220, all moduli.** At a width below that of its storage the loop is right of every modulus. -/
theorem C220_all_moduli (h1 : 1 < n) (hn : n ≠ stoW n) (hk : 0 < k) (hK : k ≤ 2 ^ 32) (a m : Bits n false) (ha : a.Clean) (hm : m.Clean)
    (b : Bits k s) (h0 : 0 < m.bv.toNat) (ham : a.bv.toNat ≤ m.bv.toNat) :
    ∃ z, a.modMul m b = .ok z ∧ z.Clean ∧ z.bv.toNat = a.bv.toNat * b.bv.toNat % m.bv.toNat := by
  refine C220_product_partial h1 hk hK a m ha hm b ?_ h0 ham
  have : 2 ^ (n + 1) ≤ 2 ^ stoW n := Nat.pow_le_pow_right (by decide) (by have := le_stoW (n := n); omega)
  have := m.bv.isLt
  rw [pow_succ] at *
  omega

/-- **C220 is false at every width that fills its storage**: twice `2^n - 2` modulo `2^n - 1` comes out as `2^n - 4`.
This is the wrap around of any `n` bit addition, a limit of the loop and not a fault of the library. -/
theorem C220_refuted (h1 : 1 < n) (hn : n = stoW n) :
    ∃ (a m z : Bits n false) (b : Bits 2 false), a.Clean ∧ m.Clean ∧ b.Clean ∧ a.bv.toNat < m.bv.toNat ∧ b.bv.toNat = 2 ∧
      a.modMul m b = .ok z ∧ z.bv.toNat ≠ a.bv.toNat * b.bv.toNat % m.bv.toNat := by
  have hn8 : 8 ≤ n := by
    by_cases h : n ≤ 64
    · have e := hn
      rw [stoW, if_pos h, Verif.hw] at e
      split_ifs at e <;> omega
    · omega
  have hP : 2 ^ 8 ≤ 2 ^ n := Nat.pow_le_pow_right (by decide) hn8
  obtain ⟨a, ha, ea⟩ := Bits.exists_clean (n := n) (s := false) (BitVec.ofNat n (2 ^ n - 2))
  obtain ⟨m, hm, em⟩ := Bits.exists_clean (n := n) (s := false) (BitVec.ofNat n (2 ^ n - 1))
  obtain ⟨b, hb, eb⟩ := Bits.exists_clean (n := 2) (s := false) 2#2
  have ea' : a.bv.toNat = 2 ^ n - 2 := by rw [ea, BitVec.toNat_ofNat, Nat.mod_eq_of_lt (by omega)]
  have em' : m.bv.toNat = 2 ^ n - 1 := by rw [em, BitVec.toNat_ofNat, Nat.mod_eq_of_lt (by omega)]
  have sa := (Bits.sto_clean ha).trans ea'
  have sm := (Bits.sto_clean hm).trans em'
  have add : ∀ x y : Bits n false, ∃ t : Bits n false, x.add y = .ok t ∧ t.sto = (x.sto + y.sto) % 2 ^ n := fun x y => by
    obtain ⟨t, ht, -⟩ := C28_add_partial (s := false) (t := false) h1 x y (by simp)
    have := Bits.sto_add h1 ht
    rw [← hn] at this
    exact ⟨t, ht, this⟩
  have step : ∀ x y : Bits n false, (x.sto + y.sto) % 2 ^ n < 2 ^ n - 1 → ∃ t, x.modAdd y m = .ok t ∧ t.sto = (x.sto + y.sto) % 2 ^ n :=
    fun x y h => by
      obtain ⟨t, ht, et⟩ := add x y
      refine ⟨t, ?_, et⟩
      rw [Bits.modAdd, ht, res_bind_ok, Bits.lt_sto, res_bind_ok, decide_eq_true (by rw [et, sm]; exact h)]; rfl
  have hz0 : (Bits.zero : Bits n false).sto = 0 := by rw [Bits.sto_clean Bits.clean_zero, Bits.bv_zero]; simp
  obtain ⟨z0, h0, e0⟩ := step Bits.zero Bits.zero (by rw [hz0]; simp; omega)
  rw [hz0, Nat.zero_mod] at e0
  obtain ⟨z1, h1', e1⟩ := step z0 a (by rw [e0, sa, Nat.zero_add, Nat.mod_eq_of_lt (by omega)]; omega)
  rw [e0, sa, Nat.zero_add, Nat.mod_eq_of_lt (by omega)] at e1
  have hmod : (2 ^ n - 2 + (2 ^ n - 2)) % 2 ^ n = 2 ^ n - 4 := by
    rw [show 2 ^ n - 2 + (2 ^ n - 2) = (2 ^ n - 4) + 2 ^ n by omega, Nat.add_mod_right, Nat.mod_eq_of_lt (by omega)]
  obtain ⟨z2, h2, e2⟩ := step z1 z1 (by rw [e1, hmod]; omega)
  rw [e1, hmod] at e2
  have hc : z2.Clean := (Bits.clean_sto z2).2 (by omega)
  refine ⟨a, m, z2, b, ha, hm, hb, by omega, by rw [eb]; rfl, ?_, ?_⟩
  · have r1 := C01_read (by omega) (by norm_num) b 1 (by omega)
    have r0 := C01_read (by omega) (by norm_num) b 0 (by omega)
    rw [eb] at r1 r0
    have s1 : a.modMulStep m b 1 Bits.zero = .ok z1 := by
      rw [Bits.modMulStep, h0, res_bind_ok]
      have : b.get (Rng.down 2) (1 : Nat) = .ok true := r1
      rw [this, res_bind_ok]; exact h1'
    have s0 : a.modMulStep m b 0 z1 = .ok z2 := by
      rw [Bits.modMulStep, h2, res_bind_ok]
      have : b.get (Rng.down 2) (0 : Nat) = .ok false := r0
      rw [this, res_bind_ok]; rfl
    obtain ⟨w, hw, ew⟩ := loopM_induct 0 2 (Bits.zero : Bits n false) (fun i r => a.modMulStep m b (2 - 1 - i) r)
      (fun i r => (i = 0 → r = Bits.zero) ∧ (i = 1 → r = z1) ∧ (i = 2 → r = z2)) (by omega) (by simp)
      (fun i r _ hi h => by
        obtain rfl | rfl : i = 0 ∨ i = 1 := by omega
        · rw [h.1 rfl]; exact ⟨z1, s1, by simp⟩
        · rw [h.2.1 rfl]; exact ⟨z2, s0, by simp⟩)
    rw [Bits.modMul, hw, ew.2.2 rfl]
  · rw [← Bits.sto_clean hc, e2, ea', em', eb]
    have : (2 ^ n - 2) * (2#2).toNat % (2 ^ n - 1) = 2 ^ n - 3 := by
      rw [show (2 ^ n - 2) * (2#2).toNat = (2 ^ n - 3) + (2 ^ n - 1) by simp; omega, Nat.add_mod_right, Nat.mod_eq_of_lt (by omega)]
    rw [this]; omega

/-- 12 bits, `4090 * 4000 % 4093`; 70 bits, `5 * 9 % 7` -/
example : (((Bits.ofInt 4090 : Bits 12 false).modMul (Bits.ofInt 4093) (Bits.ofInt 4000 : Bits 12 false)).map fun z => z.bv.toNat) =
      .ok (4090 * 4000 % 4093) ∧
    (((Bits.ofInt 5 : Bits 70 false).modMul (Bits.ofInt 7) (Bits.ofInt 9 : Bits 5 false)).map fun z => z.bv.toNat) = .ok 3 := by
  decide +kernel

end Verif
