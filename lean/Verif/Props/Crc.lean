import Verif.Props.Programs
import Mathlib.Algebra.Polynomial.Div
import Mathlib.Algebra.Polynomial.RingDivision
import Mathlib.Algebra.CharP.Two
import Mathlib.Algebra.Field.ZMod
import Mathlib.Tactic.LinearCombination
import Mathlib.RingTheory.Coprime.Lemmas

/-!
# C169: a cyclic redundancy check computed with vectors

The serial register of a CRC: for every message bit, `fb = r[n-1] ^ b; r = r << 1; if (fb) r = r ^ p`. The
register is shown to hold the remainder of a division of polynomials over the field with two elements, and
the known detection guarantees follow.
-/

namespace Verif

open Polynomial

variable {n : Nat}

/-- one message bit: `fb = r[n-1] ^ b; r = r << 1; if (fb) r = r ^ p` -/
def Bits.crcStep (p r : Bits n false) (b : Bool) : Res (Bits n false) :=
  (r.get (Rng.down n) (n - 1 : Nat)).bind fun top =>
    (r.shl (amount 1)).map fun q => if top ^^ b then q.xor p else q

/-- the register after the bits of a message, first bit first -/
def Bits.crc (p : Bits n false) : Bits n false → List Bool → Res (Bits n false)
  | r, [] => .ok r
  | r, b :: l => (p.crcStep r b).bind fun r => p.crc r l

/-- the polynomial with the bits of a vector as its coefficients -/
noncomputable def bvPoly (b : BitVec n) : (ZMod 2)[X] :=
  ∑ i ∈ Finset.range n, if b.getLsbD i then X ^ i else 0

/-- the polynomial of a message; its first bit is the highest coefficient -/
noncomputable def msgPoly : List Bool → (ZMod 2)[X]
  | [] => 0
  | b :: l => (if b then X ^ l.length else 0) + msgPoly l

theorem coeff_bvPoly (b : BitVec n) (k : Nat) :
    (bvPoly b).coeff k = if b.getLsbD k then 1 else 0 := by
  rw [bvPoly, finset_sum_coeff]
  have : ∀ i ∈ Finset.range n, (if b.getLsbD i then X ^ i else 0 : (ZMod 2)[X]).coeff k =
      if k = i then (if b.getLsbD k then 1 else 0) else 0 := by
    intro i _
    by_cases h : k = i
    · subst h
      rw [if_pos rfl]
      split <;> simp [coeff_X_pow]
    · rw [if_neg h]
      split <;> simp [coeff_X_pow, h]
  rw [Finset.sum_congr rfl this, Finset.sum_ite_eq]
  by_cases hk : k < n
  · rw [if_pos (by simpa using hk)]
  · rw [if_neg (by simpa using hk), BitVec.getLsbD_of_ge _ _ (by omega)]; rfl

theorem bvPoly_inj {a b : BitVec n} (h : bvPoly a = bvPoly b) : a = b := by
  apply BitVec.eq_of_getLsbD_eq
  intro i hi
  have := congrArg (fun q : (ZMod 2)[X] => q.coeff i) h
  simp only [coeff_bvPoly] at this
  cases ha : a.getLsbD i <;> cases hb : b.getLsbD i <;> simp [ha, hb] at this ⊢

theorem degree_bvPoly (b : BitVec n) : (bvPoly b).degree < n := by
  rw [degree_lt_iff_coeff_zero]
  intro k hk
  rw [coeff_bvPoly, BitVec.getLsbD_of_ge _ _ hk]; rfl

theorem bvPoly_xor (a b : BitVec n) : bvPoly (a ^^^ b) = bvPoly a + bvPoly b := by
  ext k
  rw [coeff_add, coeff_bvPoly, coeff_bvPoly, coeff_bvPoly, BitVec.getLsbD_xor]
  cases a.getLsbD k <;> cases b.getLsbD k <;> simp
  decide

/-- the generator `X^n + p` -/
noncomputable def genPoly (p : BitVec n) : (ZMod 2)[X] := X ^ n + bvPoly p

theorem monic_gen (p : BitVec n) : (genPoly p).Monic := monic_X_pow_add (degree_bvPoly p)

theorem degree_gen (p : BitVec n) : (genPoly p).degree = n := by
  rw [genPoly, degree_add_eq_left_of_degree_lt (by rw [degree_X_pow]; exact degree_bvPoly p), degree_X_pow]

/-- shifting left multiplies by `X` and drops the top coefficient -/
theorem bvPoly_shl (hn : 0 < n) (b : BitVec n) :
    X * bvPoly b = bvPoly (b <<< 1) + if b.getLsbD (n - 1) then X ^ n else 0 := by
  ext k
  rw [coeff_add, coeff_bvPoly, BitVec.getLsbD_shiftLeft]
  have hif : (if b.getLsbD (n - 1) then X ^ n else 0 : (ZMod 2)[X]).coeff k =
      if k = n ∧ b.getLsbD (n - 1) then 1 else 0 := by
    cases b.getLsbD (n - 1) <;> simp [coeff_X_pow]
  rw [hif]
  cases k with
  | zero =>
    rw [mul_coeff_zero, coeff_X_zero, zero_mul]
    have : ¬ (0 = n ∧ b.getLsbD (n - 1) = true) := by omega
    simp [this]
  | succ k =>
    rw [coeff_X_mul, coeff_bvPoly]
    by_cases h : k + 1 = n
    · subst h; simp
    · by_cases hk : k + 1 < n
      · simp [h, hk]
      · have : b.getLsbD k = false := BitVec.getLsbD_of_ge _ _ (by omega)
        simp [h, hk, this]

/-- one step on bit vectors -/
theorem Bits.crcStep_spec (h1 : 1 < n) (hN : n ≤ 2 ^ 32) (p r : Bits n false) (b : Bool) :
    ∃ z, p.crcStep r b = .ok z ∧
      z.bv = if r.bv.getLsbD (n - 1) ^^ b then (r.bv <<< 1) ^^^ p.bv else r.bv <<< 1 := by
  obtain ⟨ca, na⟩ := amount_spec (i := 1) (by decide)
  obtain ⟨q, hq, eq⟩ := C25_shl_partial hN r (amount 1) ca 1 na
    (fun _ => ⟨by decide, h1, by split_ifs <;> decide⟩)
  rw [Bits.crcStep, C01_read (by omega) hN r (n - 1) (by omega), res_bind_ok, hq]
  refine ⟨_, rfl, ?_⟩
  split
  · rw [Bits.bv_xor, eq]
  · exact eq

/-- one step on polynomials: up to a multiple of the generator the register is multiplied by `X` and the
message bit enters at `X^n` -/
theorem crc_step_poly (hn : 0 < n) (p r : BitVec n) (b : Bool) :
    ∃ q, bvPoly (if r.getLsbD (n - 1) ^^ b then (r <<< 1) ^^^ p else r <<< 1) =
      X * bvPoly r + (if b then X ^ n else 0) + q * genPoly p := by
  have hs := bvPoly_shl hn r
  have two : ∀ a : (ZMod 2)[X], a + a = 0 := fun a => CharTwo.add_self_eq_zero a
  cases ht : r.getLsbD (n - 1) <;> cases b <;> rw [ht] at hs
  · refine ⟨0, ?_⟩
    simp at hs ⊢
    exact hs.symm
  · refine ⟨1, ?_⟩
    simp at hs ⊢
    rw [bvPoly_xor, hs, genPoly]
    linear_combination - two (X ^ n)
  · refine ⟨1, ?_⟩
    simp at hs ⊢
    rw [bvPoly_xor, hs, genPoly]
    linear_combination - two (X ^ n)
  · refine ⟨0, ?_⟩
    simp at hs ⊢
    rw [hs]
    linear_combination - two (X ^ n)

/-- **C169.** After any message the register holds the remainder of `r·X^k + M·X^n` modulo `X^n + p`, where
`r` is the initial register, `M` the message and `k` its length; in particular `M·X^n mod (X^n + p)` when the
register starts at zero. Missing: one bit, for which it is false (`C169_one_bit_refuted`). -/
theorem C169_crc_partial (h1 : 1 < n) (hN : n ≤ 2 ^ 32) (p : Bits n false) : (l : List Bool) → (r : Bits n false) →
    ∃ z, p.crc r l = .ok z ∧
      bvPoly z.bv = (bvPoly r.bv * X ^ l.length + msgPoly l * X ^ n) %ₘ (X ^ n + bvPoly p.bv)
  | [], r => ⟨r, rfl, by
      rw [msgPoly, List.length_nil, pow_zero, mul_one, zero_mul, add_zero]
      exact ((modByMonic_eq_self_iff (monic_gen p.bv)).mpr (by
        rw [degree_gen]; exact degree_bvPoly _)).symm⟩
  | b :: l, r => by
    obtain ⟨r', hr, er⟩ := Bits.crcStep_spec h1 hN p r b
    obtain ⟨z, hz, ez⟩ := C169_crc_partial h1 hN p l r'
    refine ⟨z, by rw [Bits.crc, hr]; exact hz, ?_⟩
    obtain ⟨q, hq⟩ := crc_step_poly (by omega) p.bv r.bv b
    rw [ez, er, hq]
    have e : (X * bvPoly r.bv + (if b then X ^ n else 0) + q * genPoly p.bv) * X ^ l.length + msgPoly l * X ^ n
        = (bvPoly r.bv * X ^ (b :: l).length + msgPoly (b :: l) * X ^ n) + (q * X ^ l.length) * genPoly p.bv := by
      rw [msgPoly, List.length_cons, pow_succ]
      cases b
      · simp; ring
      · simp; ring
    rw [e]
    show _ %ₘ genPoly p.bv = _ %ₘ genPoly p.bv
    rw [add_modByMonic, (modByMonic_eq_zero_iff_dvd (monic_gen p.bv)).mpr (Dvd.intro_left _ rfl), add_zero]

/-- the bits of a vector, highest first -/
def bvList (b : BitVec n) : List Bool := (List.range n).map fun i => b.getLsbD (n - 1 - i)

theorem length_bvList (b : BitVec n) : (bvList b).length = n := by simp [bvList]

theorem msgPoly_append (l m : List Bool) : msgPoly (l ++ m) = msgPoly l * X ^ m.length + msgPoly m := by
  induction l with
  | nil => simp [msgPoly]
  | cons b l ih =>
    rw [List.cons_append, msgPoly, msgPoly, ih, List.length_append]
    cases b <;> simp [pow_add] <;> ring

theorem coeff_msgPoly (l : List Bool) (k : Nat) :
    (msgPoly l).coeff k = if k < l.length ∧ l.getD (l.length - 1 - k) false = true then 1 else 0 := by
  induction l generalizing k with
  | nil => simp [msgPoly]
  | cons b l ih =>
    rw [msgPoly, coeff_add, ih]
    by_cases hk : k = l.length
    · subst hk
      cases b <;> simp
    · have hb : (if b then X ^ l.length else 0 : (ZMod 2)[X]).coeff k = 0 := by
        cases b <;> simp [coeff_X_pow, hk]
      rw [hb, zero_add]
      by_cases hlt : k < l.length
      · rw [List.length_cons, show l.length + 1 - 1 - k = (l.length - 1 - k) + 1 by omega, List.getD_cons_succ]
        simp [hlt, Nat.lt_succ_of_lt hlt]
      · have : ¬ k < l.length + 1 := by omega
        simp [hlt, this]

theorem msgPoly_bvList (b : BitVec n) : msgPoly (bvList b) = bvPoly b := by
  ext k
  rw [coeff_msgPoly, coeff_bvPoly, length_bvList]
  by_cases hk : k < n
  · have : (bvList b).getD (n - 1 - k) false = b.getLsbD k := by
      rw [bvList, List.getD_eq_getElem _ _ (by simp; omega)]
      simp
      congr 1
      omega
    rw [this]
    simp only [hk, true_and]
  · rw [BitVec.getLsbD_of_ge _ _ (by omega)]; simp [hk]

theorem crc_det {p r : Bits n false} {l : List Bool} {z : Bits n false} (h1 : 1 < n) (hN : n ≤ 2 ^ 32)
    (h : p.crc r l = .ok z) :
    bvPoly z.bv = (bvPoly r.bv * X ^ l.length + msgPoly l * X ^ n) %ₘ genPoly p.bv := by
  obtain ⟨z', hz, e⟩ := C169_crc_partial h1 hN p l r
  rw [h] at hz
  rw [Except.ok.inj hz]; exact e

/-- **C169, checking a received word.** A message followed by its own check bits, highest first, leaves the
register at zero, whatever the register started with. -/
theorem C169_check (h1 : 1 < n) (hN : n ≤ 2 ^ 32) (p r z : Bits n false) (l : List Bool)
    (hz : p.crc r l = .ok z) : ∃ w, p.crc r (l ++ bvList z.bv) = .ok w ∧ w.bv = 0 := by
  obtain ⟨w, hw, ew⟩ := C169_crc_partial h1 hN p (l ++ bvList z.bv) r
  refine ⟨w, hw, bvPoly_inj ?_⟩
  have hz' := crc_det h1 hN hz
  have e0 : bvPoly (0 : BitVec n) = 0 := by ext k; simp [coeff_bvPoly]
  rw [ew, e0]
  show _ %ₘ genPoly p.bv = 0
  rw [modByMonic_eq_zero_iff_dvd (monic_gen p.bv), msgPoly_append, msgPoly_bvList, List.length_append,
    length_bvList, pow_add]
  have hd := modByMonic_add_div (bvPoly r.bv * X ^ l.length + msgPoly l * X ^ n) (genPoly p.bv)
  rw [← hz'] at hd
  generalize (bvPoly r.bv * X ^ l.length + msgPoly l * X ^ n) /ₘ genPoly p.bv = q at hd
  refine ⟨q * X ^ n, ?_⟩
  have two : bvPoly z.bv + bvPoly z.bv = 0 := CharTwo.add_self_eq_zero _
  linear_combination - X ^ n * hd + X ^ n * two

/-- **C169, burst errors.** When bit 0 of `p` is set, two messages that differ only inside a window of at
most `n` bits have different check bits; a single wrong bit is the window of length one. -/
theorem C169_burst (h1 : 1 < n) (hN : n ≤ 2 ^ 32) (p r : Bits n false) (hp : p.bv.getLsbD 0 = true)
    (a u v c : List Bool) (hl : u.length = v.length) (hu : u.length ≤ n) (hne : u ≠ v) (z w : Bits n false)
    (hz : p.crc r (a ++ u ++ c) = .ok z) (hw : p.crc r (a ++ v ++ c) = .ok w) : z.bv ≠ w.bv := by
  intro e
  have ez := crc_det h1 hN hz
  have ew := crc_det h1 hN hw
  rw [e, ew] at ez
  have hlen : (a ++ v ++ c).length = (a ++ u ++ c).length := by simp [hl]
  have hdvd : genPoly p.bv ∣ (msgPoly u - msgPoly v) * X ^ (c.length + n) := by
    rw [← modByMonic_eq_zero_iff_dvd (monic_gen p.bv)]
    have : (msgPoly u - msgPoly v) * X ^ (c.length + n) =
        (bvPoly r.bv * X ^ (a ++ u ++ c).length + msgPoly (a ++ u ++ c) * X ^ n) -
        (bvPoly r.bv * X ^ (a ++ v ++ c).length + msgPoly (a ++ v ++ c) * X ^ n) := by
      rw [hlen, msgPoly_append, msgPoly_append, msgPoly_append, msgPoly_append, hl, pow_add]
      ring
    rw [this, sub_modByMonic, ez, sub_self]
  have hcop : IsCoprime (genPoly p.bv) (X ^ (c.length + n)) := by
    apply IsCoprime.pow_right
    have h0 : (genPoly p.bv).coeff 0 = 1 := by
      rw [genPoly, coeff_add, coeff_bvPoly, hp, coeff_X_pow, if_neg (by omega)]; simp
    refine ⟨1, - (genPoly p.bv).divX, ?_⟩
    have := divX_mul_X_add (genPoly p.bv)
    rw [h0, C_1] at this
    linear_combination - this
  have hd := hcop.dvd_of_dvd_mul_right hdvd
  have hdeg : (msgPoly u - msgPoly v).degree < (genPoly p.bv).degree := by
    rw [degree_gen, degree_lt_iff_coeff_zero]
    intro k hk
    rw [coeff_sub, coeff_msgPoly, coeff_msgPoly, if_neg (by omega), if_neg (by omega), sub_zero]
  have hzero := Polynomial.eq_zero_of_dvd_of_degree_lt hd hdeg
  apply hne
  apply List.ext_getElem hl
  intro i hi hi'
  have hc := congrArg (fun q : (ZMod 2)[X] => q.coeff (u.length - 1 - i)) hzero
  simp only [coeff_sub, coeff_msgPoly, coeff_zero] at hc
  rw [← hl, show u.length - 1 - (u.length - 1 - i) = i by omega,
    List.getD_eq_getElem _ _ hi, List.getD_eq_getElem _ _ hi'] at hc
  have hlt : u.length - 1 - i < u.length := by omega
  cases hx : u[i] <;> cases hy : v[i] <;> simp [hx, hy, hlt] at hc ⊢

/-- **C169 is false for one bit**: `r << 1` keeps the bit, and the register does not return to zero. -/
theorem C169_one_bit_refuted : ∃ p r : Bits 1 false, p.Clean ∧ r.Clean ∧ ∃ z, p.crc r [true] = .ok z ∧
    bvPoly z.bv ≠ (bvPoly r.bv * X ^ 1 + msgPoly [true] * X ^ 1) %ₘ (X ^ 1 + bvPoly p.bv) := by
  refine ⟨Bits.ofInt 1, Bits.ofInt 1, by decide +kernel, by decide +kernel, Bits.ofInt 1, by decide +kernel, ?_⟩
  have e : bvPoly (Bits.ofInt 1 : Bits 1 false).bv = 1 := by
    rw [show (Bits.ofInt 1 : Bits 1 false).bv = 1#1 by decide +kernel]
    simp [bvPoly]
  have e2 : (1 * X ^ 1 + msgPoly [true] * X ^ 1 : (ZMod 2)[X]) = 0 := by
    simp [msgPoly]
    exact CharTwo.add_self_eq_zero _
  rw [e, e2, zero_modByMonic]
  exact one_ne_zero

-- CRC-8 with the polynomial 0x07 of one byte, and the check of the received word
example : let p : Bits 8 false := Bits.ofInt 7
    (p.crc Bits.zero (bvList (0x31#8))).toOption.map (·.bv) = some 0x97#8 := by decide +kernel
example : let p : Bits 8 false := Bits.ofInt 7
    (p.crc Bits.zero (bvList (0x31#8) ++ bvList (0x97#8))).toOption.map (·.bv) = some 0 := by decide +kernel
example : (Bits.ofInt 7 : Bits 8 false).bv.getLsbD 0 = true := by decide +kernel

end Verif
