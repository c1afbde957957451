import Verif.Props.Programs
import Verif.Props.CanonicalExact
import Verif.Props.Compare
import Verif.Props.ArithExact

/-!
# C171: long division with the other operators

The restoring division of a hardware divider, written with `<<`, element accesses, `>=` and `-`. It is right
at every width and for every canonical pair of operands; `operator/` and `operator%` are not (C31, C33).
-/

namespace Verif

variable {n : Nat}

/-- one quotient bit: `r = r << 1; r[0] = x[i]; if (r >= d) { r = r - d; q[i] = 1; }`; the state is `(q, r)` -/
def Bits.divStep (x d : Bits n false) (i : Nat) (st : Bits n false × Bits n false) :
    Res (Bits n false × Bits n false) :=
  (st.2.shl (amount 1)).bind fun r =>
  (x.get (Rng.down n) i).bind fun b =>
  (r.set (Rng.down n) 0 b).bind fun r =>
  (r.ge d).bind fun c =>
    if c then (r.sub d).bind fun r' => (st.1.set (Rng.down n) i true).map fun q => (q, r') else .ok (st.1, r)

/-- `for (i = k - 1; i >= 0; i--)` over the quotient bits -/
def Bits.divFrom (x d : Bits n false) : Nat → Bits n false × Bits n false → Res (Bits n false × Bits n false)
  | 0, st => .ok st
  | i + 1, st => (x.divStep d i st).bind fun st => x.divFrom d i st

/-- `q = 0; r = 0;` followed by the loop over all bits -/
def Bits.longDiv (x d : Bits n false) : Res (Bits n false × Bits n false) := x.divFrom d n (Bits.zero, Bits.zero)

theorem toNat_set_bit (a b : BitVec n) {i : Nat} (hi : i < n) (v : Bool) (ha : a.getLsbD i = false)
    (hb : ∀ j, j < n → b.getLsbD j = if j = i then v else a.getLsbD j) :
    b.toNat = a.toNat + if v then 2 ^ i else 0 := by
  cases v
  · have : b = a := BitVec.eq_of_getLsbD_eq fun j hj => by
      rw [hb j hj]
      split
      · rename_i e; rw [e, ha]
      · rfl
    rw [this]; simp
  · have hand : a &&& BitVec.twoPow n i = 0#n := BitVec.eq_of_getLsbD_eq fun j hj => by
      rw [BitVec.getLsbD_and, BitVec.getLsbD_twoPow]
      by_cases e : i = j
      · subst e; simp [ha]
      · simp [e]
    have e : b = a ||| BitVec.twoPow n i := BitVec.eq_of_getLsbD_eq fun j hj => by
      rw [hb j hj, BitVec.getLsbD_or, BitVec.getLsbD_twoPow]
      by_cases e : j = i
      · subst e; simp [hj]
      · have : ¬ i = j := fun h => e h.symm
        simp [e, this]
    rw [e, ← BitVec.add_eq_or_of_and_eq_zero _ _ hand, BitVec.toNat_add_of_and_eq_zero hand, BitVec.toNat_twoPow,
      Nat.mod_eq_of_lt (Nat.pow_lt_pow_right (by decide) hi)]
    simp

theorem Bits.set_clean (hn : 0 < n) (hN : n ≤ 2 ^ 32) (x : Bits n false) (hx : x.Clean) {i : Nat} (hi : i < n) (v : Bool)
    (h0 : x.bv.getLsbD i = false) :
    ∃ z, x.set (Rng.down n) i v = .ok z ∧ z.Clean ∧ z.bv.toNat = x.bv.toNat + (if v then 2 ^ i else 0) := by
  obtain ⟨z, hz, hr⟩ := Bits.set_phys (Rng.down n) x i i
    (by rw [Bits.physIdx_down hn, Rng.lo_down hn]; omega) hi hN v
  refine ⟨z, hz, ?_, toNat_set_bit _ _ hi v h0 fun j hj => ?_⟩
  · rw [Bits.clean_unsigned_iff] at hx ⊢
    intro j hj
    rw [hr, if_neg (by omega)]; exact hx j hj
  · rw [Bits.getLsbD_bv, Bits.getLsbD_bv, hr]; simp [hj]

theorem Bits.shl_one_clean (hn : 0 < n) (hN : n ≤ 2 ^ 32) (x : Bits n false) (hx : x.Clean) (h : 2 * x.bv.toNat < 2 ^ n) :
    ∃ z, x.shl (amount 1) = .ok z ∧ z.Clean ∧ z.bv.toNat = 2 * x.bv.toNat := by
  obtain ⟨ca, na⟩ := amount_spec (i := 1) (by decide)
  by_cases h1 : n = 1
  · subst h1
    obtain ⟨z, hz, e⟩ := (C25_one_bit_exact (by decide) x (amount 1) ca).1
    exact ⟨z, hz, Bits.clean_one (by decide) (by decide) _, by rw [e]; omega⟩
  · obtain ⟨z, hz, hc⟩ := C16_shl_iff (by omega) hN x (amount 1) hx ca 1 (by decide +kernel)
      (fun _ => ⟨by decide, by split_ifs <;> decide⟩)
    obtain ⟨z', hz', e⟩ := C25_shl_partial hN x (amount 1) ca 1 na
      (fun _ => ⟨by decide, by omega, by split_ifs <;> decide⟩)
    obtain rfl := Except.ok.inj (hz.symm.trans hz')
    refine ⟨z, hz, hc.mpr ?_, ?_⟩
    · by_cases h64 : 64 < n
      · exact Or.inl h64
      · exact Or.inr (lt_of_le_of_lt (Nat.mod_le _ _) (by omega))
    · rw [e, BitVec.toNat_shiftLeft, Nat.shiftLeft_eq, pow_one, Nat.mod_eq_of_lt (by omega), Nat.mul_comm]

theorem Bits.sub_clean (hn : 0 < n) (x y : Bits n false) (hx : x.Clean) (hy : y.Clean) (h : y.bv.toNat ≤ x.bv.toNat) :
    ∃ z, x.sub y = .ok z ∧ Bits.Clean (z : Bits n false) ∧ z.bv.toNat = x.bv.toNat - y.bv.toNat := by
  obtain ⟨z, hz, e⟩ := C29_sub_partial hn x y (by simp)
  refine ⟨z, hz, ?_, ?_⟩
  · by_cases h1 : n = 1
    · subst h1; exact Bits.clean_one (by decide) (by decide) _
    · obtain ⟨z', hz', hc⟩ := C16_sub_iff (by omega) x y hx hy
      obtain rfl := Except.ok.inj (hz.symm.trans hz')
      exact hc.mpr (Or.inr h)
  · rw [e]
    exact BitVec.toNat_sub_of_le h

/-- what the quotient register holds when the bits from `i` upwards are done -/
def quotSoFar (n X D i : Nat) : Nat := if D = 0 then 2 ^ n - 2 ^ i else 2 ^ i * (X / 2 ^ i / D)

theorem quotSoFar_dvd {n X D i : Nat} (h : i ≤ n) : 2 ^ i ∣ quotSoFar n X D i := by
  rw [quotSoFar]
  split
  · exact Nat.dvd_sub (Nat.pow_dvd_pow 2 h) (dvd_refl _)
  · exact Dvd.intro _ rfl

theorem half_step (X i : Nat) : X / 2 ^ i = 2 * (X / 2 ^ (i + 1)) + (X.testBit i).toNat := by
  rw [Nat.toNat_testBit, pow_succ, ← Nat.div_div_eq_div_mul]; omega

theorem div_step_nat {A B D R b : Nat} (hB : B = 2 * A + b) (hb : b ≤ 1) (hR : R = A % D) (hD : 0 < D) :
    (D ≤ 2 * R + b → B / D = 2 * (A / D) + 1 ∧ B % D = 2 * R + b - D) ∧
    (¬ D ≤ 2 * R + b → B / D = 2 * (A / D) ∧ B % D = 2 * R + b) := by
  have hA := Nat.div_add_mod A D
  rw [← hR] at hA
  have hlt : R < D := by rw [hR]; exact Nat.mod_lt _ hD
  have hm : D * (2 * (A / D)) = 2 * (D * (A / D)) := by ring
  constructor
  · intro hc
    rw [Nat.div_mod_unique hD, Nat.mul_add, hm]
    omega
  · intro hc
    rw [Nat.div_mod_unique hD, hm]
    omega

theorem Bits.divStep_spec (hn : 0 < n) (hN : n ≤ 2 ^ 32) (x d q r : Bits n false) (hd : d.Clean) (hq : q.Clean)
    (hr : r.Clean) {i : Nat} (hi : i < n)
    (eq : q.bv.toNat = quotSoFar n x.bv.toNat d.bv.toNat (i + 1))
    (er : r.bv.toNat = x.bv.toNat / 2 ^ (i + 1) % d.bv.toNat) :
    ∃ q' r', x.divStep d i (q, r) = .ok (q', r') ∧ q'.Clean ∧ r'.Clean ∧
      q'.bv.toNat = quotSoFar n x.bv.toNat d.bv.toNat i ∧ r'.bv.toNat = x.bv.toNat / 2 ^ i % d.bv.toNat := by
  set X := x.bv.toNat with hX
  set D := d.bv.toNat with hD
  have hXn : X < 2 ^ n := x.bv.isLt
  have hb : x.bv.getLsbD i = X.testBit i := rfl
  have hstep := half_step X i
  have hle : r.bv.toNat ≤ X / 2 ^ (i + 1) := by rw [er]; exact Nat.mod_le _ _
  have hdiv : X / 2 ^ i ≤ X := Nat.div_le_self _ _
  obtain ⟨r1, hr1, c1, e1⟩ := Bits.shl_one_clean hn hN r hr (by omega)
  have hbit0 : r1.bv.getLsbD 0 = false := by
    rw [BitVec.getLsbD, e1, Nat.testBit_zero]; simp
  obtain ⟨r2, hr2, c2, e2⟩ := Bits.set_clean hn hN r1 c1 hn (x.bv.getLsbD i) hbit0
  have e2' : r2.bv.toNat = 2 * r.bv.toNat + (X.testBit i).toNat := by
    rw [e2, e1, hb]; cases X.testBit i <;> simp
  obtain ⟨hge, -⟩ := C40_ge_le_partial Iff.rfl r2 d c2 hd (fun _ => Or.inl rfl)
  have run : x.divStep d i (q, r) = if decide (D ≤ r2.bv.toNat) = true then
      (r2.sub d).bind fun r' => (q.set (Rng.down n) i true).map fun q => (q, r') else .ok (q, r2) := by
    rw [Bits.divStep]
    simp only
    rw [hr1, res_bind_ok, C01_read hn hN x i hi, res_bind_ok]
    show ((r1.set (Rng.down n) ((0 : Nat) : Int) _).bind _) = _
    rw [hr2, res_bind_ok, hge, res_bind_ok]
    rfl
  have hpow : (2 : Nat) ^ (i + 1) = 2 * 2 ^ i := by rw [pow_succ]; ring
  have hpn : (2 : Nat) ^ (i + 1) ≤ 2 ^ n := Nat.pow_le_pow_right (by decide) hi
  have hnat := fun h0 : 0 < D => div_step_nat (D := D) hstep (Bool.toNat_le _) er h0
  by_cases hc : D ≤ r2.bv.toNat
  · have hq0 : q.bv.getLsbD i = false := by
      rw [BitVec.getLsbD, eq]
      obtain ⟨k, hk⟩ := quotSoFar_dvd (n := n) (X := X) (D := D) (i := i + 1) (by omega)
      rw [hk, Nat.testBit_two_pow_mul]; simp
    obtain ⟨q', hq', cq, eq'⟩ := Bits.set_clean hn hN q hq hi true hq0
    obtain ⟨r', hr', cr, er'⟩ := Bits.sub_clean hn r2 d c2 hd hc
    refine ⟨q', r', ?_, cq, cr, ?_, ?_⟩
    · rw [run, if_pos (decide_eq_true hc), hr', res_bind_ok, hq']; rfl
    · rw [eq', eq, if_pos rfl]
      unfold quotSoFar
      by_cases h0 : D = 0
      · rw [if_pos h0, if_pos h0]; omega
      · rw [if_neg h0, if_neg h0, ((hnat (by omega)).1 (by omega)).1, hpow]; ring
    · rw [er', e2']
      by_cases h0 : D = 0
      · rw [h0, Nat.mod_zero] at er
        rw [← hD, h0, Nat.mod_zero, hstep, er, Nat.sub_zero]
      · rw [((hnat (by omega)).1 (by omega)).2]
  · have h0 : D ≠ 0 := by omega
    obtain ⟨a, b⟩ := (hnat (by omega)).2 (by omega)
    refine ⟨q, r2, by rw [run, if_neg (by simpa using hc)], hq, c2, ?_, ?_⟩
    · rw [eq]
      unfold quotSoFar
      rw [if_neg h0, if_neg h0, a, hpow]; ring
    · rw [b, e2']

theorem Bits.divFrom_spec (hn : 0 < n) (hN : n ≤ 2 ^ 32) (x d : Bits n false) (hd : d.Clean) : (i : Nat) →
    (q r : Bits n false) → q.Clean → r.Clean → i ≤ n → q.bv.toNat = quotSoFar n x.bv.toNat d.bv.toNat i →
    r.bv.toNat = x.bv.toNat / 2 ^ i % d.bv.toNat →
    ∃ q' r', x.divFrom d i (q, r) = .ok (q', r') ∧ q'.Clean ∧ r'.Clean ∧
      q'.bv.toNat = quotSoFar n x.bv.toNat d.bv.toNat 0 ∧ r'.bv.toNat = x.bv.toNat % d.bv.toNat
  | 0, q, r, hq, hr, _, eq, er => ⟨q, r, rfl, hq, hr, eq, by simpa using er⟩
  | i + 1, q, r, hq, hr, hi, eq, er => by
    obtain ⟨q1, r1, h1, c1, c2, e1, e2⟩ := Bits.divStep_spec hn hN x d q r hd hq hr (by omega) eq er
    obtain ⟨q', r', h, rest⟩ := Bits.divFrom_spec hn hN x d hd i q1 r1 c1 c2 (by omega) e1 e2
    exact ⟨q', r', by rw [Bits.divFrom, h1]; exact h, rest⟩

/-- **C171.** Long division gives the quotient and the remainder, both canonical, at every width and for every
canonical divisor; a zero divisor gives all ones and the dividend. It never faults. -/
theorem C171_long_division (hn : 0 < n) (hN : n ≤ 2 ^ 32) (x d : Bits n false) (hd : d.Clean) :
    ∃ q r, x.longDiv d = .ok (q, r) ∧ q.Clean ∧ r.Clean ∧
      q.bv = (if d.bv = 0 then BitVec.allOnes n else x.bv / d.bv) ∧ r.bv = x.bv % d.bv := by
  have z0 : (Bits.zero : Bits n false).bv.toNat = 0 := by rw [Bits.bv_zero]; rfl
  have hX : x.bv.toNat / 2 ^ n = 0 := Nat.div_eq_of_lt x.bv.isLt
  obtain ⟨q, r, h, cq, cr, eq, er⟩ := Bits.divFrom_spec hn hN x d hd n Bits.zero Bits.zero Bits.clean_zero
    Bits.clean_zero (le_refl _) (by rw [z0, quotSoFar, hX]; split <;> simp) (by rw [z0, hX, Nat.zero_mod])
  refine ⟨q, r, h, cq, cr, ?_, ?_⟩
  · apply BitVec.eq_of_toNat_eq
    rw [eq, quotSoFar]
    by_cases h0 : d.bv = 0
    · rw [if_pos h0, if_pos (by rw [h0]; rfl), BitVec.toNat_allOnes, pow_zero]
    · rw [if_neg h0, if_neg (fun e => h0 (BitVec.eq_of_toNat_eq (by rw [e]; rfl))), BitVec.toNat_udiv]; simp
  · apply BitVec.eq_of_toNat_eq
    rw [er, BitVec.toNat_umod]

/-- **C171, compared with the operators.** At every wide width and for every dividend of at least `2^k`, `k` in the
upper half of a chunk, `operator/` by `2^k` gives zero and long division the quotient. -/
theorem C171_operator_differs (h : 64 < n) (hN : n ≤ 2 ^ 32) (k : Nat) (hk : 32 ≤ k % 64) (hkn : k < n)
    (x : Bits n false) (hx : x.Clean) (hge : 2 ^ k ≤ x.bv.toNat) :
    ∃ d q, d.Clean ∧ d.bv.toNat = 2 ^ k ∧ x.div d = .ok q ∧ q.bv = 0 ∧
      ∃ q' r', x.longDiv d = .ok (q', r') ∧ q'.bv.toNat = x.bv.toNat / 2 ^ k ∧ q'.bv ≠ q.bv := by
  have hx0 : x.bv ≠ 0 := by
    intro e
    rw [e] at hge
    exact absurd hge (by simp)
  obtain ⟨d, cd, ed, q, -, hq, -, eq, -⟩ := C31_wide_refuted_all h hN k hk hkn x hx hx0
  obtain ⟨q', r', hl, -, -, eq', -⟩ := C171_long_division (by omega) hN x d cd
  have hd0 : d.bv ≠ 0 := by
    intro e
    rw [e] at ed
    exact absurd ed.symm (by simp)
  rw [if_neg hd0] at eq'
  have e1 : q'.bv.toNat = x.bv.toNat / 2 ^ k := by rw [eq', BitVec.toNat_udiv, ed]
  refine ⟨d, q, cd, ed, hq, eq, q', r', hl, e1, ?_⟩
  intro e
  rw [e, eq] at e1
  have := Nat.div_pos hge (Nat.two_pow_pos k)
  rw [← e1] at this
  exact absurd this (by simp)

example : ((Bits.ofInt 200 : Bits 8 false).longDiv (Bits.ofInt 7)).toOption.map
    (fun p => (p.1.bv.toNat, p.2.bv.toNat)) = some (28, 4) := by decide +kernel
example : ((Bits.ofInt 9 : Bits 5 false).longDiv (Bits.ofInt 0)).toOption.map
    (fun p => (p.1.bv.toNat, p.2.bv.toNat)) = some (31, 9) := by decide +kernel
example : (Bits.ofInt 7 : Bits 8 false).Clean ∧ (Bits.ofInt (-1) : Bits 70 false).bv.toNat ≥ 2 ^ 40 := by
  decide +kernel

end Verif
