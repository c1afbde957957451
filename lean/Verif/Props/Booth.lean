import Verif.Props.Programs
import Verif.Props.Extend
import Verif.Props.Idioms

/-!
# A program: Booth multiplication of signed numbers (C218)

`for (i = 0; i < k; i++) { if (b[i] && !p) acc = acc - x; else if (!b[i] && p) acc = acc + x; x = x << 1; p = b[i]; }`
with `x` the sign extension of `a` to `n + k` bits: the product of two signed numbers with one addition or subtraction
per run of equal bits.
-/

namespace Verif

variable {n m k : Nat} {s : Bool}

/-- one round: accumulator, shifted multiplicand, previous bit -/
def Bits.boothStep (b : Bits k s) (i : Nat) (st : Bits m false × Bits m false × Bool) : Res (Bits m false × Bits m false × Bool) :=
  (b.get (Rng.down k) i).bind fun c =>
    (if c && !st.2.2 then st.1.sub st.2.1 else if !c && st.2.2 then st.1.add st.2.1 else .ok st.1 : Res (Bits m false)).bind fun acc =>
      (st.2.1.shl (amount 1)).map fun x => (acc, x, c)

/-- the loop -/
def Bits.booth (x : Bits m false) (b : Bits k s) : Res (Bits m false) :=
  (loopM 0 k (Bits.zero, x, false) b.boothStep).map (·.1)

/-- the value of the low `i` bits as a signed number of `i` bits -/
def lowInt (b : BitVec k) (i : Nat) : Int :=
  (b.toNat % 2 ^ i : Nat) - 2 ^ i * ((decide (0 < i) && b.getLsbD (i - 1)).toNat : Int)

theorem lowInt_succ (b : BitVec k) (i : Nat) :
    lowInt b (i + 1) = lowInt b i + 2 ^ i * (((decide (0 < i) && b.getLsbD (i - 1)).toNat : Int) - ((b.getLsbD i).toNat : Int)) := by
  have hbit : b.toNat % 2 ^ (i + 1) = b.toNat % 2 ^ i + 2 ^ i * (b.getLsbD i).toNat := by
    rw [Nat.mod_pow_succ, BitVec.getLsbD, Nat.toNat_testBit]
  rw [lowInt, lowInt, hbit, decide_eq_true (by omega), Bool.true_and, Nat.add_sub_cancel]
  push_cast
  ring

theorem lowInt_all (hk : 0 < k) (b : BitVec k) : lowInt b k = b.toInt := by
  rw [lowInt, Nat.mod_eq_of_lt b.isLt, decide_eq_true hk, Bool.true_and, ← BitVec.msb_eq_getLsbD_last, BitVec.toInt_eq_msb_cond]
  cases b.msb <;> simp

theorem Bits.boothStep_spec (h1 : 1 < m) (hM : m ≤ 2 ^ 32) (hK : k ≤ 2 ^ 32) (x0 : BitVec m) (b : Bits k s) (i : Nat) (hi : i < k)
    (acc x : Bits m false) (p : Bool) (ha : acc.bv = x0 * BitVec.ofInt m (lowInt b.bv i)) (hx : x.bv = x0 * BitVec.ofInt m (2 ^ i))
    (hp : p = (decide (0 < i) && b.bv.getLsbD (i - 1))) :
    ∃ acc' x' p', b.boothStep i (acc, x, p) = .ok (acc', x', p') ∧ acc'.bv = x0 * BitVec.ofInt m (lowInt b.bv (i + 1)) ∧
      x'.bv = x0 * BitVec.ofInt m (2 ^ (i + 1)) ∧ p' = b.bv.getLsbD i := by
  obtain ⟨ca, ea⟩ := amount_spec (i := 1) (by norm_num)
  obtain ⟨x', hx', ex'⟩ := C25_shl_partial hM x (amount 1) ca 1 ea (fun h => ⟨by decide, h1, by split_ifs <;> omega⟩)
  have ex' : Bits.bv (s := false) x' = x.bv <<< 1 := ex'
  have hx2 : Bits.bv (s := false) x' = x0 * BitVec.ofInt m (2 ^ (i + 1)) := by
    rw [ex', hx, BitVec.shiftLeft_eq_mul_twoPow]
    have : BitVec.twoPow m 1 = BitVec.ofInt m 2 := by
      apply BitVec.eq_of_toNat_eq
      rw [BitVec.toNat_twoPow, show (2 : Int) = ((2 : Nat) : Int) from rfl, BitVec.ofInt_natCast, BitVec.toNat_ofNat]
    rw [this, BitVec.mul_assoc, ← BitVec.ofInt_mul, pow_succ]
  have hacc : ∃ acc' : Bits m false, (if b.bv.getLsbD i && !p then acc.sub x else if !(b.bv.getLsbD i) && p then acc.add x
      else .ok acc : Res (Bits m false)) = .ok acc' ∧ acc'.bv = x0 * BitVec.ofInt m (lowInt b.bv (i + 1)) := by
    obtain ⟨d, hd, ed⟩ := C29_sub_partial (by omega) acc x (by simp)
    obtain ⟨a, hadd, eadd⟩ := C28_add_partial h1 acc x (by simp)
    rw [lowInt_succ, ← hp]
    cases hc : b.bv.getLsbD i <;> cases p
    · refine ⟨acc, by simp, ?_⟩
      rw [ha]; simp
    · refine ⟨a, by simpa using hadd, ?_⟩
      rw [show Bits.bv (s := false) a = acc.bv + x.bv from eadd, ha, hx, BitVec.ofInt_add,
        show (2 : Int) ^ i * (((true.toNat : Nat) : Int) - ((false.toNat : Nat) : Int)) = 2 ^ i by simp]
      generalize BitVec.ofInt m (2 ^ i) = q
      generalize BitVec.ofInt m (lowInt b.bv i) = r
      grind
    · refine ⟨d, by simpa using hd, ?_⟩
      rw [show Bits.bv (s := false) d = acc.bv - x.bv from ed, ha, hx, BitVec.ofInt_add,
        show (2 : Int) ^ i * (((false.toNat : Nat) : Int) - ((true.toNat : Nat) : Int)) = -2 ^ i by simp, BitVec.ofInt_neg]
      generalize BitVec.ofInt m (2 ^ i) = q
      generalize BitVec.ofInt m (lowInt b.bv i) = r
      grind
    · refine ⟨acc, by simp, ?_⟩
      rw [ha]; simp
  obtain ⟨acc', h2, e2⟩ := hacc
  refine ⟨acc', x', _, ?_, e2, hx2, rfl⟩
  rw [Bits.boothStep, C01_read (by omega) hK b i hi, res_bind_ok]
  simp only
  rw [h2, res_bind_ok, hx', res_map_ok]

/-- **C218, the loop.** At every width of the accumulator and of the multiplier, the loop multiplies by the signed value of
the multiplier, modulo `2^m`. -/
theorem C218_booth (h1 : 1 < m) (hM : m ≤ 2 ^ 32) (hk : 0 < k) (hK : k ≤ 2 ^ 32) (x : Bits m false) (b : Bits k s) :
    ∃ z, x.booth b = .ok z ∧ z.bv = x.bv * BitVec.ofInt m b.bv.toInt := by
  obtain ⟨st, hst, e⟩ := loopM_induct 0 k (Bits.zero, x, false) b.boothStep
    (fun i st => st.1.bv = x.bv * BitVec.ofInt m (lowInt b.bv i) ∧ st.2.1.bv = x.bv * BitVec.ofInt m (2 ^ i) ∧
      st.2.2 = (decide (0 < i) && b.bv.getLsbD (i - 1))) (by omega)
    ⟨by rw [Bits.bv_zero, lowInt]; simp [Nat.mod_one], by simp, by simp⟩
    (fun i st _ hi h => by
      obtain ⟨acc, y, p⟩ := st
      obtain ⟨acc', x', p', hs, e1, e2, e3⟩ := Bits.boothStep_spec h1 hM hK x.bv b i hi acc y p h.1 h.2.1 h.2.2
      exact ⟨_, hs, e1, e2, by simpa using e3⟩)
  refine ⟨st.1, by rw [Bits.booth, hst, res_map_ok], ?_⟩
  rw [e.1, lowInt_all hk]

/-- the product of two signed numbers: the multiplicand sign extended to the width of the product -/
def Bits.boothProduct (a : Bits n true) (b : Bits k true) : Res (Bits (n + k) false) :=
  ((a.extend (n + k)).toSign false).booth b

/-- **C218, the product, partial.** For a native multiplicand the result is the exact product of the two signed numbers.
Missing: wide multiplicands (`C218_product_refuted`), whose sign extension is wrong, and one bit numbers, which are `bool`s. -/
theorem C218_product_partial (hn : 1 < n) (h64 : n ≤ 64) (hk : 0 < k) (hK : n + k ≤ 2 ^ 32) (a : Bits n true) (ha : a.Clean) (b : Bits k true) :
    ∃ z, a.boothProduct b = .ok z ∧ z.bv.toInt = a.bv.toInt * b.bv.toInt := by
  obtain ⟨z, hz, e⟩ := C218_booth (by omega) hK hk (by omega) ((a.extend (n + k)).toSign false) b
  refine ⟨z, hz, ?_⟩
  have hx : (a.extend (n + k)).bv.toInt = a.bv.toInt := by
    have := (C48_sign_extend_partial (by omega) h64 (show n ≤ n + k by omega) a ha).2
    have t : ∀ {w : Nat} (v : BitVec w), 1 < w → numOf true v = v.toInt := fun v hw => by rw [numOf, if_pos]; simp; omega
    rwa [t _ (by omega), t _ hn] at this
  rw [Bits.bv_toSign] at e
  have e' : z.bv = BitVec.ofInt (n + k) (a.bv.toInt * b.bv.toInt) := by
    rw [e, BitVec.ofInt_mul, ← hx, BitVec.ofInt_toInt]
  rw [e', BitVec.toInt_ofInt]
  have hA := BitVec.toInt_lt (x := a.bv)
  have hA' := BitVec.le_toInt (x := a.bv)
  have hB := BitVec.toInt_lt (x := b.bv)
  have hB' := BitVec.le_toInt (x := b.bv)
  have e2 : ((2 ^ (n + k) : Nat) : Int) = 4 * (2 ^ (n - 1) * 2 ^ (k - 1)) := by
    push_cast
    rw [← pow_add, show n + k = (n - 1 + (k - 1)) + 2 by omega, pow_add _ _ 2]; ring
  have hP : (0 : Int) < 2 ^ (n - 1) := by positivity
  have hQ : (0 : Int) < 2 ^ (k - 1) := by positivity
  generalize a.bv.toInt = A at *
  generalize b.bv.toInt = B at *
  generalize (2 : Int) ^ (n - 1) = P at *
  generalize (2 : Int) ^ (k - 1) = Q at *
  have hu : A * B ≤ P * Q := by
    nlinarith [mul_nonneg (sub_nonneg.2 hA.le) (show 0 ≤ Q + B by omega), mul_nonneg (show 0 ≤ P + A by omega) (sub_nonneg.2 hB.le)]
  have hl : -(P * Q) ≤ A * B := by
    nlinarith [mul_nonneg (sub_nonneg.2 hA.le) (sub_nonneg.2 hB.le), mul_nonneg (show 0 ≤ P + A by omega) (show 0 ≤ Q + B by omega)]
  have hPQ : 0 < P * Q := mul_pos hP hQ
  rw [Int.bmod_eq_of_le] <;> rw [e2] <;> omega

/-- **C218 is false of wide multiplicands**: 5 times 1 is negative. -/
theorem C218_product_refuted (h64 : 64 < n) (hk : 1 < k) (hK : n + k ≤ 2 ^ 32) :
    ∃ (a : Bits n true) (b : Bits k true) (z : Bits (n + k) false), a.Clean ∧ b.Clean ∧ a.bv.toInt = 5 ∧ b.bv.toInt = 1 ∧
      a.boothProduct b = .ok z ∧ z.bv.toInt < 0 := by
  obtain ⟨a, ca, ea, hneg⟩ := C48_refuted h64 (show n < n + k by omega)
  obtain ⟨b, cb, eb⟩ := Bits.exists_clean (s := true) (1 : BitVec k)
  have hb1 : b.bv.toInt = 1 := by
    have h2 : 2 < 2 ^ k := by
      calc 2 = 2 ^ 1 := rfl
        _ < 2 ^ k := Nat.pow_lt_pow_right (by decide) hk
    have h1 : (1 : BitVec k).toNat = 1 := by
      show (BitVec.ofNat k 1).toNat = 1
      rw [BitVec.toNat_ofNat, Nat.mod_eq_of_lt (by omega)]
    rw [eb, BitVec.toInt_eq_toNat_cond, h1, if_pos (by omega)]; rfl
  obtain ⟨z, hz, e⟩ := C218_booth (by omega) hK (by omega) (by omega) ((a.extend (n + k)).toSign false) b
  refine ⟨a, b, z, ca, cb, ea, hb1, hz, ?_⟩
  rw [e, hb1, Bits.bv_toSign]
  have : BitVec.ofInt (n + k) 1 = 1#(n + k) := by
    rw [show (1 : Int) = ((1 : Nat) : Int) from rfl, BitVec.ofInt_natCast]
  rw [this, BitVec.mul_one]
  exact hneg

-- -7 times 6 and -7 times -8 in 8 bits
example : ((Bits.ofInt (-7) : Bits 4 true).boothProduct (Bits.ofInt 6 : Bits 4 true)).map (·.bv.toInt) = .ok (-42) := by decide +kernel
example : ((Bits.ofInt (-7) : Bits 4 true).boothProduct (Bits.ofInt (-8) : Bits 4 true)).map (·.bv.toInt) = .ok 56 := by decide +kernel

end Verif
