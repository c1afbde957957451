import Verif.Props.Programs
import Verif.Props.CanonicalExact
import Mathlib.Data.Nat.Digits.Defs
import Mathlib.Data.Nat.Digits.Lemmas

/-!
# Powers and digits (C182, C183)

Client loops over unsigned vectors: powers by repeated squaring with `operator*` (`bit.hh`
`operator*`), and the digits of a number in any base with `operator%` and `operator/`. The
loops are client code.
-/

namespace Verif

variable {n m : Nat}

/-! ## C182: powers -/

/-- `if (e[i]) r = r * b; b = b * b;` -/
def Bits.powStep (e : Bits m false) (i : Nat) (st : Bits n false × Bits n false) : Res (Bits n false × Bits n false) :=
  (e.get (Rng.down m) i).bind fun c =>
  (if c then st.1.mul st.2 else .ok st.1).bind fun r =>
  (st.2.mul st.2).map fun b => (r, b)

/-- `r = 1; b = a; for (i = 0; i < m; i++) { ... }`; the result is `r` -/
def Bits.powLoop (a : Bits n false) (e : Bits m false) : Res (Bits n false) :=
  (loopM 0 m ((Bits.ofInt 1 : Bits n false), a) (Bits.powStep e)).map (·.1)

/-- **C182, partial.** Up to 8 bits and from 17 to 64 bits the loop never faults and gives the power
modulo `2^n`, for every base and every exponent of every width. Missing: 9 to 16 bits, where products
are computed as `int` (`C182_refuted`), and wide vectors (`C182_wide_refuted`). -/
theorem C182_power_partial (hn : 0 < n) (h : n ≤ 8 ∨ 16 < n ∧ n ≤ 64) (hm : 0 < m) (hM : m ≤ 2 ^ 32)
    (a : Bits n false) (e : Bits m false) :
    ∃ z, a.powLoop e = .ok z ∧ z.bv.toNat = a.bv.toNat ^ e.bv.toNat % 2 ^ n := by
  have mul : ∀ x y : Bits n false, ∃ z, x.mul y = .ok z ∧ z.bv.toNat = x.bv.toNat * y.bv.toNat % 2 ^ n := by
    intro x y
    obtain ⟨z, hz, e⟩ := C30_mul_partial hn x y (fun _ _ h8 h16 => by omega) (fun h => by cases h) (fun h64 => by omega)
    exact ⟨z, hz, by rw [e, BitVec.toNat_mul]⟩
  have one : (Bits.ofInt 1 : Bits n false).bv.toNat = 1 % 2 ^ n := by
    have := (Bits.ofInt_native (n := n) (by omega) (BitVec.ofNat n 1)).2
    rw [BitVec.toNat_ofNat, Nat.mod_eq_of_lt (Nat.one_lt_two_pow (by omega))] at this
    rw [show (1 : Int) = ((1 : Nat) : Int) from rfl, this, BitVec.toNat_ofNat]
  obtain ⟨⟨z, b⟩, hz, ez, -⟩ := loopM_induct 0 m ((Bits.ofInt 1 : Bits n false), a) (Bits.powStep e)
    (fun i st => st.1.bv.toNat = a.bv.toNat ^ (e.bv.toNat % 2 ^ i) % 2 ^ n ∧
      st.2.bv.toNat = a.bv.toNat ^ 2 ^ i % 2 ^ n) (Nat.zero_le m)
    ⟨by simp only [one, pow_zero, Nat.mod_one], by simp⟩
    (by
      rintro i ⟨r, b⟩ - hi ⟨h1, h2⟩
      simp only at h1 h2
      obtain ⟨b', hb, eb⟩ := mul b b
      obtain ⟨r', hr, er⟩ := mul r b
      have hbit : e.bv.toNat % 2 ^ (i + 1) = e.bv.toNat % 2 ^ i + 2 ^ i * (e.bv.getLsbD i).toNat := by
        rw [Nat.mod_pow_succ, BitVec.getLsbD, Nat.toNat_testBit]
      have e2 : b'.bv.toNat = a.bv.toNat ^ 2 ^ (i + 1) % 2 ^ n := by
        rw [eb, h2, ← Nat.mul_mod, ← pow_add, pow_succ, Nat.mul_two]
      rw [Bits.powStep, C01_read hm hM e i hi, res_bind_ok]
      cases hc : e.bv.getLsbD i
      · refine ⟨(r, b'), ?_, ?_, e2⟩
        · simp only [Bool.false_eq_true, if_false, res_bind_ok]
          rw [hb, res_map_ok]
        · rw [hbit, hc]; simpa using h1
      · refine ⟨(r', b'), ?_, ?_, e2⟩
        · simp only [if_true]
          rw [hr, res_bind_ok, hb, res_map_ok]
        · rw [hbit, hc]
          simp only [Bool.toNat_true, Nat.mul_one]
          rw [er, h1, h2, ← Nat.mul_mod, ← pow_add])
  refine ⟨z, ?_, ?_⟩
  · rw [Bits.powLoop, hz, res_map_ok]
  · simp only at ez
    rw [ez, Nat.mod_eq_of_lt e.bv.isLt]

theorem loopM_two {σ : Type} (k : Nat) (st : σ) (f : Nat → σ → Res σ) (er : Fault)
    (h : (f 0 st).bind (f 1) = .error er) : loopM 0 (k + 2) st f = .error er := by
  have h2 : loopM 0 2 st f = .error er := by
    rw [show (2 : Nat) = 0 + (1 + 1) from rfl, loopM_succ, show (0 : Nat) + 1 = 0 + (0 + 1) from rfl, loopM_succ,
      loopM_zero _ _ _ _ (by omega)]
    exact h
  induction k with
  | zero => exact h2
  | succ k ih =>
    rw [show k + 1 + 2 = 0 + ((k + 2) + 1) by omega, loopM_succ, Nat.zero_add, ih]
    rfl

/-- **C182 is false at every width of 9 to 16 bits**: with the base 255 the second squaring overflows
`int`, whatever the exponent, if it has at least two bits. (255 fits, the square of it is kept in
the 16-bit holder, and the square of that is more than `2^31`.) -/
theorem C182_refuted (h : 8 < n ∧ n ≤ 16) (hm : 2 ≤ m) (hM : m ≤ 2 ^ 32) :
    ∃ a : Bits n false, a.Clean ∧ a.bv.toNat = 255 ∧ ∀ e : Bits m false, a.powLoop e = .error .overflow := by
  have key : ∀ n, n = 9 ∨ n = 10 ∨ n = 11 ∨ n = 12 ∨ n = 13 ∨ n = 14 ∨ n = 15 ∨ n = 16 →
      (Bits.ofInt 255 : Bits n false).Clean ∧ (Bits.ofInt 255 : Bits n false).bv.toNat = 255 ∧
      ∀ c d : Bool,
      ((if c then (Bits.ofInt 1 : Bits n false).mul (Bits.ofInt 255 : Bits n false) else .ok (Bits.ofInt 1)).bind fun r =>
        ((Bits.ofInt 255 : Bits n false).mul (Bits.ofInt 255 : Bits n false)).bind fun b =>
        ((if d then r.mul b else .ok r).bind fun r => (b.mul b).map fun b => (r, b))) = .error .overflow := by
    intro n hn
    rcases hn with rfl | rfl | rfl | rfl | rfl | rfl | rfl | rfl <;>
      exact ⟨by decide +kernel, by decide +kernel, by intro c d; cases c <;> cases d <;> decide +kernel⟩
  obtain ⟨k1, k2, k3⟩ := key n (by omega)
  refine ⟨_, k1, k2, fun e => ?_⟩
  obtain ⟨k, rfl⟩ : ∃ k, m = k + 2 := ⟨m - 2, by omega⟩
  have := k3 (e.bv.getLsbD 0) (e.bv.getLsbD 1)
  rw [Bits.powLoop, loopM_two k _ _ .overflow]
  · rfl
  · rw [← this]
    rw [Bits.powStep, C01_read (by omega) hM e 0 (by omega), res_bind_ok]
    generalize (if e.bv.getLsbD 0 then (Bits.ofInt 1 : Bits n false).mul (Bits.ofInt 255 : Bits n false)
      else .ok (Bits.ofInt 1)) = R
    generalize (Bits.ofInt 255 : Bits n false).mul (Bits.ofInt 255 : Bits n false) = Q
    cases R with
    | error _ => rfl
    | ok r =>
      cases Q with
      | error _ => rfl
      | ok q =>
        simp only [res_bind_ok, res_map_ok]
        show Bits.powStep e 1 (r, q) = _
        rw [Bits.powStep, C01_read (by omega) hM e 1 (by omega), res_bind_ok]
        rfl

theorem loopM_first {σ : Type} (k : Nat) (st : σ) (f : Nat → σ → Res σ) (er : Fault)
    (h : f 0 st = .error er) : loopM 0 (k + 1) st f = .error er := by
  induction k with
  | zero =>
    rw [show (0 : Nat) + 1 = 0 + (0 + 1) from rfl, loopM_succ, loopM_zero _ _ _ _ (by omega)]
    exact h
  | succ k ih =>
    rw [show k + 1 + 1 = 0 + ((k + 1) + 1) by omega, loopM_succ, Nat.zero_add, ih]
    rfl

/-- **C182 is false at every wide width**: with a base that has bits 64 and `n-1` set the first
product is written outside the limbs, whatever the exponent. -/
theorem C182_wide_refuted (h : 64 < n) (hm : 0 < m) (hM : m ≤ 2 ^ 32) (a : Bits n false) (ha : a.Clean)
    (h64 : a.bv.getLsbD 64 = true) (hn : a.bv.getLsbD (n - 1) = true) (e : Bits m false) :
    a.powLoop e = .error .oob := by
  have hl : ¬ LowOnly a.bv := fun c => by
    have := c 64 (by omega) (by norm_num)
    rw [this] at h64; cases h64
  have sq : a.mul a = .error .oob :=
    ((C30_wide_exact h a a ha ha).2 (fun c => hl c.1)).1 ⟨n - 1, n - 1, hn, hn, by omega⟩
  have c1 : (Bits.ofInt 1 : Bits n false).Clean ∧ (Bits.ofInt 1 : Bits n false).bv.getLsbD 0 = true := by
    have h' : ¬ n ≤ 64 := by omega
    constructor
    · rw [Bits.clean_sto, Bits.sto_big h', Bits.ofInt, dif_neg h', Bits.bg_big, Big.val_ofU64 (by omega)]
      exact lt_of_lt_of_le (BitVec.isLt _) (Nat.pow_le_pow_right (by decide) (by omega))
    · rw [C60_wide h, BitVec.getLsbD_setWidth]
      simp; omega
  have one : (Bits.ofInt 1 : Bits n false).mul a = .error .oob :=
    ((C30_wide_exact h _ a c1.1 ha).2 (fun c => hl c.2)).1 ⟨0, n - 1, c1.2, hn, by omega⟩
  obtain ⟨k, rfl⟩ : ∃ k, m = k + 1 := ⟨m - 1, by omega⟩
  rw [Bits.powLoop, loopM_first k _ _ .oob]
  · rfl
  · rw [Bits.powStep, C01_read (by omega) hM e 0 (by omega), res_bind_ok]
    simp only [one, sq]
    cases e.bv.getLsbD 0 <;> rfl

/-- non-vacuity: the base `2^99 + 2^64 + 1` of 100 bits -/
example : ∃ a : Bits 100 false, a.Clean ∧ a.bv.getLsbD 64 = true ∧ a.bv.getLsbD 99 = true := by
  obtain ⟨a, ca, ea⟩ := Bits.exists_clean (s := false) (BitVec.ofNat 100 (2 ^ 99 + 2 ^ 64 + 1))
  exact ⟨a, ca, by rw [ea]; decide, by rw [ea]; decide⟩

-- 3^13 in 32 bits and 7^5 in 8 bits
example : ((Bits.ofInt 3 : Bits 32 false).powLoop (Bits.ofInt 13 : Bits 4 false)).map (·.bv.toNat) = .ok 1594323 := by
  decide +kernel
example : ((Bits.ofInt 7 : Bits 8 false).powLoop (Bits.ofInt 5 : Bits 70 false)).map (·.bv.toNat) = .ok (16807 % 256) := by
  decide +kernel

/-! ## C183: digits -/

/-- `for (k = 0; k < K; k++) { d[k] = v % y; v = v / y; }` -/
def Bits.digitsLoop (y : Bits n false) : Nat → Bits n false → Res (List (Bits n false))
  | 0, _ => .ok []
  | k + 1, v => (v.mod y).bind fun d => (v.div y).bind fun q => (digitsLoop y k q).map fun l => d :: l

/-- `while (v) { d.push_back(v % y); v = v / y; }` -/
def Bits.digitsWhile (y : Bits n false) : Nat → Bits n false → Res (List (Bits n false))
  | 0, _ => .error .diverge
  | fuel + 1, v =>
    if v.anySet then
      (v.mod y).bind fun d => (v.div y).bind fun q => (digitsWhile y fuel q).map fun l => d :: l
    else .ok []

/-- `r = 0; for d from the last to the first: r = r * y + d` -/
def Bits.horner (y : Bits n false) : List (Bits n false) → Res (Bits n false)
  | [] => .ok Bits.zero
  | d :: l => (horner y l).bind fun r => (r.mul y).bind fun p => p.add d

theorem Bits.sto_mul (h : n ≤ 64) (h1 : 1 < n) {x y z : Bits n false} (hz : x.mul y = .ok z) :
    z.sto = x.sto * y.sto % 2 ^ hw n := by
  rw [Bits.mul, dif_pos h] at hz
  have := arith_hold h h1 x y (· * ·) (fun _ a b => a * b) (fun w a b => BitVec.ofInt_mul a b) z hz
  rw [sto_native h, sto_native h, sto_native h, this, BitVec.toNat_mul]

/-- one step of both loops: native operands, or wide ones below `2^96` and a base below `2^32` -/
theorem Bits.digit_step (hn : 0 < n) (hN : n ≤ 2 ^ 32) (v y : Bits n false) (hv : v.Clean) (hy : y.Clean)
    (h2 : 2 ≤ y.bv.toNat) (hw : 64 < n → v.bv.toNat < 2 ^ 96 ∧ y.bv.toNat < 2 ^ 32) :
    ∃ d q, v.mod y = .ok d ∧ v.div y = .ok q ∧ d.Clean ∧ q.Clean ∧
      d.bv.toNat = v.bv.toNat % y.bv.toNat ∧ q.bv.toNat = v.bv.toNat / y.bv.toNat := by
  have hy0 : y.bv ≠ 0 := fun e => by rw [e] at h2; simp at h2
  by_cases h : n ≤ 64
  · obtain ⟨⟨q, hq, cq, eq⟩, ⟨d, hd, cd, ed⟩⟩ := Bits.div_native h hn hv hy hy0
    exact ⟨d, q, hd, hq, cd, cq, ed, eq⟩
  · obtain ⟨hv96, hy32⟩ := hw (by omega)
    obtain ⟨q, d, hq, hd, cq, cd, -, e⟩ := C31_wide_exact (by omega) hN v y hv hy
    have ylow : AnyLow y.bv := by
      obtain ⟨j, hj⟩ : ∃ j, y.bv.getLsbD j = true := by
        by_contra hc
        push Not at hc
        exact hy0 (BitVec.eq_of_getLsbD_eq (fun i _ => by have := hc i; simpa using this))
      refine ⟨j, ?_, hj⟩
      have : j < 32 := by
        by_contra c
        have := Nat.testBit_lt_two_pow (lt_of_lt_of_le hy32 (Nat.pow_le_pow_right (by decide) (show 32 ≤ j by omega)))
        rw [BitVec.getLsbD, this] at hj; cases hj
      omega
    obtain ⟨-, e⟩ := e ylow
    have e := e (fun c => by
      have := c.1
      rw [Nat.mod_eq_of_lt (by omega)] at this; omega)
    refine ⟨d, q, hd, hq, cd, cq, ?_⟩
    by_cases c : y.bv.toNat < v.bv.toNat ∧ LowOnly v.bv ∧ LowOnly y.bv
    · have hv64 : v.bv.toNat < 2 ^ 64 := by
        apply Nat.lt_pow_two_of_testBit
        intro i hi
        by_cases h96 : i < 96
        · exact c.2.1 i hi (by omega)
        · exact Nat.testBit_lt_two_pow (lt_of_lt_of_le hv96 (Nat.pow_le_pow_right (by decide) (by omega)))
      obtain ⟨e1, e2⟩ := e.1 c
      rw [Nat.mod_eq_of_lt hv64, Nat.mod_eq_of_lt (show y.bv.toNat < 2 ^ 64 by omega)] at e1 e2
      exact ⟨e2, e1⟩
    · obtain ⟨e1, e2⟩ := e.2 c
      rw [e1, e2]
      exact ⟨BitVec.toNat_umod, BitVec.toNat_udiv⟩

/-- **C183, partial.** Digit `k` of every number in every base from 2 on is `v / y^k % y`, up to 64 bits, and
at wide widths for every number below `2^96` in a base below `2^32`. Missing: larger wide numbers
(`C183_refuted`). -/
theorem C183_digits_partial (hn : 0 < n) (hN : n ≤ 2 ^ 32) (y : Bits n false) (hy : y.Clean) (h2 : 2 ≤ y.bv.toNat) :
    (K : Nat) → (v : Bits n false) → v.Clean → (64 < n → v.bv.toNat < 2 ^ 96 ∧ y.bv.toNat < 2 ^ 32) →
    ∃ l, y.digitsLoop K v = .ok l ∧ l.length = K ∧
      ∀ k, k < K → (l.map (·.bv.toNat))[k]? = some (v.bv.toNat / y.bv.toNat ^ k % y.bv.toNat)
  | 0, v, _, _ => ⟨[], rfl, rfl, fun k hk => by omega⟩
  | K + 1, v, hv, hw => by
    obtain ⟨d, q, hd, hq, cd, cq, ed, eq⟩ := Bits.digit_step hn hN v y hv hy h2 hw
    obtain ⟨l, hl, ll, el⟩ := C183_digits_partial hn hN y hy h2 K q cq (fun h => ⟨by
      have := (hw h).1
      rw [eq]
      exact lt_of_le_of_lt (Nat.div_le_self _ _) this, (hw h).2⟩)
    refine ⟨d :: l, ?_, by simp [ll], fun k hk => ?_⟩
    · rw [Bits.digitsLoop, hd, res_bind_ok, hq, res_bind_ok, hl, res_map_ok]
    · cases k with
      | zero => simp [ed]
      | succ k =>
        rw [List.map_cons, List.getElem?_cons_succ, el k (by omega), eq, Nat.div_div_eq_div_mul, pow_succ, Nat.mul_comm]

/-- **C183, the loop that stops at 0**, up to 64 bits: it ends, and its digits are those of the number, the
lowest first and without leading zeros; Horner's rule over them gives the number back, without fault. -/
theorem C183_round_trip (h : n ≤ 64) (h1 : 1 < n) (y : Bits n false) (hy : y.Clean) (h2 : 2 ≤ y.bv.toNat) :
    (fuel : Nat) → (v : Bits n false) → v.Clean → v.bv.toNat < fuel →
    ∃ l, y.digitsWhile fuel v = .ok l ∧ l.map (·.bv.toNat) = Nat.digits y.bv.toNat v.bv.toNat ∧
      ∃ r, y.horner l = .ok r ∧ r.Clean ∧ r.bv = v.bv
  | 0, v, _, hf => by omega
  | fuel + 1, v, hv, hf => by
    by_cases h0 : v.bv = 0
    · refine ⟨[], ?_, by rw [h0]; simp, Bits.zero, rfl, Bits.clean_zero, by rw [h0, Bits.bv_zero]⟩
      rw [Bits.digitsWhile, Lg.anySet_of_eq hv h0]; rfl
    · have hpos : v.bv.toNat ≠ 0 := fun c => h0 (BitVec.eq_of_toNat_eq (by simpa using c))
      obtain ⟨d, q, hd, hq, cd, cq, ed, eq⟩ := Bits.digit_step (by omega) (by omega) v y hv hy h2 (fun c => by omega)
      have hlt : v.bv.toNat / y.bv.toNat < v.bv.toNat := Nat.div_lt_self (by omega) (by omega)
      obtain ⟨l, hl, el, r, hr, cr, er⟩ := C183_round_trip h h1 y hy h2 fuel q cq (by omega)
      refine ⟨d :: l, ?_, ?_, ?_⟩
      · rw [Bits.digitsWhile, Lg.anySet_of_ne hv h0 (fun c => by omega), if_pos rfl, hd, res_bind_ok, hq, res_bind_ok,
          hl, res_map_ok]
      · rw [List.map_cons, el, ed, eq, ← Nat.digits_def' (by omega) (Nat.pos_of_ne_zero hpos)]
      · have hdm := Nat.div_add_mod v.bv.toNat y.bv.toNat
        have hvl := v.bv.isLt
        have hp : q.bv.toNat * y.bv.toNat ≤ v.bv.toNat := by rw [eq]; exact Nat.div_mul_le_self _ _
        have hrn : r.bv.toNat = q.bv.toNat := by rw [er]
        have hp16 : n ≤ 16 → v.bv.toNat < 2 ^ 16 := fun h16 =>
          lt_of_lt_of_le hvl (Nat.pow_le_pow_right (by decide) h16)
        obtain ⟨p, hpm, ep⟩ := C30_mul_partial (by omega) r y
          (fun _ _ _ h16 => ⟨cr, hy, by have := hp16 h16; rw [hrn]; omega⟩) (fun h => by cases h) (fun h64 => by omega)
        have epn : p.bv.toNat = q.bv.toNat * y.bv.toNat := by
          rw [ep, BitVec.toNat_mul, hrn, Nat.mod_eq_of_lt (by omega)]
        have cp : p.Clean := by
          rw [Bits.clean_sto, Bits.sto_mul h h1 hpm, Bits.sto_clean cr, Bits.sto_clean hy, hrn]
          exact lt_of_le_of_lt (Nat.mod_le _ _) (by omega)
        obtain ⟨z, hz, cz⟩ := C16_add_iff h1 p d cp cd
        obtain ⟨z', hz', ez⟩ := C28_add_partial h1 p d (by simp)
        rw [hz] at hz'
        obtain rfl := Except.ok.inj hz'
        have es : p.bv.toNat + d.bv.toNat = v.bv.toNat := by rw [epn, ed, eq, Nat.mul_comm]; exact hdm
        refine ⟨z, ?_, cz.2 (Or.inr (by omega)), ?_⟩
        · rw [Bits.horner, hr, res_bind_ok, hpm, res_bind_ok, hz]
        · apply BitVec.eq_of_toNat_eq
          rw [ez, BitVec.toNat_add, es, Nat.mod_eq_of_lt hvl]

/-- **C183 is false above 96 bits**: `2^96` has only digits 0, in every base from 2 to `2^32`. -/
theorem C183_refuted (h : 96 < n) (hN : n ≤ 2 ^ 32) (y : Bits n false) (hy : y.Clean) (h2 : 2 ≤ y.bv.toNat)
    (h32 : y.bv.toNat < 2 ^ 32) :
    ∃ v : Bits n false, v.Clean ∧ v.bv.toNat = 2 ^ 96 ∧
      ∀ K, ∃ l, y.digitsLoop K v = .ok l ∧ ∀ d ∈ l, d.bv = 0 := by
  have zero : ∀ K (v : Bits n false), v.Clean → v.bv = 0 → ∃ l, y.digitsLoop K v = .ok l ∧ ∀ d ∈ l, d.bv = 0 := by
    intro K
    induction K with
    | zero => exact fun v _ _ => ⟨[], rfl, by simp⟩
    | succ K ih =>
      intro v hv h0
      obtain ⟨d, q, hd, hq, cd, cq, ed, eq⟩ := Bits.digit_step (by omega) hN v y hv hy h2
        (fun _ => ⟨by rw [h0]; simp, h32⟩)
      obtain ⟨l, hl, el⟩ := ih q cq (BitVec.eq_of_toNat_eq (by rw [eq, h0]; simp))
      refine ⟨d :: l, by rw [Bits.digitsLoop, hd, res_bind_ok, hq, res_bind_ok, hl, res_map_ok], fun c hc => ?_⟩
      rcases List.mem_cons.1 hc with rfl | hc
      · exact BitVec.eq_of_toNat_eq (by rw [ed, h0]; simp)
      · exact el c hc
  obtain ⟨v, cv, ev⟩ := Bits.exists_clean (s := false) (BitVec.ofNat n (2 ^ 96))
  have nv : v.bv.toNat = 2 ^ 96 := by
    rw [ev, BitVec.toNat_ofNat, Nat.mod_eq_of_lt (Nat.pow_lt_pow_right (by decide) h)]
  refine ⟨v, cv, nv, fun K => ?_⟩
  cases K with
  | zero => exact ⟨[], rfl, by simp⟩
  | succ K =>
    obtain ⟨q, d, hq, hd, cq, cd, -, e⟩ := C31_wide_exact (by omega) hN v y cv hy
    have ylt : ∀ j, y.bv.getLsbD j = true → j < 32 := fun j hj => by
      by_contra c
      have := Nat.testBit_lt_two_pow (lt_of_lt_of_le h32 (Nat.pow_le_pow_right (by decide) (show 32 ≤ j by omega)))
      rw [BitVec.getLsbD, this] at hj; cases hj
    have ylow : AnyLow y.bv := by
      obtain ⟨j, hj⟩ : ∃ j, y.bv.getLsbD j = true := by
        by_contra hc
        push Not at hc
        have : y.bv = 0 := BitVec.eq_of_getLsbD_eq (fun i _ => by have := hc i; simpa using this)
        rw [this] at h2; simp at h2
      exact ⟨j, by have := ylt j hj; omega, hj⟩
    obtain ⟨e1, e2⟩ := ((e ylow).2 (fun c => by
      have := c.1
      rw [Nat.mod_eq_of_lt (by omega)] at this; omega)).1 ⟨by omega, fun p hp hm => by
        rw [BitVec.getLsbD, nv, Nat.testBit_two_pow]
        simp only [decide_eq_false_iff_not]; omega, fun p hp hm => by
        by_contra c
        have := ylt p (by simpa using c)
        omega⟩
    rw [nv] at e1 e2
    norm_num at e1 e2
    obtain ⟨l, hl, el⟩ := zero K q cq (BitVec.eq_of_toNat_eq (by simpa using e1))
    refine ⟨d :: l, by rw [Bits.digitsLoop, hd, res_bind_ok, hq, res_bind_ok, hl, res_map_ok], fun c hc => ?_⟩
    rcases List.mem_cons.1 hc with rfl | hc
    · exact BitVec.eq_of_toNat_eq (by simpa using e2)
    · exact el c hc

-- 4095 in base 10 and in base 16
example : ((Bits.ofInt 10 : Bits 12 false).digitsWhile 4096 (Bits.ofInt 4095 : Bits 12 false)).map (·.map (·.bv.toNat)) =
    .ok [5, 9, 0, 4] := by decide +kernel
example : ((Bits.ofInt 16 : Bits 70 false).digitsLoop 4 (Bits.ofInt 4095 : Bits 70 false)).map (·.map (·.bv.toNat)) =
    .ok [15, 15, 15, 0] := by decide +kernel

end Verif
