import Verif.Props.ExactMore
import Verif.Props.WideDivSign
import Verif.Lemmas.OfBV

/-!
# Exact outcomes of products and quotients of `big_num`s of different sizes (C110)
-/

namespace Verif

variable {n m : Nat} {s t : Bool}

/-- a canonical `big_num` extended to `k` bits is canonical, and a signed one is continued with ones -/
theorem Big.extend_cont {k u : Nat} {b : Bool} (w : Big k b) (c : BitVec u) (hku : k ≤ u) (hw : w.Clean)
    (hc : ∀ i, i < u → c.getLsbD i = if i < k then w.bv.getLsbD i else b) :
    (w.extend u).Clean ∧ (w.extend u).bv = c := by
  have hc0 := hw
  rw [Big.clean_iff] at hw
  cases b with
  | false =>
    refine ⟨Big.clean_extend_ok hku (by simp) hc0, ?_⟩
    apply BitVec.eq_of_getLsbD_eq
    intro i hi
    rw [Big.bv_extend_ok hku (by simp) hc0, hc i hi, BitVec.getLsbD_setWidth, decide_eq_true hi, Bool.true_and]
    split_ifs with h
    · rfl
    · exact BitVec.getLsbD_of_ge _ _ (by omega)
  | true =>
    refine ⟨?_, ?_⟩
    · rw [Big.clean_iff]
      intro i hi
      rw [Big.raw_extend_signed w hku, if_neg (by omega), hw i (by omega)]
    · apply BitVec.eq_of_getLsbD_eq
      intro i hi
      rw [Big.getLsbD_bv, Big.get_eq, Big.raw_extend_signed w hku, hc i hi, Big.getLsbD_bv, hc0.get]
      by_cases hik : i < k
      · rw [if_neg (by omega), if_pos hik, decide_eq_true hi, Bool.true_and]
      · rw [if_pos (by omega), if_neg hik, decide_eq_true hi, Bool.true_and]

/-- **C110, products, exact.** Of canonical operands of any two sizes and signs, the narrower of which is continued with ones
if it is signed: if both pass `fit_in_64()` the product of the low words; else an out-of-bounds write if two set bits lie so
high that their limbs do not fit the result, and the product otherwise. -/
theorem C110_mul_exact (h : 64 < max n m) (x : Big n s) (y : Big m t) (hx : x.Clean) (hy : y.Clean)
    (a b : BitVec (max n m))
    (ha : ∀ i, i < max n m → a.getLsbD i = if i < n then x.bv.getLsbD i else s)
    (hb : ∀ i, i < max n m → b.getLsbD i = if i < m then y.bv.getLsbD i else t) :
    (LowOnly a ∧ LowOnly b → ∃ z, x.mulM y = .ok z ∧
      z.bv.toNat = (a.toNat % 2 ^ 64) * (b.toNat % 2 ^ 64) % 2 ^ max n m) ∧
    (¬ (LowOnly a ∧ LowOnly b) →
      ((∃ i j, a.getLsbD i = true ∧ b.getLsbD j = true ∧ max n m ≤ 64 * (i / 64 + j / 64 + 1)) →
        x.mulM y = .error .oob) ∧
      (¬ (∃ i j, a.getLsbD i = true ∧ b.getLsbD j = true ∧ max n m ≤ 64 * (i / 64 + j / 64 + 1)) →
        ∃ z, x.mulM y = .ok z ∧ z.bv = a * b)) := by
  have h' : ¬ max n m ≤ 64 := by omega
  obtain ⟨cx, ex⟩ := Big.extend_cont x a (by omega) hx ha
  obtain ⟨cy, ey⟩ := Big.extend_cont y b (by omega) hy hb
  have key := C30_wide_exact h (.big h' (x.extend (max n m)) : Bits _ s) (.big h' (y.extend (max n m)) : Bits _ t)
    ((Bits.clean_big h' _).2 cx) ((Bits.clean_big h' _).2 cy)
  rw [show (Bits.big h' (x.extend (max n m)) : Bits _ s).bv = a from ex,
    show (Bits.big h' (y.extend (max n m)) : Bits _ t).bv = b from ey] at key
  have em : (Bits.big h' (x.extend (max n m)) : Bits _ s).mul (.big h' (y.extend (max n m)) : Bits _ t) =
      (x.mulM y).map (Bits.big h') := by rw [Bits.mul, dif_neg h']; rfl
  rw [em] at key
  have un : ∀ P : Bits (max n m) (s && t) → Prop, (∃ z, (x.mulM y).map (Bits.big h') = .ok z ∧ P z) →
      ∃ z, x.mulM y = .ok z ∧ P (.big h' z) := by
    rintro P ⟨z, hz, hp⟩
    cases hr : x.mulM y with
    | error e => rw [hr] at hz; cases hz
    | ok w => rw [hr] at hz; cases hz; exact ⟨w, rfl, hp⟩
  refine ⟨fun hl => un _ (key.1 hl), fun hl => ⟨fun ho => ?_, fun ho => un _ ((key.2 hl).2 ho)⟩⟩
  have := (key.2 hl).1 ho
  cases hr : x.mulM y with
  | error e => rw [hr] at this; cases this; rfl
  | ok w => rw [hr] at this; cases this

/-- **C110, quotient and remainder, exact.** Of canonical operands of any two sizes; a narrower signed divisor is continued with ones
and then read without sign. -/
theorem C110_div_exact (h : 64 < max n m) (hN : max n m ≤ 2 ^ 32) (x : Big n false) (y : Big m t) (hx : x.Clean) (hy : y.Clean)
    (D : BitVec (max n m)) (hD : ∀ i, i < max n m → D.getLsbD i = if i < m then y.bv.getLsbD i else t) :
    ∃ q r, x.divM y = .ok q ∧ x.modM y = .ok r ∧ q.Clean ∧ r.Clean ∧
      (¬ AnyLow D → q.bv = 0 ∧ r.bv = 0) ∧
      (AnyLow D →
        (D.toNat % 2 ^ 64 = 1 ∧ LowOnly D → q.bv.toNat = x.bv.toNat ∧ r.bv = 0) ∧
        (¬ (D.toNat % 2 ^ 64 = 1 ∧ LowOnly D) →
          (D.toNat < x.bv.toNat ∧ LowOnly x.bv ∧ LowOnly D →
            q.bv.toNat = (x.bv.toNat % 2 ^ 64) / (D.toNat % 2 ^ 64) ∧ r.bv.toNat = (x.bv.toNat % 2 ^ 64) % (D.toNat % 2 ^ 64)) ∧
          (¬ (D.toNat < x.bv.toNat ∧ LowOnly x.bv ∧ LowOnly D) →
            q.bv.toNat = x.bv.toNat / D.toNat ∧ r.bv.toNat = x.bv.toNat % D.toNat))) := by
  have h' : ¬ max n m ≤ 64 := by omega
  have ha : ∀ i, i < max n m → (x.bv.setWidth (max n m)).getLsbD i = if i < n then x.bv.getLsbD i else false := fun i hi => by
    rw [BitVec.getLsbD_setWidth, decide_eq_true hi, Bool.true_and]
    split_ifs with h
    · rfl
    · exact BitVec.getLsbD_of_ge _ _ (by omega)
  obtain ⟨cx, ex⟩ := Big.extend_cont x _ (by omega) hx ha
  obtain ⟨cy, ey⟩ := Big.extend_cont y D (by omega) hy hD
  have tx : (x.bv.setWidth (max n m)).toNat = x.bv.toNat := BitVec.toNat_setWidth_of_le (by omega)
  have lx : LowOnly (x.bv.setWidth (max n m)) ↔ LowOnly x.bv := by
    simp only [LowOnly]
    refine forall_congr' fun p => forall_congr' fun _ => forall_congr' fun _ => ?_
    rw [BitVec.getLsbD_setWidth]
    by_cases hp : p < max n m
    · rw [decide_eq_true hp, Bool.true_and]
    · rw [decide_eq_false hp, BitVec.getLsbD_of_ge x.bv p (by omega)]; simp
  obtain ⟨q, r, hq, hr, cq, cr, k0, k1⟩ := C31_wide_exact h hN (.big h' (x.extend (max n m)) : Bits _ false)
    (.big h' ((y.extend (max n m)).toSign false) : Bits _ false) ((Bits.clean_big h' _).2 cx) ((Bits.clean_big h' _).2 cy)
  have eX : (Bits.big h' (x.extend (max n m)) : Bits _ false).bv = x.bv.setWidth (max n m) := ex
  have eD : (Bits.big h' ((y.extend (max n m)).toSign false) : Bits _ false).bv = D := ey
  rw [eD] at k0 k1
  rw [eX] at k1
  have ed : (Bits.big h' (x.extend (max n m)) : Bits _ false).div (.big h' ((y.extend (max n m)).toSign false) : Bits _ false) =
      (x.divM y).map (Bits.big h') := by rw [Bits.div, dif_neg h']; rfl
  have er : (Bits.big h' (x.extend (max n m)) : Bits _ false).mod (.big h' ((y.extend (max n m)).toSign false) : Bits _ false) =
      (x.modM y).map (Bits.big h') := by rw [Bits.mod, dif_neg h']; rfl
  rw [ed] at hq
  rw [er] at hr
  cases hq' : x.divM y with
  | error e => rw [hq'] at hq; cases hq
  | ok q' =>
    cases hr' : x.modM y with
    | error e => rw [hr'] at hr; cases hr
    | ok r' =>
      rw [hq'] at hq; rw [hr'] at hr
      cases hq; cases hr
      refine ⟨q', r', rfl, rfl, (Bits.clean_big h' _).1 cq, (Bits.clean_big h' _).1 cr, k0, fun hl => ?_⟩
      obtain ⟨j1, j2⟩ := k1 hl
      rw [tx, lx] at j2
      refine ⟨fun hD => ?_, fun hD => ⟨(j2 hD).1, fun hn => ?_⟩⟩
      · obtain ⟨a, b⟩ := j1 hD
        exact ⟨(congrArg BitVec.toNat a).trans tx, b⟩
      · obtain ⟨a, b⟩ := (j2 hD).2 hn
        refine ⟨(congrArg BitVec.toNat a).trans ?_, (congrArg BitVec.toNat b).trans ?_⟩
        · rw [BitVec.toNat_udiv, tx]
        · rw [BitVec.toNat_umod, tx]

/-- **C110 is false for quotients by a narrower signed divisor**, whenever a visible bit above the first word is filled with a one: `x / 1`
is 0 with remainder `x` for `x < 2^m`. -/
theorem C110_div_signed (h : 64 < n) (hN : n ≤ 2 ^ 32) (h0 : 0 < m) (p : Nat) (hp : 64 ≤ p) (hmp : m ≤ p) (hpn : p < n) (hp' : p % 64 < 32)
    (x : Big n false) (hx : x.Clean) (hlt : x.bv.toNat < 2 ^ m) (y : Big m true) (hy : y.Clean) (e1 : y.bv.toNat = 1) :
    ∃ q r, x.divM y = .ok q ∧ x.modM y = .ok r ∧ q.bv.toNat = 0 ∧ r.bv.toNat = x.bv.toNat := by
  have hmx : max n m = n := by omega
  obtain ⟨D, hD⟩ := exists_bv (fun i => if i < m then y.bv.getLsbD i else true) (max n m)
  obtain ⟨q, r, hq, hr, -, -, -, k1⟩ := C110_div_exact (by omega) (by omega) x y hx hy D hD
  have b0 : D.getLsbD 0 = true := by
    rw [hD 0 (by omega), if_pos h0]
    simp [BitVec.getLsbD, e1]
  have bp : D.getLsbD p = true := by rw [hD p (by omega), if_neg (by omega)]
  have nl : ¬ LowOnly D := fun hl => by rw [hl p hp hp'] at bp; cases bp
  have big : 2 ^ m ≤ D.toNat := by
    have : 2 ^ p ≤ D.toNat := Nat.ge_two_pow_of_testBit bp
    exact le_trans (Nat.pow_le_pow_right (by omega) hmp) this
  obtain ⟨a, b⟩ := ((k1 ⟨0, by omega, b0⟩).2 (fun c => nl c.2)).2 (fun c => nl c.2.2)
  exact ⟨q, r, hq, hr, by rw [a, Nat.div_eq_of_lt (by omega)], by rw [b, Nat.mod_eq_of_lt (by omega)]⟩

-- 100 / 7 with a 70-bit signed and a 130-bit unsigned divisor; 2^40 * 2^80
private def x130 : Big 130 false := ⟨[100, 0, 0], rfl⟩
private def y70 : Big 70 true := ⟨[7, 0], rfl⟩
private def u70 : Big 70 false := ⟨[7, 0], rfl⟩
example : x130.Clean ∧ y70.Clean ∧ u70.Clean ∧ (x130.divM y70).map (·.vals) = .ok [0, 0, 0] ∧
    (x130.modM y70).map (·.vals) = .ok [100, 0, 0] ∧ (x130.divM u70).map (·.vals) = .ok [14, 0, 0] ∧
    (x130.modM u70).map (·.vals) = .ok [2, 0, 0] ∧ (x130.mulM u70).map (·.vals) = .ok [700, 0, 0] ∧
    (x130.mulM y70).map (·.vals) = .error .oob := by
  decide +kernel

end Verif
