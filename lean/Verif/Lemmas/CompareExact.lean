import Verif.Props.Compare
import Verif.Props.Extend

/-! Equality of operands of different widths: the exact answers. -/

namespace Verif

variable {n m : Nat} {s t : Bool}

/-- what the limb comparison tests on operands of different widths: all bits of the
chunks that both have, and of the chunks that only one has the lower halves, which must
be zero -/
def LimbEq (a : BitVec n) (b : BitVec m) : Prop :=
  (∀ p, p < 64 * min ((n + 63) / 64) ((m + 63) / 64) → a.getLsbD p = b.getLsbD p) ∧
  ∀ p, 64 * min ((n + 63) / 64) ((m + 63) / 64) ≤ p → p % 64 < 32 →
    a.getLsbD p = false ∧ b.getLsbD p = false

theorem limbs_eq (n : Nat) : limbs n = (n + 63) / 64 := by
  unfold limbs; split <;> omega

theorem LimbEq.symm {a : BitVec n} {b : BitVec m} (h : LimbEq a b) : LimbEq b a := by
  rw [LimbEq, Nat.min_comm]
  exact ⟨fun p hp => (h.1 p hp).symm, fun p hp hl => (h.2 p hp hl).symm⟩

namespace Big

theorem eq_limb_iff (hst : (s && t) = false) (x : Big n s) (y : Big m t) :
    x.eq y = true ↔ (∀ i, i < min (limbs n) (limbs m) → x.limb i = y.limb i) ∧
      ∀ i, min (limbs n) (limbs m) ≤ i → ∀ j, j < 32 →
        (x.limb i).getLsbD j = false ∧ (y.limb i).getLsbD j = false := by
  rw [eq, if_neg (by simp [hst])]
  have zx : ∀ i, limbs n ≤ i → ∀ j, (x.limb i).getLsbD j = false := by
    intro i hi j; rw [x.limb_of_ge hi]; simp
  have zy : ∀ i, limbs m ≤ i → ∀ j, (y.limb i).getLsbD j = false := by
    intro i hi j; rw [y.limb_of_ge hi]; simp
  have pq : ∀ k, eqUpTo k x y = true ↔ ∀ i, i < k → x.limb i = y.limb i := by
    intro k; rw [eqUpTo_spec, decide_eq_true_iff, pre_eq_iff]
  by_cases hl : limbs n ≥ limbs m
  · rw [if_pos hl, Nat.min_eq_right hl]
    by_cases he : limbs n = limbs m
    · rw [if_pos he]
      rw [← pq]
      constructor
      · intro h
        refine ⟨by split_ifs at h with h1; exact h1, fun i hi j _ => ⟨zx i (by omega) j, zy i hi j⟩⟩
      · rintro ⟨h, -⟩; rw [if_pos h]
    · rw [if_neg he, ← pq]
      constructor
      · intro h
        split_ifs at h with h1
        exact ⟨h1, fun i hi j hj => ⟨(x.reduceOr_drop _).1 h i hi j hj, zy i hi j⟩⟩
      · rintro ⟨h1, h2⟩
        rw [if_pos h1]
        exact (x.reduceOr_drop _).2 fun i hi j hj => (h2 i hi j hj).1
  · rw [if_neg hl, Nat.min_eq_left (by omega), ← pq]
    constructor
    · intro h
      split_ifs at h with h1
      exact ⟨h1, fun i hi j hj => ⟨zx i hi j, (y.reduceOr_drop _).1 h i hi j hj⟩⟩
    · rintro ⟨h1, h2⟩
      rw [if_pos h1]
      exact (y.reduceOr_drop _).2 fun i hi j hj => (h2 i hi j hj).2

theorem eq_limbEq (hst : (s && t) = false) {x : Big n s} {y : Big m t} (hx : x.Clean) (hy : y.Clean) :
    x.eq y = true ↔ LimbEq x.bv y.bv := by
  rw [eq_limb_iff hst, LimbEq, ← limbs_eq, ← limbs_eq]
  have gx : ∀ p, (x.limb (p / 64)).getLsbD (p % 64) = x.bv.getLsbD p := by
    intro p; rw [Bits.limb_get hx _ _ (Nat.mod_lt _ (by decide)), Nat.div_add_mod]
  have gy : ∀ p, (y.limb (p / 64)).getLsbD (p % 64) = y.bv.getLsbD p := by
    intro p; rw [Bits.limb_get hy _ _ (Nat.mod_lt _ (by decide)), Nat.div_add_mod]
  constructor
  · rintro ⟨h1, h2⟩
    refine ⟨fun p hp => ?_, fun p hp hl => ?_⟩
    · rw [← gx, ← gy, h1 (p / 64) (by omega)]
    · rw [← gx, ← gy]; exact h2 (p / 64) (by omega) _ hl
  · rintro ⟨h1, h2⟩
    refine ⟨fun i hi => ?_, fun i hi j hj => ?_⟩
    · apply BitVec.eq_of_getLsbD_eq
      intro j hj
      rw [Bits.limb_get hx _ _ hj, Bits.limb_get hy _ _ hj, h1 _ (by omega)]
    · rw [Bits.limb_get hx _ _ (by omega), Bits.limb_get hy _ _ (by omega)]
      exact h2 _ (by omega) (by omega)

end Big

namespace Bits

theorem eq_limbEq (hn : ¬ n ≤ 64) (hm : ¬ m ≤ 64) (hst : (s && t) = false) {x : Bits n s} {y : Bits m t}
    (hx : x.Clean) (hy : y.Clean) : x.eq y = true ↔ LimbEq x.bv y.bv := by
  rw [clean_big hn] at hx
  rw [clean_big hm] at hy
  rw [eq, dif_neg hn, dif_neg hm, Big.eq_limbEq hst hx hy, bv_big hn, bv_big hm]

theorem ge_wide_iff (hn : ¬ n ≤ 64) (hm : ¬ m ≤ 64) (hst : (s && t) = false) {x : Bits n s} {y : Bits m t}
    (hx : x.Clean) (hy : y.Clean) :
    ∃ b, x.ge y = .ok b ∧ (b = true ↔ y.bv.toNat < x.bv.toNat ∨ LimbEq x.bv y.bv) := by
  have h1 := (order_wide hn hm hst hx hy).1
  have h3 := eq_limbEq hn hm hst hx hy
  rw [gt, dif_neg hn, dif_neg hm] at h1
  rw [eq, dif_neg hn, dif_neg hm] at h3
  rw [ge, dif_neg hn, dif_neg hm, Big.ge, h1]
  by_cases hlt : y.bv.toNat < x.bv.toNat
  · simp [hlt]
  · simp only [hlt, decide_false, false_or]
    exact ⟨_, rfl, h3⟩

theorem le_wide_iff (hn : ¬ n ≤ 64) (hm : ¬ m ≤ 64) (hst : (s && t) = false) {x : Bits n s} {y : Bits m t}
    (hx : x.Clean) (hy : y.Clean) :
    ∃ b, x.le y = .ok b ∧ (b = true ↔ x.bv.toNat < y.bv.toNat ∨ LimbEq x.bv y.bv) := by
  obtain ⟨b, hb, e⟩ := ge_wide_iff hm hn (by rw [Bool.and_comm]; exact hst) hy hx
  rw [ge, dif_neg hm, dif_neg hn] at hb
  refine ⟨b, by rw [le, dif_neg hn, dif_neg hm, Big.le]; exact hb, ?_⟩
  rw [e]
  exact ⟨fun h => h.imp id LimbEq.symm, fun h => h.imp id LimbEq.symm⟩

/-- the extension of a signed wide value: the new bits are ones -/
theorem extend_wide_signed_toInt (hn : ¬ n ≤ 64) (h : n < m) (x : Bits n true) :
    (x.extend m).bv.toInt = (x.bv.toNat : Int) - 2 ^ n := by
  have hb := extend_wide_signed hn h x
  have e : (x.extend m).bv = ~~~ ((~~~ x.bv).setWidth m) := by
    apply BitVec.eq_of_getLsbD_eq
    intro i hi
    rw [hb i hi, BitVec.getLsbD_not, BitVec.getLsbD_setWidth, BitVec.getLsbD_not]
    by_cases hin : i < n <;> simp [hi, hin]
  have hl := x.bv.isLt
  have p : 2 ^ (n + 1) ≤ 2 ^ m := Nat.pow_le_pow_right (by decide) h
  have p' : 2 ^ (n + 1) = 2 * 2 ^ n := by rw [Nat.pow_succ]; omega
  have hN : (x.extend m).bv.toNat = 2 ^ m - 2 ^ n + x.bv.toNat := by
    rw [e, BitVec.toNat_not, BitVec.toNat_setWidth, BitVec.toNat_not, Nat.mod_eq_of_lt (by omega)]
    omega
  rw [BitVec.toInt_eq_toNat_cond, if_neg (by omega), hN]
  push_cast [Nat.cast_sub (show 2 ^ n ≤ 2 ^ m by omega)]
  ring

/-- two signed wide operands, the right one wider -/
theorem eq_signed_wide (hn : ¬ n ≤ 64) (h : n < m) {x : Bits n true} {y : Bits m true}
    (hx : x.Clean) (hy : y.Clean) :
    x.eq y = true ↔ y.bv.toInt = (x.bv.toNat : Int) - 2 ^ n := by
  have hm : ¬ m ≤ 64 := by omega
  rw [clean_big hn] at hx
  rw [clean_big hm] at hy
  have hxe : ((x.bg hn).extend m).Clean := by
    rw [Big.clean_iff] at hx ⊢
    intro i hi
    rw [Big.raw_extend_signed _ (by omega), if_neg (by omega)]
    exact hx i (by omega)
  have hbv : (x.extend m).bv = ((x.bg hn).extend m).bv := by
    rw [extend, dif_neg (by omega), dif_neg hm, dif_neg hn]; rfl
  rw [eq, dif_neg hn, dif_neg hm, Big.eq, if_pos (by decide), Big.eqUpTo_spec, decide_eq_true_iff,
    Big.pre_limbs, Big.pre_limbs, ← hxe.toNat_bv, ← hy.toNat_bv, BitVec.toNat_inj, ← hbv, ← bv_big hm,
    ← BitVec.toInt_inj, extend_wide_signed_toInt hn h, eq_comm]

/-- a signed wide and a signed native operand, in both orders -/
theorem eq_signed_wide_native (hn : ¬ n ≤ 64) (hm : m ≤ 64) {x : Bits n true} {y : Bits m true}
    (hx : x.Clean) (hy : y.Clean) :
    (x.eq y = true ↔ (x.bv.toNat : Int) = numOf true y.bv % 2 ^ 64) ∧ y.eq x = x.eq y := by
  have hc := (clean_native hm y).1 hy
  rw [clean_big hn] at hx
  have e : y.eq x = x.eq y := by
    rw [eq, eq, dif_pos hm, dif_neg hn, dif_neg hn, dif_pos hm]
  refine ⟨?_, e⟩
  rw [eq, dif_neg hn, dif_pos hm, Big.eqNum_spec (by omega), decide_eq_true_iff, hc, bv_big hn, hx.toNat_bv,
    BitVec.toNat_ofInt]
  omega

theorem eq_signed_native (hn : 1 < n) (h : n ≤ 64) (hm : m ≤ 64) {x : Bits n true} {y : Bits m true}
    (hx : x.Clean) (hy : y.Clean) :
    x.eq y = true ↔ x.bv.toInt = (numOf true y.bv).bmod (2 ^ hw n) := by
  rw [eq_native h hm, decide_eq_true_iff, (clean_native hm y).1 hy, (clean_signed_bounds h hn hx).1,
    holderTy_ge (by omega)]
  rfl

end Bits
end Verif
