import Verif.Props.FieldMul
import Verif.Lemmas.Arith
import Mathlib.FieldTheory.Finite.Basic
import Mathlib.Algebra.Polynomial.SpecificDegree
import Mathlib.LinearAlgebra.FreeModule.Finite.CardQuotient

/-!
# A program: inverses in fields of characteristic two (C229)

`r = 1; for (i = 1; i < n; i++) { r = r * a; r = r * r; }` with the product of C228: the power `2^n - 2`, which is the inverse of `a` if `X^n + p` is irreducible
(the S-box of AES, the decoder of a Reed-Solomon code).
-/

namespace Verif

variable {n m : Nat}

/-- the loop -/
def Bits.ginv (a p : Bits n false) (one : Bits m false) : Res (Bits n false) :=
  loopM 1 n (Bits.oneN n) fun _ r => (r.gmul p a one).bind fun t => t.gmul p t one

open Polynomial

/-- `X^n + p` -/
noncomputable def modPoly (p : BitVec n) : (ZMod 2)[X] := X ^ n + polyOf p

theorem modPoly_monic (p : BitVec n) : (modPoly p).Monic := monic_X_pow_add (polyOf_degree _)

theorem modPoly_degree (p : BitVec n) : (modPoly p).degree = n := by
  rw [modPoly, degree_add_eq_left_of_degree_lt (by rw [degree_X_pow]; exact polyOf_degree _), degree_X_pow]

theorem polyAt_root (p : BitVec n) {l : Nat} (v : BitVec l) : polyAt (AdjoinRoot.root (modPoly p)) v = AdjoinRoot.mk (modPoly p) (polyOf v) := by
  rw [polyOf, polyAt, polyAt, map_sum]
  refine Finset.sum_congr rfl fun i _ => ?_
  cases v.getLsbD i
  · simp
  · simp [AdjoinRoot.mk_X]

theorem root_two (p : BitVec n) (c : AdjoinRoot (modPoly p)) : c + c = 0 := by
  rw [← two_smul (ZMod 2) c, show (2 : ZMod 2) = 0 from rfl, zero_smul]

theorem root_pow (p : BitVec n) : AdjoinRoot.root (modPoly p) ^ n = polyAt (AdjoinRoot.root (modPoly p)) p := by
  have h0 : AdjoinRoot.mk (modPoly p) (X ^ n + polyOf p) = 0 := AdjoinRoot.mk_self
  rw [polyAt_root]
  rw [map_add, map_pow, AdjoinRoot.mk_X] at h0
  rw [← add_zero (AdjoinRoot.root _ ^ n), ← root_two p (AdjoinRoot.mk _ (polyOf p)), ← add_assoc, h0, zero_add]

theorem polyAt_root_inj (p : BitVec n) {v w : BitVec n} (h : polyAt (AdjoinRoot.root (modPoly p)) v = polyAt (AdjoinRoot.root (modPoly p)) w) :
    v = w := by
  rw [polyAt_root, polyAt_root, AdjoinRoot.mk_eq_mk] at h
  apply polyOf_inj
  have := (modByMonic_eq_zero_iff_dvd (modPoly_monic p)).2 h
  rw [sub_modByMonic, (modByMonic_eq_self_iff (modPoly_monic p)).2 (by rw [modPoly_degree]; exact polyOf_degree _),
    (modByMonic_eq_self_iff (modPoly_monic p)).2 (by rw [modPoly_degree]; exact polyOf_degree _)] at this
  exact sub_eq_zero.1 this

theorem polyAt_one {R : Type*} [CommRing R] (hn : 0 < n) (α : R) : polyAt α (1 : BitVec n) = 1 := by
  rw [polyAt, Finset.sum_eq_single 0]
  · show (if (1#n).getLsbD 0 = true then _ else _) = _
    rw [BitVec.getLsbD_one]; simp; omega
  · intro i _ hi
    show (if (1#n).getLsbD i = true then _ else _) = _
    rw [BitVec.getLsbD_one]; simp [hi]
  · intro h; exact absurd (Finset.mem_range.2 hn) h

/-- **C229, the power.** For every polynomial and every object the loop is undefined nowhere and gives the power `2^n - 2`. -/
theorem C229_power {R : Type*} [CommRing R] (h2 : ∀ c : R, c + c = 0) (h1 : 1 < n) (hN : n ≤ 2 ^ 32) (hm : m ≤ 64) (a p : Bits n false) (one : Bits m false)
    (ho : one.Clean) (eo : one.bv.toNat = 1) (α : R) (hα : α ^ n = polyAt α p.bv) :
    ∃ z, a.ginv p one = .ok z ∧ polyAt α z.bv = polyAt α a.bv ^ (2 ^ n - 2) := by
  have P := fun (a b : Bits n false) => C228_product h2 h1 hN (by omega) hN hm a p b one ho eo α hα
  have e1 : polyAt α (Bits.oneN n).bv = 1 := by
    rw [(Bits.oneN_spec (n := n) (by omega)).2, polyAt_one (by omega)]
  obtain ⟨z, hz, e⟩ := loopM_induct 1 n (Bits.oneN n) (fun _ r => (r.gmul p a one).bind fun t => t.gmul p t one)
    (fun i r => polyAt α r.bv = polyAt α a.bv ^ (2 ^ i - 2)) (by omega) (by rw [e1]; simp)
    (fun i r hi _ hr => by
      obtain ⟨t, ht, et⟩ := P r a
      obtain ⟨z, hz, ez⟩ := P t t
      refine ⟨z, by rw [ht, res_bind_ok, hz], ?_⟩
      have : 2 ≤ 2 ^ i := by
        calc 2 = 2 ^ 1 := rfl
          _ ≤ 2 ^ i := Nat.pow_le_pow_right (by decide) hi
      rw [ez, et, hr, ← pow_succ, ← pow_add]
      congr 1
      rw [pow_succ]; omega)
  exact ⟨z, hz, e⟩

/-- **C229, the inverse.** If `X^n + p` is irreducible the product of a vector other than 0 with the result is 1. -/
theorem C229_inverse (h1 : 1 < n) (hN : n ≤ 2 ^ 32) (hm : m ≤ 64) (a p : Bits n false) (one : Bits m false) (ho : one.Clean)
    (eo : one.bv.toNat = 1) (hp : Irreducible (X ^ n + polyOf p.bv)) (ha : a.bv ≠ 0) :
    ∃ z w, a.ginv p one = .ok z ∧ a.gmul p z one = .ok w ∧ w.bv = 1 := by
  have : Fact (Irreducible (modPoly p.bv)) := ⟨hp⟩
  obtain ⟨z, hz, ez⟩ := C229_power (root_two p.bv) h1 hN hm a p one ho eo _ (root_pow p.bv)
  obtain ⟨w, hw, ew⟩ := C228_product (root_two p.bv) h1 hN (by omega) hN hm a p z one ho eo _ (root_pow p.bv)
  refine ⟨z, w, hz, hw, polyAt_root_inj p.bv ?_⟩
  let pb := AdjoinRoot.powerBasis' (modPoly_monic p.bv)
  have : Module.Finite (ZMod 2) (AdjoinRoot (modPoly p.bv)) := pb.finite
  have : Finite (AdjoinRoot (modPoly p.bv)) := Module.finite_of_finite (ZMod 2)
  have : Fintype (AdjoinRoot (modPoly p.bv)) := Fintype.ofFinite _
  have hc : Fintype.card (AdjoinRoot (modPoly p.bv)) = 2 ^ n := by
    rw [Module.card_eq_pow_finrank (K := ZMod 2), ZMod.card, pb.finrank]
    congr 1
    show (modPoly p.bv).natDegree = n
    exact natDegree_eq_of_degree_eq_some (modPoly_degree p.bv)
  have h0 : polyAt (AdjoinRoot.root (modPoly p.bv)) a.bv ≠ 0 := by
    intro h
    refine ha (polyAt_root_inj p.bv (h.trans ?_))
    rw [polyAt]; simp
  have hf := FiniteField.pow_card_sub_one_eq_one _ h0
  rw [hc] at hf
  have : 2 ≤ 2 ^ n := by
    calc 2 = 2 ^ 1 := rfl
      _ ≤ 2 ^ n := Nat.pow_le_pow_right (by decide) (by omega)
  rw [ew, ez, ← pow_succ', show 2 ^ n - 2 + 1 = 2 ^ n - 1 by omega, hf, polyAt_one (by omega)]

/-- X^3 + X + 1 is irreducible -/
example : Irreducible (X ^ 3 + polyOf (3#3)) := by
  have hd : (modPoly (3#3)).natDegree = 3 := natDegree_eq_of_degree_eq_some (modPoly_degree _)
  refine irreducible_of_degree_le_three_of_not_isRoot (p := modPoly (3#3)) (by rw [hd]; decide) fun x h => ?_
  rw [IsRoot, modPoly, polyOf, polyAt] at h
  simp only [Finset.sum_range_succ, Finset.sum_range_zero] at h
  revert h
  revert x
  simp
  decide

/-- 53 and ca are inverse in the field of AES -/
example : ((Bits.ofInt 0x53 : Bits 8 false).ginv (Bits.ofInt 0x1b) (Bits.ofInt 1 : Bits 32 false)).map (·.bv.toNat) = .ok 0xca := by decide +kernel

end Verif
