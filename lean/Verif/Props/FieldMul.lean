import Verif.Props.Shift
import Verif.Props.Access
import Verif.Props.Bitwise
import Mathlib.Algebra.Field.ZMod
import Mathlib.RingTheory.AdjoinRoot
import Verif.Show

/-!
# A program: products in fields of characteristic two (C228)

`for (i = k; i-- > 0;) { c = r[n-1]; r = r << 1; if (c) r = r ^ p; if (b[i]) r = r ^ a; }` multiplies polynomials with coefficients 0 and 1 modulo
the polynomial `X^n + p`: the product of AES, of Reed-Solomon codes and of GHASH. `<<` leaves bits above the width, which nothing here reads.
-/

namespace Verif

variable {n k m : Nat} {s : Bool}

/-- `c = r[n-1]; r = r << one; if (c) r = r ^ p;` -/
def Bits.xtime (p r : Bits n false) (one : Bits m false) : Res (Bits n false) :=
  (r.get (Rng.down n) (n - 1 : Nat)).bind fun c => (r.shl one).bind fun (t : Bits n false) => .ok (if c then (t.xor p : Bits n false) else t)

/-- one round, for bit `i` of the multiplier -/
def Bits.gmulStep (a p : Bits n false) (b : Bits k s) (one : Bits m false) (i : Nat) (r : Bits n false) : Res (Bits n false) :=
  (p.xtime r one).bind fun t => (b.get (Rng.down k) i).bind fun c => .ok (if c then (t.xor a : Bits n false) else t)

/-- the loop, from the highest bit to the lowest -/
def Bits.gmul (a p : Bits n false) (b : Bits k s) (one : Bits m false) : Res (Bits n false) :=
  loopM 0 k Bits.zero fun i r => a.gmulStep p b one (k - 1 - i) r

variable {R : Type*} [CommRing R]

/-- the polynomial with the bits of `v` as coefficients, at `α` -/
def polyAt (α : R) (v : BitVec n) : R := ∑ i ∈ Finset.range n, if v.getLsbD i then α ^ i else 0

theorem polyAt_xor (h2 : ∀ c : R, c + c = 0) (α : R) (v w : BitVec n) : polyAt α (v ^^^ w) = polyAt α v + polyAt α w := by
  rw [polyAt, polyAt, polyAt, ← Finset.sum_add_distrib]
  refine Finset.sum_congr rfl fun i _ => ?_
  rw [BitVec.getLsbD_xor]
  cases v.getLsbD i <;> cases w.getLsbD i <;> simp [h2]

theorem polyAt_shl (h2 : ∀ c : R, c + c = 0) (α : R) (hn : 0 < n) (v : BitVec n) :
    polyAt α (v <<< 1) = α * polyAt α v + if v.getLsbD (n - 1) then α ^ n else 0 := by
  obtain ⟨q, rfl⟩ : ∃ q, n = q + 1 := ⟨n - 1, by omega⟩
  rw [polyAt, polyAt]
  rw [Finset.sum_range_succ', Finset.sum_range_succ, mul_add, Finset.mul_sum]
  have e0 : (v <<< 1).getLsbD 0 = false := by rw [BitVec.getLsbD_shiftLeft]; simp
  rw [e0]
  have e1 : (α * if v.getLsbD q = true then α ^ q else 0) + (if v.getLsbD (q + 1 - 1) = true then α ^ (q + 1) else 0) = 0 := by
    rw [Nat.add_sub_cancel]
    cases v.getLsbD q
    · simp
    · simp only [if_true]; rw [← pow_succ', h2]
  rw [add_assoc, e1, if_neg (by decide)]
  congr 1
  refine Finset.sum_congr rfl fun i hi => ?_
  have := Finset.mem_range.1 hi
  rw [BitVec.getLsbD_shiftLeft, show i + 1 - 1 = i by omega]
  simp only [show i + 1 < q + 1 by omega, show ¬ i + 1 < 1 by omega, decide_true, decide_false, Bool.not_false, Bool.true_and]
  cases v.getLsbD i
  · simp
  · simp only [if_true]; rw [pow_succ']

/-- **C228, multiplication by X.** -/
theorem C228_xtime (h2 : ∀ c : R, c + c = 0) (h1 : 1 < n) (hN : n ≤ 2 ^ 32) (hm : m ≤ 64) (p r : Bits n false) (one : Bits m false) (ho : one.Clean)
    (eo : one.bv.toNat = 1) (α : R) (hα : α ^ n = polyAt α p.bv) :
    ∃ z, p.xtime r one = .ok z ∧ polyAt α z.bv = α * polyAt α r.bv := by
  obtain ⟨t, ht, et⟩ := C25_shl_partial hN r one ho 1 (by simp [numOf, eo]) fun _ => ⟨hm, h1, by split_ifs <;> omega⟩
  refine ⟨_, by rw [Bits.xtime, C01_read (by omega) hN r _ (by omega), res_bind_ok, ht, res_bind_ok], ?_⟩
  have e := polyAt_shl h2 α (by omega) r.bv
  cases c : r.bv.getLsbD (n - 1)
  · rw [if_neg (by decide), show Bits.bv (n := n) (s := false) t = _ from et, e, c]; simp
  · rw [if_pos rfl]
    rw [show (Bits.xor (s := false) (t := false) t p).bv = _ from Bits.bv_xor (s := false) (t := false) t p, polyAt_xor h2,
      show Bits.bv (n := n) (s := false) t = _ from et, e, c, if_pos rfl, hα, add_assoc, h2, add_zero]

/-- **C228, the product.** In every commutative ring with `c + c = 0`, for every `α` with `α^n = p(α)`, the loop gives the product of the values of its operands at
`α`; at every width above one bit, native or wide, for all objects with whatever lies above the width, and multipliers of any width and signedness. -/
theorem C228_product (h2 : ∀ c : R, c + c = 0) (h1 : 1 < n) (hN : n ≤ 2 ^ 32) (hk : 0 < k) (hK : k ≤ 2 ^ 32) (hm : m ≤ 64) (a p : Bits n false) (b : Bits k s)
    (one : Bits m false) (ho : one.Clean) (eo : one.bv.toNat = 1) (α : R) (hα : α ^ n = polyAt α p.bv) :
    ∃ z, a.gmul p b one = .ok z ∧ polyAt α z.bv = polyAt α a.bv * polyAt α b.bv := by
  obtain ⟨z, hz, e⟩ := loopM_induct 0 k (Bits.zero : Bits n false) (fun i r => a.gmulStep p b one (k - 1 - i) r)
    (fun i r => polyAt α r.bv = polyAt α a.bv * ∑ j ∈ Finset.range i, if b.bv.getLsbD (k - i + j) then α ^ j else 0) (by omega)
    (by rw [Bits.bv_zero, polyAt]; simp)
    (fun i r _ hi hr => by
      obtain ⟨t, ht, et⟩ := C228_xtime h2 h1 hN hm p r one ho eo α hα
      refine ⟨_, by rw [Bits.gmulStep, ht, res_bind_ok, C01_read hk hK b _ (by omega), res_bind_ok], ?_⟩
      rw [hr] at et
      rw [Finset.sum_range_succ']
      have es : (∑ j ∈ Finset.range i, if b.bv.getLsbD (k - (i + 1) + (j + 1)) = true then α ^ (j + 1) else 0) =
          α * ∑ j ∈ Finset.range i, if b.bv.getLsbD (k - i + j) then α ^ j else 0 := by
        rw [Finset.mul_sum]
        refine Finset.sum_congr rfl fun j _ => ?_
        rw [show k - (i + 1) + (j + 1) = k - i + j by omega]
        cases b.bv.getLsbD (k - i + j)
        · simp
        · simp only [if_true]; rw [pow_succ']
      rw [es, show k - (i + 1) + 0 = k - 1 - i by omega, mul_add, mul_left_comm, ← et]
      cases b.bv.getLsbD (k - 1 - i)
      · simp
      · rw [if_pos rfl, if_pos rfl, pow_zero, mul_one,
          show (Bits.xor (s := false) (t := false) t a).bv = _ from Bits.bv_xor (s := false) (t := false) t a, polyAt_xor h2])
  exact ⟨z, hz, by rw [e]; simp only [Nat.sub_self, Nat.zero_add]; rfl⟩

open Polynomial in
/-- the polynomial with the bits of `v` as coefficients -/
noncomputable def polyOf (v : BitVec n) : (ZMod 2)[X] := polyAt X v

open Polynomial in
theorem polyOf_coeff (v : BitVec n) (i : Nat) : (polyOf v).coeff i = if v.getLsbD i then 1 else 0 := by
  rw [polyOf, polyAt, finset_sum_coeff]
  by_cases hi : i < n
  · rw [Finset.sum_eq_single i]
    · cases v.getLsbD i <;> simp
    · intro j _ hj
      cases v.getLsbD j <;> simp [coeff_X_pow, Ne.symm hj]
    · intro h; exact absurd (Finset.mem_range.2 hi) h
  · rw [BitVec.getLsbD_of_ge _ _ (by omega), if_neg (by decide)]
    refine Finset.sum_eq_zero fun j hj => ?_
    have := Finset.mem_range.1 hj
    cases v.getLsbD j <;> simp [coeff_X_pow, show i ≠ j by omega]

open Polynomial in
theorem polyOf_degree (v : BitVec n) : (polyOf v).degree < n := by
  rw [degree_lt_iff_coeff_zero]
  intro i hi
  rw [polyOf_coeff, BitVec.getLsbD_of_ge _ _ hi]; rfl

open Polynomial in
theorem polyOf_inj {v w : BitVec n} (h : polyOf v = polyOf w) : v = w := by
  apply BitVec.eq_of_getLsbD_eq
  intro i _
  have := congrArg (fun q => coeff q i) h
  simp only [polyOf_coeff] at this
  revert this
  cases v.getLsbD i <;> cases w.getLsbD i <;> simp

open Polynomial in
/-- **C228, the product of polynomials.** The bits of the result are the coefficients of the product of the polynomials of the operands, modulo `X^n + p`. -/
theorem C228_mod (h1 : 1 < n) (hN : n ≤ 2 ^ 32) (hk : 0 < k) (hK : k ≤ 2 ^ 32) (hm : m ≤ 64) (a p : Bits n false) (b : Bits k s)
    (one : Bits m false) (ho : one.Clean) (eo : one.bv.toNat = 1) :
    ∃ z, a.gmul p b one = .ok z ∧ polyOf z.bv = polyOf a.bv * polyOf b.bv %ₘ (X ^ n + polyOf p.bv) := by
  have hmon : (X ^ n + polyOf p.bv : (ZMod 2)[X]).Monic := monic_X_pow_add (polyOf_degree _)
  have hdeg : (X ^ n + polyOf p.bv : (ZMod 2)[X]).degree = n := by
    rw [degree_add_eq_left_of_degree_lt (by rw [degree_X_pow]; exact polyOf_degree _), degree_X_pow]
  set g : (ZMod 2)[X] := X ^ n + polyOf p.bv with hg
  have two : (2 : ZMod 2) = 0 := rfl
  have val : ∀ {l : Nat} (v : BitVec l), polyAt (AdjoinRoot.root g) v = AdjoinRoot.mk g (polyOf v) := by
    intro l v
    rw [polyOf, polyAt, polyAt, map_sum]
    refine Finset.sum_congr rfl fun i _ => ?_
    cases v.getLsbD i
    · simp
    · simp [AdjoinRoot.mk_X]
  have h2 : ∀ c : AdjoinRoot g, c + c = 0 := fun c => by
    rw [← two_smul (ZMod 2) c, two, zero_smul]
  obtain ⟨z, hz, e⟩ := C228_product h2 h1 hN hk hK hm a p b one ho eo (AdjoinRoot.root g) (by
    have h0 : AdjoinRoot.mk g g = 0 := AdjoinRoot.mk_self
    rw [val]
    conv at h0 => lhs; arg 2; rw [hg]
    rw [map_add, map_pow, AdjoinRoot.mk_X] at h0
    rw [← add_zero (AdjoinRoot.root g ^ n), ← h2 (AdjoinRoot.mk g (polyOf p.bv)), ← add_assoc, h0, zero_add])
  refine ⟨z, hz, ?_⟩
  rw [val, val, val, ← map_mul, AdjoinRoot.mk_eq_mk] at e
  have hz' : polyOf z.bv %ₘ g = polyOf z.bv := (modByMonic_eq_self_iff hmon).2 (by rw [hdeg]; exact polyOf_degree _)
  rw [← hz']
  exact sub_eq_zero.1 (by rw [← sub_modByMonic]; exact (modByMonic_eq_zero_iff_dvd hmon).2 e)

/-- **C228, laws.** The product is commutative and associative, and distributes over `^`. -/
theorem C228_laws (h1 : 1 < n) (hN : n ≤ 2 ^ 32) (hm : m ≤ 64) (a b c p : Bits n false) (one : Bits m false) (ho : one.Clean)
    (eo : one.bv.toNat = 1) :
    (∃ z w, a.gmul p b one = .ok z ∧ b.gmul p a one = .ok w ∧ z.bv = w.bv) ∧
    (∃ z w, ((a.gmul p b one).bind fun t => t.gmul p c one) = .ok z ∧ ((b.gmul p c one).bind fun t => a.gmul p t one) = .ok w ∧ z.bv = w.bv) ∧
    ∃ z u w, a.gmul p (Bits.xor (s := false) (t := false) b c) one = .ok z ∧ a.gmul p b one = .ok u ∧ a.gmul p c one = .ok w ∧
      z.bv = u.bv ^^^ w.bv := by
  have P := fun (a b : Bits n false) => C228_mod h1 hN (by omega) hN hm a p b one ho eo
  refine ⟨?_, ?_, ?_⟩
  · obtain ⟨z, hz, ez⟩ := P a b
    obtain ⟨w, hw, ew⟩ := P b a
    exact ⟨z, w, hz, hw, polyOf_inj (by rw [ez, ew, mul_comm])⟩
  · obtain ⟨u, hu, eu⟩ := P a b
    obtain ⟨z, hz, ez⟩ := P u c
    obtain ⟨v, hv, ev⟩ := P b c
    obtain ⟨w, hw, ew⟩ := P a v
    refine ⟨z, w, by rw [hu, res_bind_ok, hz], by rw [hv, res_bind_ok, hw], polyOf_inj ?_⟩
    have self : ∀ v : BitVec n, polyOf v = polyOf v %ₘ (Polynomial.X ^ n + polyOf p.bv) := fun v => by
      refine ((Polynomial.modByMonic_eq_self_iff (Polynomial.monic_X_pow_add (polyOf_degree _))).2 ?_).symm
      rw [Polynomial.degree_add_eq_left_of_degree_lt (by rw [Polynomial.degree_X_pow]; exact polyOf_degree _), Polynomial.degree_X_pow]
      exact polyOf_degree v
    have e1 := Polynomial.mul_modByMonic (polyOf a.bv * polyOf b.bv) (polyOf c.bv) (Polynomial.X ^ n + polyOf p.bv)
    have e2 := Polynomial.mul_modByMonic (polyOf a.bv) (polyOf b.bv * polyOf c.bv) (Polynomial.X ^ n + polyOf p.bv)
    rw [← self c.bv] at e1
    rw [← self a.bv] at e2
    rw [ez, ew, eu, ev, ← e1, ← e2, mul_assoc]
  · obtain ⟨z, hz, ez⟩ := P a (Bits.xor (s := false) (t := false) b c)
    obtain ⟨u, hu, eu⟩ := P a b
    obtain ⟨w, hw, ew⟩ := P a c
    refine ⟨z, u, w, hz, hu, hw, polyOf_inj ?_⟩
    have x : ∀ v w : BitVec n, polyOf (v ^^^ w) = polyOf v + polyOf w :=
      fun v w => polyAt_xor (fun c => by rw [← two_smul (ZMod 2) c, show (2 : ZMod 2) = 0 from rfl, zero_smul]) _ v w
    rw [ez, x, eu, ew, Bits.bv_xor, x, mul_add, Polynomial.add_modByMonic]

/-- the products of the AES standard: 57 by 13 and 57 by 83 modulo X^8 + 1b; and X^68 + 1 times X^3 modulo X^70 + 23 -/
example : ((Bits.ofInt 0x57 : Bits 8 false).gmul (Bits.ofInt 0x1b) (Bits.ofInt 0x13 : Bits 8 false) (Bits.ofInt 1 : Bits 32 false)).map (·.bv.toNat) = .ok 0xfe ∧
    ((Bits.ofInt 0x57 : Bits 8 false).gmul (Bits.ofInt 0x1b) (Bits.ofInt 0x83 : Bits 8 true) (Bits.ofInt 1 : Bits 32 false)).map (·.bv.toNat) = .ok 0xc1 ∧
    (((Bits.ofInt 1 : Bits 70 false).set (Rng.down 70) 68 true).bind fun a =>
      a.gmul (Bits.ofInt 0x23) (Bits.ofInt 8 : Bits 4 false) (Bits.ofInt 1 : Bits 32 false)).map (·.bv.toNat) = .ok (0x46 ^^^ 8) := by
  decide +kernel

end Verif
