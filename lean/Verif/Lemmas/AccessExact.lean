import Verif.Lemmas.Access
import Verif.Lemmas.Array

/-! Reading and writing 2-state objects at any `int` index. -/

namespace Verif

variable {n m : Nat} {s t : Bool}

namespace Bits

/-- what the promoted native holder shows at position `p`: the storage bit, and above
the storage the sign of a signed holder -/
def promBit (x : Bits n s) (p : Nat) : Bool :=
  if p < hw n then x.raw p else s && decide (1 < n) && x.raw (hw n - 1)

theorem get_native_v (r : Rng) (h : n ≤ 64) (x : Bits n s) (idx : Int) (p : Nat)
    (hp : physIdx r idx = p) (hlt : p < (holderTy n s).promote.width) :
    x.get r idx = .ok (decide (x.nv.v / 2 ^ p % 2 = 1)) := by
  simp only [get, h, dif_pos, hp]
  rw [TV.shr_ok (k := p) rfl (by rw [nv_ty]; omega), res_map_ok, TV.band_one_ne]
  simp only [nv_ty]
  rw [promote_conv_nv h x]
  have key : ∀ a : Int, (holderTy n s).promote.conv a % 2 = a % 2 := by
    intro a
    have := ofInt_promote_conv n s (k := 1) (Or.inr (by omega)) a
    rw [ofInt_eq_iff] at this
    simpa using this
  rw [key]

/-- a canonical object shows zeros, or its sign, above its declared bits -/
theorem get_native_clean (r : Rng) (h : n ≤ 64) {x : Bits n s} (hx : x.Clean) (idx : Int) (p : Nat)
    (hp : physIdx r idx = p) (hn : n ≤ p) (hlt : p < (holderTy n s).promote.width) :
    x.get r idx = .ok (s && decide (1 < n) && x.bv.msb) := by
  rw [get_native_v r h x idx p hp hlt, (clean_native h x).1 hx]
  congr 1
  have hpow : (2 : Int) ^ n ≤ 2 ^ p := pow_le_pow_right₀ (by norm_num) hn
  have hnat : ((x.bv.toNat : Int)) < 2 ^ n := by exact_mod_cast x.bv.isLt
  rw [numOf]
  by_cases hs : (s && !decide (n ≤ 1)) = true
  · rw [if_pos hs, Big.toInt_eq]
    simp only [Bool.and_eq_true, Bool.not_eq_true', decide_eq_false_iff_not] at hs
    have h1 : 1 < n := by omega
    obtain rfl := hs.1
    simp only [h1, decide_true, Bool.and_self, Bool.true_and]
    cases hm : x.bv.msb
    · simp only [Bool.false_eq_true, if_false]
      rw [Int.ediv_eq_zero_of_lt (by omega) (by omega)]; rfl
    · simp only [if_true]
      have : ((x.bv.toNat : Int) - 2 ^ n) / 2 ^ p = -1 := by
        rw [Int.ediv_eq_iff_of_pos (by positivity)]; constructor <;> omega
      rw [this]; rfl
  · rw [if_neg hs, Int.ediv_eq_zero_of_lt (by omega) (by omega)]
    have : (s && decide (1 < n)) = false := by
      rw [← Bool.not_eq_true]; intro hc; apply hs
      simp only [Bool.and_eq_true, decide_eq_true_eq] at hc
      simp [hc.1]; omega
    rw [this]; rfl

theorem get_native_exact (r : Rng) (h : n ≤ 64) (x : Bits n s) (idx : Int) (p : Nat)
    (hp : physIdx r idx = p) (hlt : p < (holderTy n s).promote.width) :
    x.get r idx = .ok (x.promBit p) := by
  rw [get_native_v r h x idx p hp hlt, promBit]
  split
  · rename_i hi
    rw [raw_nv h x hi]
  · rename_i hi
    have hc := nv_conv h x
    congr 1
    by_cases h1 : n ≤ 1
    · have hw1 := hw_one h1
      have hp1 : (2 : Int) ^ p ≥ 2 := by
        calc (2 : Int) ^ p ≥ 2 ^ 1 := pow_le_pow_right₀ (by norm_num) (by omega)
          _ = 2 := by norm_num
      have : x.nv.v / 2 ^ p = 0 := by
        apply Int.ediv_eq_zero_of_lt
        · rcases nv_one h h1 x with e | e <;> rw [e] <;> simp
        · rcases nv_one h h1 x with e | e <;> rw [e] <;> (simp; try omega)
      rw [this]
      simp only [show ¬ 1 < n by omega, decide_false, Bool.and_false, Bool.false_and]
      rfl
    · rw [holderTy_ge h1] at hc
      have hpow : (2 : Int) ^ hw n ≤ 2 ^ p := pow_le_pow_right₀ (by norm_num) (by omega)
      have h1' : 1 < n := by omega
      cases s
      · have hm := @CTy.conv_unsigned_mem (hw n) x.nv.v
        rw [hc] at hm
        rw [Int.ediv_eq_zero_of_lt hm.1 (by omega)]
        rfl
      · have hm := @CTy.conv_signed_mem (hw n) (hw_pos n) x.nv.v
        rw [hc] at hm
        have hwp := hw_pos n
        rw [raw_nv h x (by omega)]
        have hhalf : (2 : Int) ^ hw n = 2 * 2 ^ (hw n - 1) := by
          rw [← pow_succ']; congr 1; omega
        have hpos : (0 : Int) < 2 ^ (hw n - 1) := by positivity
        by_cases hneg : x.nv.v < 0
        · have e1 : x.nv.v / 2 ^ p = -1 := by
            rw [Int.ediv_eq_iff_of_pos (by positivity)]; constructor <;> omega
          have e2 : x.nv.v / 2 ^ (hw n - 1) = -1 := by
            rw [Int.ediv_eq_iff_of_pos hpos]; constructor <;> omega
          rw [e1, e2]; simp [h1']
        · rw [Int.ediv_eq_zero_of_lt (by omega) (by omega),
            Int.ediv_eq_zero_of_lt (by omega) (by omega)]
          simp

theorem get_native_fault (r : Rng) (h : n ≤ 64) (x : Bits n s) (idx : Int)
    (hp : physIdx r idx < 0 ∨ ((holderTy n s).promote.width : Int) ≤ physIdx r idx) :
    x.get r idx = .error .shift := by
  simp only [get, h, dif_pos]
  have : TV.shr x.nv (TV.int (physIdx r idx)) = .error .shift := by
    rw [TV.shr, nv_ty]; exact if_pos hp
  rw [this]; rfl

theorem get_big_out (r : Rng) (h : ¬ n ≤ 64) (x : Bits n s) (idx : Int)
    (hp : n ≤ (tU64.conv (physIdx r idx)).toNat) : x.get r idx = .ok false := by
  simp only [get, h, dif_neg, not_false_eq_true]
  rw [Big.get_eq, decide_eq_false (by omega), Bool.false_and]

/-- setting a bit of a native value: any index the shift accepts -/
theorem setNat_set (h : n ≤ 64) (h1 : 1 < n) (x : Bits n s) (c : TV) (i : Nat) (hc : c.v = i)
    (hi : i < 64) :
    ∃ y, setNat h x c true = .ok y ∧
      ∀ j, y.raw j = if j = i ∧ j < hw n then true else x.raw j := by
  have hsh : TV.shl (TV.u64 1) c = .ok ⟨tU64, 2 ^ i⟩ := by
    rw [TV.shl_ok hc (by show i < 64; omega)]
    show Except.ok (⟨tU64, tU64.conv (tU64.conv (tU64.conv 1) * 2 ^ i)⟩ : TV) = _
    have h1 : tU64.conv (tU64.conv 1) = 1 := by decide
    rw [h1, one_mul, tU64_conv_of (by positivity)]
    exact pow_lt_pow_right₀ (by norm_num) (by omega)
  rw [setNat, hsh, res_map_ok]
  refine ⟨_, rfl, fun j => ?_⟩
  have hw64 := hw_le n
  simp only [if_true]
  rw [raw_native h, hold_mkN h (by omega), TV.ofInt_bor _ _ (Or.inr (Or.inl hw64)),
    ofInt_nv h x (le_refl _), BitVec.setWidth_eq, BitVec.getLsbD_or, getLsbD_ofInt_pow,
    ← raw_native h]
  by_cases hj : j = i
  · subst hj
    by_cases hjw : j < hw n
    · simp [hjw]
    · simp [hjw]
  · simp [hj]

/-- any write of a native value of more than one bit at an index the shift accepts -/
theorem setNat_exact (h : n ≤ 64) (h1 : 1 < n) (x : Bits n s) (c : TV) (i : Nat) (hc : c.v = i)
    (hi : i < 64) (v : Bool) :
    ∃ y, setNat h x c v = .ok y ∧ ∀ j, y.raw j = if j = i ∧ j < hw n then v else x.raw j := by
  cases v
  · obtain ⟨y, hy, hr⟩ := setNat_clear h h1 x c i hc hi
    refine ⟨y, hy, fun j => ?_⟩
    rw [hr]
    by_cases hj : j = i
    · by_cases hjw : j < hw n
      · rw [if_pos hj, if_pos ⟨hj, hjw⟩]
      · rw [if_pos hj, if_neg (by omega), raw_of_ge_native h x (by omega)]
    · simp [hj]
  · exact setNat_set h h1 x c i hc hi

theorem setNat_fault (h : n ≤ 64) (x : Bits n s) (c : TV) (v : Bool)
    (hc : c.v < 0 ∨ 64 ≤ c.v) : setNat h x c v = .error .shift := by
  have : TV.shl (TV.u64 1) c = .error .shift := by
    rw [TV.shl]
    rw [if_pos (by rcases hc with e | e; exact Or.inl e; exact Or.inr e)]
  rw [setNat, this]; rfl

end Bits
end Verif
