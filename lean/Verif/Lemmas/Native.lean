import Verif.Lemmas.Big

/-! Native (at most 64 bit wide) objects: the holder and its bits. -/

namespace Verif

/-! ### bits of integers -/

theorem getLsbD_ofInt (n : Nat) (a : Int) (i : Nat) :
    (BitVec.ofInt n a).getLsbD i = (decide (i < n) && decide (a / 2 ^ i % 2 = 1)) := by
  by_cases hi : i < n
  · simp only [hi, decide_true, Bool.true_and]
    rw [BitVec.getLsbD, BitVec.toNat_ofInt, Nat.testBit_eq_decide_div_mod_eq, decide_eq_decide]
    have hp : (0 : Int) < ((2 ^ n : Nat) : Int) := by exact_mod_cast Nat.two_pow_pos n
    have h0 : 0 ≤ a % ((2 ^ n : Nat) : Int) := Int.emod_nonneg _ hp.ne'
    have hcast : (((a % ((2 ^ n : Nat) : Int)).toNat / 2 ^ i % 2 : Nat) : Int)
        = (a % ((2 ^ n : Nat) : Int)) / 2 ^ i % 2 := by
      push_cast
      rw [Int.toNat_of_nonneg (by exact_mod_cast h0)]
    have key : (a % ((2 ^ n : Nat) : Int)) / 2 ^ i % 2 = a / 2 ^ i % 2 := by
      obtain ⟨k, hk⟩ : ∃ k, n = i + (k + 1) := ⟨n - i - 1, by omega⟩
      have ha := Int.emod_add_mul_ediv a ((2 ^ n : Nat) : Int)
      have hn2 : ((2 ^ n : Nat) : Int) = 2 ^ i * (2 * 2 ^ k) := by
        subst hk; push_cast; rw [pow_add, pow_succ]; ring
      have h2i : (2 ^ i : Int) ≠ 0 := by positivity
      have e : a / 2 ^ i = (a % ((2 ^ n : Nat) : Int)) / 2 ^ i
          + 2 * (2 ^ k * (a / ((2 ^ n : Nat) : Int))) := by
        conv_lhs => rw [← ha]
        rw [show ((2 ^ n : Nat) : Int) * (a / ((2 ^ n : Nat) : Int))
          = 2 ^ i * (2 * (2 ^ k * (a / ((2 ^ n : Nat) : Int)))) by rw [hn2]; ring]
        rw [Int.add_mul_ediv_left _ _ h2i]
      rw [e]; omega
    rw [← key]
    omega
  · rw [BitVec.getLsbD_of_ge _ _ (by omega)]; simp [hi]

/-! ### holder widths -/

theorem le_hw {n : Nat} (h : n ≤ 64) : n ≤ hw n := by
  unfold hw; split_ifs <;> omega

theorem hw_cases (n : Nat) : hw n = 1 ∨ hw n = 8 ∨ hw n = 16 ∨ hw n = 32 ∨ hw n = 64 := by
  unfold hw; split_ifs <;> simp

theorem hw_le (n : Nat) : hw n ≤ 64 := by
  rcases hw_cases n with h | h | h | h | h <;> omega

theorem hw_pos (n : Nat) : 0 < hw n := by
  rcases hw_cases n with h | h | h | h | h <;> omega

theorem hw_one {n : Nat} (h : n ≤ 1) : hw n = 1 := by simp [hw, h]

theorem hw_ge_eight {n : Nat} (h : ¬ n ≤ 1) : 8 ≤ hw n := by
  unfold hw; split_ifs <;> omega

theorem holderTy_width (n : Nat) (s : Bool) : (holderTy n s).width = hw n := by
  unfold holderTy
  split_ifs with h
  · rw [hw_one h]; rfl
  · rfl

theorem holderTy_ge {n : Nat} (h : ¬ n ≤ 1) (s : Bool) : holderTy n s = .int (hw n) s := by
  simp [holderTy, h]

theorem holderTy_one {n : Nat} (h : n ≤ 1) (s : Bool) : holderTy n s = .bool := by
  simp [holderTy, h]

namespace Bits

variable {n m : Nat} {s t : Bool}

/-- the holder pattern of a native object -/
def hold : Bits n s → BitVec (hw n)
  | .nat _ r => r
  | .big _ _ => 0

@[simp] theorem nv_ty (x : Bits n s) : x.nv.ty = holderTy n s := by cases x <;> rfl

theorem nv_v (h : n ≤ 64) (x : Bits n s) :
    x.nv.v = if s && !decide (n ≤ 1) then x.hold.toInt else (x.hold.toNat : Int) := by
  cases x with
  | nat _ r => rfl
  | big h' _ => exact absurd h h'

theorem ofInt_nv (h : n ≤ 64) (x : Bits n s) {k : Nat} (hk : k ≤ hw n) :
    BitVec.ofInt k x.nv.v = x.hold.setWidth k := by
  rw [nv_v h]
  split_ifs
  · exact ofInt_toInt_setWidth hk _
  · exact ofInt_toNat_setWidth _

theorem bv_native (h : n ≤ 64) (x : Bits n s) : x.bv = x.hold.setWidth n := by
  cases x with
  | nat _ r => rfl
  | big h' _ => exact absurd h h'

theorem bv_ofInt (h : n ≤ 64) (x : Bits n s) : x.bv = BitVec.ofInt n x.nv.v := by
  rw [ofInt_nv h x (le_hw h), bv_native h]

theorem bv_big (h : ¬ n ≤ 64) (x : Bits n s) : x.bv = (x.bg h).bv := by
  cases x with
  | nat h' _ => exact absurd h' h
  | big _ b => rfl

@[simp] theorem bg_big (h h' : ¬ n ≤ 64) (b : Big n s) : (Bits.big h b).bg h' = b := rfl

theorem big_bg (h : ¬ n ≤ 64) (x : Bits n s) : Bits.big h (x.bg h) = x := by
  cases x with
  | nat h' _ => exact absurd h' h
  | big _ b => rfl

@[simp] theorem hold_nat (h : n ≤ 64) (r : BitVec (hw n)) : (Bits.nat h r : Bits n s).hold = r := rfl

theorem nat_hold (h : n ≤ 64) (x : Bits n s) : Bits.nat h x.hold = x := by
  cases x with
  | nat _ _ => rfl
  | big h' _ => exact absurd h h'

theorem ext_native (h : n ≤ 64) {x y : Bits n s} (e : x.hold = y.hold) : x = y := by
  rw [← nat_hold h x, ← nat_hold h y, e]

/-- assigning to a holder wider than one bit keeps the low bits -/
theorem hold_mkN (h : n ≤ 64) (h1 : ¬ n ≤ 1) (v : TV) :
    (mkN h v : Bits n s).hold = BitVec.ofInt (hw n) v.v := by
  rw [mkN, hold_nat, holderTy_ge h1, ofInt_conv (le_refl _)]

theorem hold_mkN_one (h : n ≤ 64) (h1 : n ≤ 1) (v : TV) :
    (mkN h v : Bits n s).hold = BitVec.ofInt (hw n) (if v.v = 0 then 0 else 1) := by
  rw [mkN, hold_nat, holderTy_one h1]; rfl

theorem bv_mkN (h : n ≤ 64) (h1 : ¬ n ≤ 1) (v : TV) :
    (mkN h v : Bits n s).bv = BitVec.ofInt n v.v := by
  rw [bv_native h, hold_mkN h h1, setWidth_ofInt (le_hw h)]

theorem bv_mkN_one (h : n ≤ 64) (h1 : n ≤ 1) (v : TV) :
    (mkN h v : Bits n s).bv = BitVec.ofInt n (if v.v = 0 then 0 else 1) := by
  rw [bv_native h, hold_mkN_one h h1, setWidth_ofInt (le_hw h)]

theorem hold_lt_two (h1 : n ≤ 1) (x : Bits n s) : x.hold.toNat < 2 := by
  have h := x.hold.isLt
  have h2 : 2 ^ hw n = 2 := by rw [hw_one h1]; rfl
  omega

/-- the holder of a native object is one of its values -/
theorem nv_conv (h : n ≤ 64) (x : Bits n s) : (holderTy n s).conv x.nv.v = x.nv.v := by
  rw [nv_v h]
  by_cases h1 : n ≤ 1
  · simp only [h1, holderTy_one h1, decide_true, Bool.not_true, Bool.and_false, Bool.false_eq_true,
      if_false, CTy.conv]
    have := hold_lt_two h1 x
    split_ifs <;> omega
  · rw [holderTy_ge h1]
    simp only [h1, decide_false, Bool.not_false, Bool.and_true]
    cases s
    · simp only [Bool.false_eq_true, if_false]
      exact CTy.conv_unsigned_of_lt (by omega) (by have := x.hold.isLt; exact_mod_cast this)
    · simp only [if_true]
      apply CTy.conv_signed_of_mem (hw_pos n)
      · have := BitVec.le_toInt x.hold; exact_mod_cast this
      · have := BitVec.toInt_lt (x := x.hold); exact_mod_cast this

theorem nv_one (h : n ≤ 64) (h1 : n ≤ 1) (x : Bits n s) :
    x.nv = ⟨.bool, 0⟩ ∨ x.nv = ⟨.bool, 1⟩ := by
  have h2 := nv_v h x
  simp only [h1, decide_true, Bool.not_true, Bool.and_false, Bool.false_eq_true, if_false] at h2
  have := hold_lt_two h1 x
  have ht := nv_ty x
  rw [holderTy_one h1] at ht
  cases hq : x.nv with | mk ty v => ?_
  rw [hq] at ht h2
  simp only at ht h2
  subst ht
  have : v = 0 ∨ v = 1 := by omega
  rcases this with rfl | rfl
  · left; rfl
  · right; rfl

theorem nv_mkN (h : n ≤ 64) (v : TV) :
    (mkN h v : Bits n s).nv = ⟨holderTy n s, (holderTy n s).conv v.v⟩ := by
  have key : (mkN h v : Bits n s).nv.v = (holderTy n s).conv v.v := by
    rw [nv_v h]
    by_cases h1 : n ≤ 1
    · rw [hold_mkN_one h h1]
      simp only [h1, holderTy_one h1, decide_true, Bool.not_true, Bool.and_false,
        Bool.false_eq_true, if_false, CTy.conv]
      have := hw_one h1
      rw [BitVec.toNat_ofInt, this]
      split_ifs <;> rfl
    · rw [hold_mkN h h1, holderTy_ge h1]
      simp only [h1, decide_false, Bool.not_false, Bool.and_true]
      cases s
      · simp only [Bool.false_eq_true, if_false, CTy.conv, BitVec.toNat_ofInt]
        have hp : (0 : Int) < ((2 ^ hw n : Nat) : Int) := by exact_mod_cast Nat.two_pow_pos _
        have := Int.emod_nonneg v.v hp.ne'
        omega
      · simp only [if_true, CTy.conv, BitVec.toInt_ofInt]
  have ht := nv_ty (mkN h v : Bits n s)
  cases hq : (mkN h v : Bits n s).nv
  rw [hq] at key ht
  simp only at key ht
  rw [key, ht]

theorem mkN_nv (h : n ≤ 64) (x : Bits n s) : mkN h x.nv = x := by
  apply ext_native h
  by_cases h1 : n ≤ 1
  · rw [hold_mkN_one h h1]
    have h2 := nv_v h x
    simp only [h1, decide_true, Bool.not_true, Bool.and_false, Bool.false_eq_true, if_false] at h2
    have : (if x.nv.v = 0 then 0 else 1 : Int) = x.nv.v := by
      rcases nv_one h h1 x with e | e <;> rw [e] <;> rfl
    rw [this, ofInt_nv h x (le_refl _)]; simp
  · rw [hold_mkN h h1, ofInt_nv h x (le_refl _)]; simp

/-! ### raw bits and clean objects -/

/-- the stored bit at any position, also above the declared width -/
def raw (x : Bits n s) (i : Nat) : Bool :=
  match x with
  | .nat _ r => r.getLsbD i
  | .big _ b => b.raw i

theorem raw_native (h : n ≤ 64) (x : Bits n s) (i : Nat) : x.raw i = x.hold.getLsbD i := by
  cases x with
  | nat _ r => rfl
  | big h' _ => exact absurd h h'

theorem raw_big (h : ¬ n ≤ 64) (x : Bits n s) (i : Nat) : x.raw i = (x.bg h).raw i := by
  cases x with
  | nat h' _ => exact absurd h' h
  | big _ b => rfl

theorem getLsbD_bv (x : Bits n s) (i : Nat) : x.bv.getLsbD i = (decide (i < n) && x.raw i) := by
  cases x with
  | nat _ r => simp [bv, raw]
  | big _ b => show b.bv.getLsbD i = _; rw [Big.getLsbD_bv, Big.get_eq]; rfl

theorem clean_big (h : ¬ n ≤ 64) (x : Bits n s) : x.Clean ↔ (x.bg h).Clean := by
  cases x with
  | nat h' _ => exact absurd h' h
  | big _ b => rfl

theorem clean_native (h : n ≤ 64) (x : Bits n s) : x.Clean ↔ x.nv.v = numOf s x.bv := by
  cases x with
  | nat _ _ => rfl
  | big h' _ => exact absurd h h'

theorem clean_one (h1 : n ≤ 1) (hn : 0 < n) (x : Bits n s) : x.Clean := by
  have h : n ≤ 64 := by omega
  rw [clean_native h, nv_v h, bv_native h]
  have : n = 1 := by omega
  subst this
  have := hold_lt_two h1 x
  simp [numOf]; omega

/-- clean unsigned objects store zeros above the declared width -/
theorem clean_unsigned_iff (x : Bits n false) : x.Clean ↔ ∀ i, n ≤ i → x.raw i = false := by
  cases x with
  | nat h r =>
    rw [clean_native h]
    show ((r.toNat : Int)) = numOf false (r.setWidth n) ↔ ∀ i, n ≤ i → r.getLsbD i = false
    simp only [numOf, Bool.false_and, Bool.false_eq_true, if_false, BitVec.toNat_setWidth]
    constructor
    · intro e i hi
      have : r.toNat < 2 ^ n := by
        have e' : r.toNat = r.toNat % 2 ^ n := by exact_mod_cast e
        rw [e']; exact Nat.mod_lt _ (Nat.two_pow_pos _)
      exact Nat.testBit_lt_two_pow (lt_of_lt_of_le this (Nat.pow_le_pow_right (by omega) hi))
    · intro h0
      have : r.toNat < 2 ^ n := Nat.lt_pow_two_of_testBit _ h0
      rw [Nat.mod_eq_of_lt this]
  | big h b => exact Big.clean_iff b

theorem clean_unsigned_num (h : n ≤ 64) {x : Bits n false} (hc : x.Clean) :
    x.nv.v = x.bv.toNat := by
  rw [clean_native h] at hc
  simpa [numOf] using hc

/-- clean unsigned objects are determined by their bits -/
theorem Clean.ext {x y : Bits n s} (hx : x.Clean) (hy : y.Clean) (e : x.bv = y.bv) : x = y := by
  by_cases h : n ≤ 64
  · rw [clean_native h] at hx hy
    rw [← mkN_nv h x, ← mkN_nv h y]
    congr 1
    have ht : x.nv.ty = y.nv.ty := by simp
    have hv : x.nv.v = y.nv.v := by rw [hx, hy, e]
    cases hq : x.nv; cases hq' : y.nv
    rw [hq, hq'] at ht hv
    simp only at ht hv
    rw [ht, hv]
  · rw [clean_big h] at hx hy
    rw [bv_big h, bv_big h] at e
    rw [← big_bg h x, ← big_bg h y, Big.Clean.ext hx hy e]

end Bits
end Verif
