import Verif.Props.Shift
import Verif.Props.Arith
import Verif.Props.Bitwise
import Verif.Show

/-!
# A program: signed numbers as unsigned ones (C226)

`u = (x << 1) ^ x.ashr(n - 1)` numbers the signed values 0, -1, 1, -2, 2, ... (the zigzag code of variable length formats), and
`(u >> 1) ^ (0 - (u & 1))` goes back.
-/

namespace Verif

variable {n m : Nat}

/-- `(x << one) ^ x.ashr(last)`, where the amounts are unsigned vectors -/
def Bits.zigzag (x : Bits n true) (one last : Bits m false) : Res (Bits n false) :=
  (x.shl one).bind fun a => (x.ashr last).bind fun b => .ok (Bits.xor (s := false) (t := false) a b)

/-- `(u >> one) ^ (0 - (u & 1))` -/
def Bits.unzigzag (u : Bits n false) (one : Bits m false) : Res (Bits n false) :=
  (u.shr one).bind fun a => ((Bits.zero : Bits n false).sub (u.and (Bits.oneN n) : Bits n false)).bind fun b =>
    .ok (Bits.xor (s := false) (t := false) a b)

/-- bit `i` of the code of `x`: the sign below, the other bits above it, inverted if the sign is set -/
theorem zigzag_bit (x : BitVec n) (i : Nat) (hi : i < n) :
    (x <<< 1 ^^^ x.sshiftRight (n - 1)).getLsbD i = ((decide (0 < i) && x.getLsbD (i - 1)) ^^ x.msb) := by
  rw [BitVec.getLsbD_xor, BitVec.getLsbD_shiftLeft, BitVec.getLsbD_sshiftRight]
  by_cases h0 : i = 0
  · subst h0
    simp [hi, BitVec.msb_eq_getLsbD_last]
    intro _; omega
  · simp [hi, show ¬ i < 1 by omega, show ¬ n - 1 + i < n by omega, show 0 < i by omega]

theorem zigzag_num (hn : 0 < n) (x : BitVec n) :
    ((x <<< 1 ^^^ x.sshiftRight (n - 1)).toNat : Int) = if 0 ≤ x.toInt then 2 * x.toInt else -2 * x.toInt - 1 := by
  have hm := BitVec.msb_eq_false_iff_two_mul_lt (x := x)
  have hlt := x.isLt
  have key : x <<< 1 ^^^ x.sshiftRight (n - 1) = if x.msb then ~~~ (x <<< 1) else x <<< 1 := by
    apply BitVec.eq_of_getLsbD_eq
    intro i hi
    rw [zigzag_bit x i hi]
    have e : (x <<< 1).getLsbD i = (decide (0 < i) && x.getLsbD (i - 1)) := by
      rw [BitVec.getLsbD_shiftLeft]
      by_cases h0 : i = 0
      · subst h0; simp
      · simp [hi, show ¬ i < 1 by omega, show 0 < i by omega]
    cases x.msb
    · rw [if_neg (by decide), e, Bool.xor_false]
    · rw [if_pos rfl, BitVec.getLsbD_not, e]; simp [hi]
  have sh : (x <<< 1).toNat = x.toNat * 2 % 2 ^ n := by rw [BitVec.toNat_shiftLeft, Nat.shiftLeft_eq, pow_one]
  rw [key, BitVec.toInt_eq_msb_cond]
  have h2 : (2 : Int) ^ n = ((2 ^ n : Nat) : Int) := by push_cast; rfl
  cases e : x.msb
  · have := hm.1 e
    simp only [Bool.false_eq_true, if_false]
    rw [sh, if_pos (by omega), Nat.mod_eq_of_lt (by omega)]
    push_cast; ring
  · have : ¬ 2 * x.toNat < 2 ^ n := fun h => by rw [hm.2 h] at e; cases e
    simp only [if_true]
    rw [BitVec.toNat_not, sh, if_neg (by push_cast; omega),
      show x.toNat * 2 % 2 ^ n = x.toNat * 2 - 2 ^ n by
        rw [Nat.mod_eq_sub_mod (by omega), Nat.mod_eq_of_lt (by omega)]]
    omega

theorem unzigzag_bit (hn : 0 < n) (u : BitVec n) (i : Nat) (hi : i < n) :
    (u >>> 1 ^^^ (0 - (u &&& 1))).getLsbD i = (u.getLsbD (i + 1) ^^ u.getLsbD 0) := by
  have e : u &&& 1 = if u.getLsbD 0 then 1#n else 0#n := by
    apply BitVec.eq_of_getLsbD_eq
    intro j hj
    rw [BitVec.getLsbD_and]
    show (_ && (1#n).getLsbD j) = _
    rw [BitVec.getLsbD_one]
    by_cases h0 : j = 0
    · subst h0; cases u.getLsbD 0 <;> simp [hn]
    · cases u.getLsbD 0 <;> simp [h0]
  rw [BitVec.getLsbD_xor, BitVec.getLsbD_ushiftRight, e, Nat.add_comm 1 i]
  cases u.getLsbD 0
  · simp
  · have : (0 - 1#n : BitVec n) = BitVec.allOnes n := by
      show 0#n - 1#n = _
      rw [BitVec.zero_sub, BitVec.neg_one_eq_allOnes]
    rw [if_pos rfl, this, BitVec.getLsbD_allOnes]; simp [hi]

theorem Bits.unzigzag_ok (h1 : 1 < n) (hN : n ≤ 2 ^ 32) (hm : m ≤ 64) (u : Bits n false) (one : Bits m false) (ho : one.Clean)
    (eo : one.bv.toNat = 1) : ∃ v, u.unzigzag one = .ok v ∧ v.bv = u.bv >>> 1 ^^^ (0 - (u.bv &&& 1)) := by
  obtain ⟨a, ha, ea⟩ := C24_shr_partial (by omega) hN u one ho 1 (by simp [numOf, eo]) fun _ => ⟨hm, by omega⟩
  obtain ⟨b, hb, eb⟩ := C29_sub_partial (by omega) (Bits.zero : Bits n false) (u.and (Bits.oneN n) : Bits n false) (fun h => by cases h)
  refine ⟨Bits.xor (s := false) (t := false) a b, ?_, ?_⟩
  · rw [Bits.unzigzag, ha, res_bind_ok, show Bits.sub (s := false) (t := false) _ _ = _ from hb, res_bind_ok]
  · rw [Bits.bv_xor, ea, eb]
    have : (u.and (Bits.oneN n) : Bits n false).bv = u.bv &&& 1 := by
      rw [← (Bits.oneN_spec (n := n) (by omega)).2]; exact Bits.bv_and (by omega) u (Bits.oneN n)
    rw [this, bv_zero]

/-- **C226, native widths.** The code of a value of 2 to 64 bits is 2x for x at least 0 and -2x - 1 for negative x, and decoding
gives the bits of x back. Missing: wide values (`C226_wide_exact`, `C226_refuted`). -/
theorem C226_native_partial (h1 : 1 < n) (h : n ≤ 64) (hm : m ≤ 64) (x : Bits n true) (hx : x.Clean) (one last : Bits m false) (ho : one.Clean)
    (hl : last.Clean) (eo : one.bv.toNat = 1) (el : last.bv.toNat = n - 1) :
    ∃ u v, x.zigzag one last = .ok u ∧ u.unzigzag one = .ok v ∧ v.bv = x.bv ∧
      (u.bv.toNat : Int) = if 0 ≤ x.bv.toInt then 2 * x.bv.toInt else -2 * x.bv.toInt - 1 := by
  obtain ⟨a, ha, ea⟩ := C25_shl_partial (by omega) x one ho 1 (by simp [numOf, eo]) fun _ => ⟨hm, h1, by split_ifs <;> omega⟩
  obtain ⟨b, hb, eb⟩ := C26_ashr_partial (by omega) x last hx hl (n - 1) (by simp [numOf, el]) (fun _ => by omega)
    fun _ => ⟨hm, h1, by split_ifs <;> omega⟩
  have eu : (Bits.xor (s := false) (t := false) a b).bv = x.bv <<< 1 ^^^ x.bv.sshiftRight (n - 1) := by
    rw [Bits.bv_xor, ea, eb]; rfl
  obtain ⟨v, hv, ev⟩ := Bits.unzigzag_ok h1 (by omega) hm (Bits.xor (s := false) (t := false) a b) one ho eo
  refine ⟨_, v, by rw [Bits.zigzag, ha, res_bind_ok, hb, res_bind_ok], hv, ?_, by rw [eu]; exact zigzag_num (by omega) _⟩
  apply BitVec.eq_of_getLsbD_eq
  intro i hi
  rw [ev, unzigzag_bit (by omega) _ i hi, eu, zigzag_bit _ 0 (by omega)]
  by_cases hl : i + 1 < n
  · rw [zigzag_bit _ _ hl]; simp
  · rw [BitVec.getLsbD_of_ge _ _ (by omega), BitVec.msb_eq_getLsbD_last, show n - 1 = i by omega]; simp

/-- **C226, wide values, exactly.** The lowest bit of the code is 0 for all values, since `ashr` loses a copy of the sign: a
negative value is decoded as its complement. -/
theorem C226_wide_exact (h : 64 < n) (hN : n ≤ 2 ^ 32) (hm : m ≤ 64) (x : Bits n true) (one last : Bits m false) (ho : one.Clean)
    (hl : last.Clean) (eo : one.bv.toNat = 1) (el : last.bv.toNat = n - 1) :
    ∃ u v, x.zigzag one last = .ok u ∧ u.unzigzag one = .ok v ∧ v.bv = (if x.bv.msb then ~~~ x.bv else x.bv) ∧
      (u.bv.toNat : Int) = if 0 ≤ x.bv.toInt then 2 * x.bv.toInt else -2 * x.bv.toInt - 2 := by
  obtain ⟨a, ha, ea⟩ := C25_shl_partial hN x one ho 1 (by simp [numOf, eo]) fun _ => by omega
  obtain ⟨b, hb, eb⟩ := C26_wide_signed_exact h hN x last hl (n - 1) (by simp [numOf, el])
  have eu : ∀ i, i < n → (Bits.xor (s := false) (t := false) a b).bv.getLsbD i =
      if i = 0 then false else (x.bv <<< 1 ^^^ x.bv.sshiftRight (n - 1)).getLsbD i := by
    intro i hi
    rw [Bits.bv_xor, ea, BitVec.getLsbD_xor, BitVec.getLsbD_xor, show b.bv.getLsbD i = _ from eb i hi]
    by_cases h0 : i = 0
    · subst h0; rw [if_pos ⟨by omega, by omega⟩, if_pos rfl, BitVec.getLsbD_shiftLeft]; simp
    · rw [if_neg (by omega), if_neg h0]; rfl
  obtain ⟨v, hv, ev⟩ := Bits.unzigzag_ok (by omega) hN hm (Bits.xor (s := false) (t := false) a b) one ho eo
  refine ⟨_, v, by rw [Bits.zigzag, ha, res_bind_ok, hb, res_bind_ok], hv, ?_, ?_⟩
  · apply BitVec.eq_of_getLsbD_eq
    intro i hi
    rw [ev, unzigzag_bit (by omega) _ i hi, eu 0 (by omega), if_pos rfl, Bool.xor_false]
    by_cases hl : i + 1 < n
    · rw [eu _ hl, if_neg (by omega), zigzag_bit _ _ hl]
      cases x.bv.msb <;> simp [hi]
    · rw [BitVec.getLsbD_of_ge _ _ (by omega)]
      have := BitVec.msb_eq_getLsbD_last x.bv
      rw [show n - 1 = i by omega] at this
      rw [this]
      cases e : x.bv.getLsbD i
      · rw [if_neg (by decide), e]
      · rw [if_pos rfl, BitVec.getLsbD_not, e]; simp
  · have hz := zigzag_num (by omega) x.bv
    generalize x.bv <<< 1 ^^^ x.bv.sshiftRight (n - 1) = w at hz eu
    have key : (Bits.xor (s := false) (t := false) a b).bv = (w >>> 1) <<< 1 := by
      apply BitVec.eq_of_getLsbD_eq
      intro i hi
      rw [eu i hi, BitVec.getLsbD_shiftLeft, BitVec.getLsbD_ushiftRight]
      by_cases h0 : i = 0
      · subst h0; simp
      · rw [if_neg h0, show 1 + (i - 1) = i by omega]; simp [hi, show ¬ i < 1 by omega]
    have hw := w.isLt
    have e2 : (Bits.xor (s := false) (t := false) a b).bv.toNat = w.toNat / 2 * 2 := by
      rw [key, BitVec.toNat_shiftLeft, BitVec.toNat_ushiftRight, Nat.shiftRight_eq_div_pow, Nat.shiftLeft_eq, pow_one,
        Nat.mod_eq_of_lt (by omega)]
    rw [e2]
    split_ifs at hz ⊢ <;> omega

/-- **C226 fails for every negative wide value**: it is not decoded as itself, and its code is that of another value, `-1 - x`. -/
theorem C226_refuted (h : 64 < n) (hN : n ≤ 2 ^ 32) (hm : m ≤ 64) (x y : Bits n true) (hx : x.bv.msb = true) (hy : y.bv = ~~~ x.bv)
    (one last : Bits m false) (ho : one.Clean) (hl : last.Clean) (eo : one.bv.toNat = 1) (el : last.bv.toNat = n - 1) :
    ∃ u v w, x.zigzag one last = .ok u ∧ u.unzigzag one = .ok v ∧ v.bv ≠ x.bv ∧ y.zigzag one last = .ok w ∧ w.bv = u.bv := by
  obtain ⟨u, v, hu, hv, ev, eu⟩ := C226_wide_exact h hN hm x one last ho hl eo el
  obtain ⟨w, -, hw, -, -, ew⟩ := C226_wide_exact h hN hm y one last ho hl eo el
  have hmy : y.bv.msb = false := by rw [hy, BitVec.msb_not]; simp [hx]
  refine ⟨u, v, w, hu, hv, ?_, hw, ?_⟩
  · rw [ev, if_pos hx]
    intro e
    have : (~~~ x.bv).msb = x.bv.msb := by rw [e]
    rw [BitVec.msb_not, hx] at this
    simp at this
  · apply BitVec.eq_of_toNat_eq
    have hx' : x.bv.toInt < 0 := by simpa [BitVec.msb_eq_toInt] using hx
    have : y.bv.toInt = - x.bv.toInt - 1 := by
      rw [BitVec.toInt_eq_msb_cond, BitVec.toInt_eq_msb_cond, hx, hmy, if_pos rfl, if_neg (by decide), hy, BitVec.toNat_not]
      have := x.bv.isLt
      omega
    rw [if_neg (by omega)] at eu
    rw [if_pos (by omega)] at ew
    omega

/-- -3 at 12 bits has the code 5; at 70 bits it has the code 4, which is decoded as 2 -/
example : ((Bits.ofInt (-3) : Bits 12 true).zigzag (Bits.ofInt 1 : Bits 32 false) (Bits.ofInt 11)).map (·.bv.toNat) = .ok 5 ∧
    (((Bits.ofInt (-3) : Bits 12 true).zigzag (Bits.ofInt 1 : Bits 32 false) (Bits.ofInt 11)).bind fun u =>
      u.unzigzag (Bits.ofInt 1 : Bits 32 false)).map (·.bv.toInt) = .ok (-3) ∧
    (((Bits.ofInt 0 : Bits 70 true).sub (Bits.ofInt 3 : Bits 70 true)).bind fun x : Bits 70 true =>
      (x.zigzag (Bits.ofInt 1 : Bits 32 false) (Bits.ofInt 69)).bind fun u =>
        (u.unzigzag (Bits.ofInt 1 : Bits 32 false)).map fun v => (x.bv.toInt, u.bv.toNat, v.bv.toInt)) = .ok (-3, 4, 2) := by
  decide +kernel

end Verif
