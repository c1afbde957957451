import Verif.Props.MixedWidth
import Verif.Lemmas.CompareExact
import Verif.Props.Extend

/-!
# Signed operands of different widths, and operands of different signedness (C122, C123)
-/

namespace Verif

variable {n m : Nat} {s t : Bool}

theorem ofInt_numOf (b : BitVec n) : BitVec.ofInt n (numOf s b) = b := by
  rw [numOf]; split_ifs
  · exact BitVec.ofInt_toInt
  · rw [BitVec.ofInt_natCast, BitVec.ofNat_toNat, BitVec.setWidth_eq]

/-- the number that the extension of an operand to `k` bits denotes: the code extends wide
signed values with ones -/
def extNum (k : Nat) (s : Bool) (b : BitVec n) : Int :=
  if s = true ∧ 64 < n ∧ n < k then (b.toNat : Int) - 2 ^ n else numOf s b

theorem Bits.bv_extend_num {k : Nat} (hn : 0 < n) (h : n ≤ k) {x : Bits n s} (hx : x.Clean) :
    (x.extend k).bv = BitVec.ofInt k (extNum k s x.bv) := by
  rw [extNum]
  split_ifs with hs
  · obtain ⟨rfl, h1, h2⟩ := hs
    rw [← Bits.extend_wide_signed_toInt (by omega) h2 x, BitVec.ofInt_toInt]
  · rcases Nat.lt_or_ge 64 n with h64 | h64
    · rcases Nat.lt_or_ge n k with hk | hk
      · have : s = false := by cases s <;> simp_all
        subst this
        rw [Bits.bv_extend_unsigned hn h hx]
        apply BitVec.eq_of_toNat_eq
        rw [toNat_setWidth_le h]
        simp only [numOf, Bool.false_and, Bool.false_eq_true, if_false]
        rw [BitVec.ofInt_natCast, BitVec.toNat_ofNat, Nat.mod_eq_of_lt]
        exact lt_of_lt_of_le x.bv.isLt (Nat.pow_le_pow_right (by decide) h)
      · have : n = k := by omega
        subst this
        rw [Bits.extend_self, ofInt_numOf]
    · rw [← Bits.extend_native_num hn h64 h hx, ofInt_numOf]

theorem extNum_native (h : n ≤ 64) (k : Nat) (b : BitVec n) : extNum k s b = numOf s b := by
  rw [extNum, if_neg (by omega)]

theorem extNum_unsigned (k : Nat) (b : BitVec n) : extNum k false b = b.toNat := by
  rw [extNum, if_neg (by simp), numOf]; rfl

theorem toInt_of_num (h : 1 < n) {b : BitVec n} : numOf true b = b.toInt := by
  rw [numOf, if_pos (by simp; omega)]

theorem numOf_eq_toInt (hs : s = true) (h : 1 < n) {b : BitVec n} : numOf s b = b.toInt := by
  rw [hs, toInt_of_num h]

/-- the number of an extended operand, read with its sign -/
theorem Bits.extend_toInt {k : Nat} (hn : 0 < n) (h : n ≤ k) (hk : 1 < k) (h64 : n ≤ 64) {x : Bits n true}
    (hx : x.Clean) : (x.extend k).bv.toInt = numOf true x.bv := by
  rw [← toInt_of_num hk, Bits.extend_native_num hn h64 h hx]

/-! ## C122: signed operands of different widths -/

/-- **C122, sums and differences, partial.** Operands of any signedness and different widths:
the sum and the difference of their numbers modulo `2^max`. Narrower wide signed operands
must be negative, and two signed operands must not overflow at 32 and 64 bits. Missing:
narrower wide signed operands that are not negative (`C122_wide_exact`, `C122_wide_refuted`),
and the overflows (undefined behaviour, `C122_overflow`). -/
theorem C122_add_sub_partial (hn : 0 < n) (hm : 0 < m) (h1 : 1 < max n m) (x : Bits n s) (y : Bits m t)
    (hx : x.Clean) (hy : y.Clean) (hxs : s = true → 64 < n → n < m → x.bv.toInt < 0)
    (hys : t = true → 64 < m → m < n → y.bv.toInt < 0) :
    ((s = true → t = true → max n m = 32 ∨ max n m = 64 →
        -2 ^ (max n m - 1) ≤ numOf s x.bv + numOf t y.bv ∧ numOf s x.bv + numOf t y.bv < 2 ^ (max n m - 1)) →
      ∃ z, x.addMix y = .ok z ∧ z.bv = BitVec.ofInt (max n m) (numOf s x.bv + numOf t y.bv)) ∧
    ((s = true → t = true → max n m = 32 ∨ max n m = 64 →
        -2 ^ (max n m - 1) ≤ numOf s x.bv - numOf t y.bv ∧ numOf s x.bv - numOf t y.bv < 2 ^ (max n m - 1)) →
      ∃ z, x.subMix y = .ok z ∧ z.bv = BitVec.ofInt (max n m) (numOf s x.bv - numOf t y.bv)) := by
  have neg : ∀ {j : Nat} (b : BitVec j), 64 < j → b.toInt < 0 → (b.toNat : Int) - 2 ^ j = b.toInt := by
    intro j b _ hb
    rw [BitVec.toInt_eq_toNat_cond] at hb ⊢
    split_ifs at hb ⊢ with hc
    · omega
    · push_cast; rfl
  have ex : extNum (max n m) s x.bv = numOf s x.bv := by
    rw [extNum]; split_ifs with hc
    · rw [neg _ hc.2.1 (hxs hc.1 hc.2.1 (by omega)), numOf_eq_toInt hc.1 (by omega)]
    · rfl
  have ey : extNum (max n m) t y.bv = numOf t y.bv := by
    rw [extNum]; split_ifs with hc
    · rw [neg _ hc.2.1 (hys hc.1 hc.2.1 (by omega)), numOf_eq_toInt hc.1 (by omega)]
    · rfl
  have bx := Bits.bv_extend_num hn (Nat.le_max_left n m) hx
  have bY := Bits.bv_extend_num hm (Nat.le_max_right n m) hy
  rw [ex] at bx
  rw [ey] at bY
  constructor
  · intro ho
    obtain ⟨z, hz, e⟩ := C28_add_partial h1 (x.extend (max n m)) (y.extend (max n m)) (by
      intro hs ht h16 h64
      subst hs ht
      refine ⟨hx.extend_native hn (by omega) (Nat.le_max_left n m),
        hy.extend_native hm (by omega) (Nat.le_max_right n m), fun h => ?_⟩
      rw [Bits.extend_toInt hn (Nat.le_max_left n m) h1 (by omega) hx,
        Bits.extend_toInt hm (Nat.le_max_right n m) h1 (by omega) hy]
      exact ho rfl rfl h)
    exact ⟨z, hz, by rw [e, bx, bY, BitVec.ofInt_add]⟩
  · intro ho
    obtain ⟨z, hz, e⟩ := C29_sub_partial (by omega) (x.extend (max n m)) (y.extend (max n m)) (by
      intro hs ht h16 h64
      subst hs ht
      refine ⟨hx.extend_native hn (by omega) (Nat.le_max_left n m),
        hy.extend_native hm (by omega) (Nat.le_max_right n m), fun h => ?_⟩
      rw [Bits.extend_toInt hn (Nat.le_max_left n m) h1 (by omega) hx,
        Bits.extend_toInt hm (Nat.le_max_right n m) h1 (by omega) hy]
      exact ho rfl rfl h)
    exact ⟨z, hz, by rw [e, bx, bY, ofInt_sub]⟩

/-- **C122, wide results, exactly**: a narrower operand of more than 64 bits that is signed
contributes its bit pattern minus `2^n`, whatever its sign. -/
theorem C122_wide_exact (hn : 0 < n) (hm : 0 < m) (h : 64 < max n m) (x : Bits n s) (y : Bits m t)
    (hx : x.Clean) (hy : y.Clean) :
    (∃ z, x.addMix y = .ok z ∧ z.bv = BitVec.ofInt (max n m)
      ((if s = true ∧ 64 < n ∧ n < m then (x.bv.toNat : Int) - 2 ^ n else numOf s x.bv) +
        if t = true ∧ 64 < m ∧ m < n then (y.bv.toNat : Int) - 2 ^ m else numOf t y.bv)) ∧
    (∃ z, x.subMix y = .ok z ∧ z.bv = BitVec.ofInt (max n m)
      ((if s = true ∧ 64 < n ∧ n < m then (x.bv.toNat : Int) - 2 ^ n else numOf s x.bv) -
        if t = true ∧ 64 < m ∧ m < n then (y.bv.toNat : Int) - 2 ^ m else numOf t y.bv)) := by
  have bx := Bits.bv_extend_num hn (Nat.le_max_left n m) hx
  have bY := Bits.bv_extend_num hm (Nat.le_max_right n m) hy
  have ex : extNum (max n m) s x.bv =
      if s = true ∧ 64 < n ∧ n < m then (x.bv.toNat : Int) - 2 ^ n else numOf s x.bv := by
    rw [extNum]; exact if_congr (and_congr_right fun _ => and_congr_right fun _ => by rw [lt_max_iff]; omega) rfl rfl
  have ey : extNum (max n m) t y.bv =
      if t = true ∧ 64 < m ∧ m < n then (y.bv.toNat : Int) - 2 ^ m else numOf t y.bv := by
    rw [extNum]; exact if_congr (and_congr_right fun _ => and_congr_right fun _ => by rw [lt_max_iff]; omega) rfl rfl
  rw [← ex, ← ey]
  obtain ⟨z, hz, e⟩ := C28_add_partial (by omega) (x.extend (max n m)) (y.extend (max n m)) (by omega)
  obtain ⟨w, hw, e'⟩ := C29_sub_partial (by omega) (x.extend (max n m)) (y.extend (max n m)) (by omega)
  exact ⟨⟨z, hz, by rw [e, bx, bY, BitVec.ofInt_add]⟩, ⟨w, hw, by rw [e', bx, bY, ofInt_sub]⟩⟩

theorem ofInt_ne_of {k : Nat} {a b d : Int} (h : a = b + d) (hd : 0 < d ∧ d < 2 ^ k) :
    BitVec.ofInt k a ≠ BitVec.ofInt k b := by
  intro e
  have e' := congrArg (fun v : BitVec k => (v.toNat : Int)) e
  simp only [BitVec.toNat_ofInt] at e'
  have p : (0 : Int) < 2 ^ k := by positivity
  have q : ((2 ^ k : Nat) : Int) = 2 ^ k := by push_cast; rfl
  rw [q, Int.toNat_of_nonneg (Int.emod_nonneg _ (by omega)), Int.toNat_of_nonneg (Int.emod_nonneg _ (by omega))] at e'
  have hdvd : (2 : Int) ^ k ∣ a - b := Int.dvd_of_emod_eq_zero (by
    rw [Int.sub_emod, e', sub_self]; simp)
  rw [h, show b + d - b = d by ring] at hdvd
  have := Int.le_of_dvd hd.1 hdvd
  omega

/-- **C122 is false for every pair of wide widths**: a narrower signed value that is not
negative gives a wrong sum with every other value. -/
theorem C122_wide_refuted (h : 64 < n) (hnm : n < m) (x : Bits n true) (y : Bits m true)
    (hx : x.Clean) (hy : y.Clean) (hpos : 0 ≤ x.bv.toInt) :
    ∃ z, x.addMix y = .ok z ∧ z.bv ≠ BitVec.ofInt (max n m) (x.bv.toInt + y.bv.toInt) := by
  obtain ⟨⟨z, hz, e⟩, -⟩ := C122_wide_exact (by omega) (by omega) (by omega) x y hx hy
  refine ⟨z, hz, ?_⟩
  rw [e, if_pos ⟨rfl, h, hnm⟩, if_neg (by omega), toInt_of_num (by omega)]
  have ei : x.bv.toInt = x.bv.toNat := by
    rw [BitVec.toInt_eq_toNat_cond] at hpos ⊢
    have := x.bv.isLt
    split_ifs at hpos ⊢ with hc
    · rfl
    · push_cast at hpos; have : (x.bv.toNat : Int) < 2 ^ n := by exact_mod_cast this
      omega
  refine (ofInt_ne_of (d := 2 ^ n) ?_ ⟨by positivity, ?_⟩).symm
  · rw [ei]; ring
  · exact pow_lt_pow_right₀ (by decide) (by omega)

/-- **C122, the overflows**: two signed native operands of different widths, the wider one of
32 or 64 bits; a sum that is not representable is undefined behaviour. -/
theorem C122_overflow (hn : 0 < n) (hm : 0 < m) (h : max n m = 32 ∨ max n m = 64) (x : Bits n true) (y : Bits m true)
    (hx : x.Clean) (hy : y.Clean) :
    (numOf true x.bv + numOf true y.bv < -2 ^ (max n m - 1) ∨
      2 ^ (max n m - 1) ≤ numOf true x.bv + numOf true y.bv → x.addMix y = .error .overflow) ∧
    (numOf true x.bv - numOf true y.bv < -2 ^ (max n m - 1) ∨
      2 ^ (max n m - 1) ≤ numOf true x.bv - numOf true y.bv → x.subMix y = .error .overflow) := by
  have ex := Bits.extend_toInt hn (Nat.le_max_left n m) (by omega) (by omega) hx
  have ey := Bits.extend_toInt hm (Nat.le_max_right n m) (by omega) (by omega) hy
  have cx := hx.extend_native hn (by omega) (Nat.le_max_left n m)
  have cy := hy.extend_native hm (by omega) (Nat.le_max_right n m)
  constructor
  · intro ho; exact C28_signed_overflow h _ _ cx cy (by rw [ex, ey]; exact ho)
  · intro ho; exact C29_signed_overflow h _ _ cx cy (by rw [ex, ey]; exact ho)

/-- **C122, products, partial**: signed native operands whose product fits the type in which
C++ multiplies. Missing: the other native ones (`C122_mul_overflow`) and the wide ones
(`C122_mul_wide_refuted`). -/
theorem C122_mul_partial (hn : 0 < n) (hm : 0 < m) (h1 : 1 < max n m) (h : max n m ≤ 64) (x : Bits n true)
    (y : Bits m true) (hx : x.Clean) (hy : y.Clean)
    (ho : 16 < max n m → -2 ^ (if max n m ≤ 32 then 31 else 63) ≤ numOf true x.bv * numOf true y.bv ∧
      numOf true x.bv * numOf true y.bv < 2 ^ (if max n m ≤ 32 then 31 else 63)) :
    ∃ z, x.mulMix y = .ok z ∧ z.bv = BitVec.ofInt (max n m) (numOf true x.bv * numOf true y.bv) := by
  have ex := Bits.extend_toInt hn (Nat.le_max_left n m) (by omega) (by omega) hx
  have ey := Bits.extend_toInt hm (Nat.le_max_right n m) (by omega) (by omega) hy
  have cx := hx.extend_native hn (by omega) (Nat.le_max_left n m)
  have cy := hy.extend_native hm (by omega) (Nat.le_max_right n m)
  obtain ⟨z, hz, e⟩ := C30_mul_partial (by omega) (x.extend (max n m)) (y.extend (max n m)) (by simp)
    (fun _ _ h16 _ => ⟨cx, cy, by rw [ex, ey]; exact ho h16⟩) (by omega)
  refine ⟨z, hz, ?_⟩
  rw [e, ← ex, ← ey, BitVec.ofInt_mul, BitVec.ofInt_toInt, BitVec.ofInt_toInt]

/-- **C122, products that do not fit**: undefined behaviour. -/
theorem C122_mul_overflow (hn : 0 < n) (hm : 0 < m) (h16 : 16 < max n m) (h : max n m ≤ 64) (x : Bits n true)
    (y : Bits m true) (hx : x.Clean) (hy : y.Clean)
    (ho : numOf true x.bv * numOf true y.bv < -2 ^ (if max n m ≤ 32 then 31 else 63) ∨
      2 ^ (if max n m ≤ 32 then 31 else 63) ≤ numOf true x.bv * numOf true y.bv) :
    x.mulMix y = .error .overflow := by
  have ex := Bits.extend_toInt hn (Nat.le_max_left n m) (by omega) (by omega) hx
  have ey := Bits.extend_toInt hm (Nat.le_max_right n m) (by omega) (by omega) hy
  exact C30_signed_overflow h16 h _ _ (hx.extend_native hn (by omega) (Nat.le_max_left n m))
    (hy.extend_native hm (by omega) (Nat.le_max_right n m)) (by rw [ex, ey]; exact ho)

theorem Bits.neg_extend_msb {k : Nat} (hn : 0 < n) (h : n ≤ 64) (hk : 64 < k) {x : Bits n true} (hx : x.Clean)
    (hneg : numOf true x.bv < 0) (i : Nat) (h64 : 64 ≤ i) (hi : i < k) : (x.extend k).bv.getLsbD i = true := by
  have e := Bits.extend_toInt hn (by omega : n ≤ k) (by omega) h hx
  have h1 : 1 < n := by
    by_contra hc
    rw [numOf, if_neg (by simp; omega)] at hneg
    omega
  have lo : -(2 : Int) ^ 63 ≤ numOf true x.bv := by
    have := numOf_bounds (s := true) hn x.bv
    simp only [Bool.true_and, show ¬ n ≤ 1 by omega, decide_false, Bool.not_false, if_true] at this
    have p : (2 : Int) ^ (n - 1) ≤ 2 ^ 63 := Bits.pow_mono (by omega)
    omega
  have e2 : (x.extend k).bv = BitVec.ofInt k (numOf true x.bv) := by
    rw [Bits.bv_extend_num hn (by omega) hx, extNum_native h]
  rw [e2, getLsbD_ofInt, decide_eq_true hi, Bool.true_and]
  have p : (2 : Int) ^ 63 ≤ 2 ^ i := Bits.pow_mono (by omega)
  have q : numOf true x.bv / 2 ^ i = -1 := by
    apply le_antisymm
    · have := (Int.ediv_lt_iff_lt_mul (a := numOf true x.bv) (b := 0) (c := 2 ^ i) (by positivity)).2 (by omega)
      omega
    · exact (Int.le_ediv_iff_mul_le (by positivity)).2 (by omega)
  rw [q]; decide

/-- **C122 is false for every product of a negative native operand with a non-zero wide
one**: it writes outside the array. -/
theorem C122_mul_wide_refuted (hn : 0 < n) (h : n ≤ 64) (hm : 64 < m) (x : Bits n true) (y : Bits m t)
    (hx : x.Clean) (hy : y.Clean) (hneg : numOf true x.bv < 0) (hy0 : y.bv ≠ 0) :
    x.mulMix y = .error .oob := by
  have hb := Bits.neg_extend_msb hn h (by omega : 64 < max n m) hx hneg
  have cx := hx.extend_native hn h (Nat.le_max_left n m)
  have hmax : max n m = m := by omega
  have ey : ∀ k, k = m → (y.extend k).Clean ∧ ∀ i, (y.extend k).bv.getLsbD i = y.bv.getLsbD i := by
    rintro k rfl; rw [Bits.extend_self]; exact ⟨hy, fun _ => rfl⟩
  obtain ⟨j, hj⟩ : ∃ j, y.bv.getLsbD j = true := by
    by_contra hc
    push Not at hc
    exact hy0 (BitVec.eq_of_getLsbD_eq (fun i _ => by
      have := hc i; simpa using this))
  refine (((C30_wide_exact (by omega) (x.extend (max n m)) (y.extend (max n m)) cx (ey _ hmax).1)).2 ?_).1 ?_
  · rintro ⟨hl, -⟩
    have := hl 64 (by omega) (by omega)
    rw [hb 64 (by omega) (by omega)] at this; cases this
  · refine ⟨max n m - 1, j, hb _ (by omega) (by omega), by rw [(ey _ hmax).2]; exact hj, by omega⟩

/-- **C30 is false for every negative signed wide factor**: the product with any non-zero
value writes outside the array. -/
theorem C30_wide_negative_oob (h : 64 < n) (x : Bits n true) (y : Bits n t) (hx : x.Clean) (hy : y.Clean)
    (hneg : x.bv.toInt < 0) (hy0 : y.bv ≠ 0) (hl : ¬ (LowOnly x.bv ∧ LowOnly y.bv)) :
    x.mul y = .error .oob := by
  obtain ⟨j, hj⟩ : ∃ j, y.bv.getLsbD j = true := by
    by_contra hc
    push Not at hc
    exact hy0 (BitVec.eq_of_getLsbD_eq (fun i _ => by
      have := hc i; simpa using this))
  refine ((C30_wide_exact h x y hx hy).2 hl).1 ⟨n - 1, j, ?_, hj, by omega⟩
  rw [← BitVec.msb_eq_getLsbD_last, BitVec.msb_eq_toInt]; simpa using hneg

/-- **C122, quotients and remainders, partial**: signed native operands, a non-zero divisor,
not the most negative number by -1 at 32 and 64 bits. Missing: that case, which C34 shows to be undefined
for equal widths, and wide signed division, which does not compile. -/
theorem C122_div_partial (hn : 0 < n) (hm : 0 < m) (h1 : 1 < max n m) (h : max n m ≤ 64) (x : Bits n true)
    (y : Bits m true) (hx : x.Clean) (hy : y.Clean) (hy0 : numOf true y.bv ≠ 0)
    (ho : ¬ (numOf true x.bv = -2 ^ (max n m - 1) ∧ numOf true y.bv = -1 ∧ (max n m = 32 ∨ max n m = 64))) :
    (∃ q, x.divMix y = .ok q ∧ q.bv = BitVec.ofInt (max n m) ((numOf true x.bv).tdiv (numOf true y.bv))) ∧
    (∃ r, x.modMix y = .ok r ∧ r.bv.toInt = (numOf true x.bv).tmod (numOf true y.bv)) := by
  have ex := Bits.extend_toInt hn (Nat.le_max_left n m) (by omega) (by omega) hx
  have ey := Bits.extend_toInt hm (Nat.le_max_right n m) (by omega) (by omega) hy
  have cx := hx.extend_native hn (by omega) (Nat.le_max_left n m)
  have cy := hy.extend_native hm (by omega) (Nat.le_max_right n m)
  have key := C34_div_partial h h1 (x.extend (max n m)) (y.extend (max n m)) cx cy
    (by intro e; rw [e] at ey; simp at ey; omega) (by rw [ex, ey]; exact ho)
  rw [ex, ey] at key
  obtain ⟨⟨q, hq, e, -⟩, r, hr, e'⟩ := key
  exact ⟨⟨q, hq, e⟩, r, hr, e'⟩

example : ((Bits.ofInt (-3) : Bits 7 true).addMix (Bits.ofInt 100 : Bits 20 true)).map (·.bv.toInt) = .ok 97 ∧
    ((Bits.ofInt (-3) : Bits 7 true).mulMix (Bits.ofInt 100 : Bits 20 true)).map (·.bv.toInt) = .ok (-300) ∧
    ((Bits.ofInt (-100) : Bits 20 true).divMix (Bits.ofInt (-3) : Bits 7 true)).map (·.bv.toInt) = .ok 33 ∧
    ((Bits.ofInt (-100) : Bits 20 true).modMix (Bits.ofInt (-3) : Bits 7 true)).map (·.bv.toInt) = .ok (-1) := by
  decide +kernel
example : ((Bits.ofInt 5 : Bits 70 true).addMix (Bits.ofInt 1 : Bits 100 true)).map (·.bv.toInt) =
    .ok (6 - 2 ^ 70) := by decide +kernel
example : (Bits.ofInt (-1) : Bits 8 true).mulMix (Bits.ofInt 1 : Bits 100 true) = .error .oob := by
  decide +kernel

/-! ## C123: operands of different signedness -/

theorem Bits.mix_arith (hn : 0 < n) (hm : 0 < m) (h1 : 1 < max n m) (hst : (s && t) = false)
    {x : Bits n s} {y : Bits m t} (hx : x.Clean) (hy : y.Clean) :
    (∃ z, x.addMix y = .ok z ∧
      z.bv = BitVec.ofInt (max n m) (extNum (max n m) s x.bv + extNum (max n m) t y.bv)) ∧
    (∃ z, x.subMix y = .ok z ∧
      z.bv = BitVec.ofInt (max n m) (extNum (max n m) s x.bv - extNum (max n m) t y.bv)) := by
  have bx := Bits.bv_extend_num hn (Nat.le_max_left n m) hx
  have bY := Bits.bv_extend_num hm (Nat.le_max_right n m) hy
  have hc : s = true → t = true → False := by rintro rfl rfl; cases hst
  obtain ⟨z, hz, e⟩ := C28_add_partial h1 (x.extend (max n m)) (y.extend (max n m))
    (fun a b => (hc a b).elim)
  obtain ⟨w, hw, e'⟩ := C29_sub_partial (by omega) (x.extend (max n m)) (y.extend (max n m))
    (fun a b => (hc a b).elim)
  exact ⟨⟨z, hz, by rw [e, bx, bY, BitVec.ofInt_add]⟩, ⟨w, hw, by rw [e', bx, bY, ofInt_sub]⟩⟩

theorem numOf_or (hn : 0 < n) (b : BitVec n) :
    (0 ≤ numOf true b ∧ numOf true b = b.toNat) ∨ (numOf true b < 0 ∧ numOf true b = b.toNat - 2 ^ n) := by
  have hl := b.isLt
  have hl' : (b.toNat : Int) < 2 ^ n := by exact_mod_cast hl
  rw [numOf]; split_ifs
  · rw [BitVec.toInt_eq_toNat_cond]; split_ifs
    · exact Or.inl ⟨by omega, rfl⟩
    · right; push_cast; exact ⟨by omega, rfl⟩
  · exact Or.inl ⟨by omega, rfl⟩

theorem extNum_or (hn : 0 < n) (k : Nat) (b : BitVec n) :
    ((n ≤ 64 ∨ k ≤ n) ∧ 0 ≤ numOf true b → extNum k true b = b.toNat) ∧
    (¬ ((n ≤ 64 ∨ k ≤ n) ∧ 0 ≤ numOf true b) → extNum k true b = b.toNat - 2 ^ n) := by
  rw [extNum]
  rcases numOf_or hn b with ⟨h1, h2⟩ | ⟨h1, h2⟩
  · constructor
    · intro h; rw [if_neg (by omega), h2]
    · intro h; rw [if_pos ⟨rfl, by omega, by omega⟩]
  · constructor
    · intro h; omega
    · intro _; split_ifs
      · rfl
      · exact h2

theorem ofInt_sub_pow (k : Nat) (a : Int) : BitVec.ofInt k (a - 2 ^ k) = BitVec.ofInt k a := by
  apply BitVec.eq_of_toNat_eq
  simp only [BitVec.toNat_ofInt]
  have q : ((2 ^ k : Nat) : Int) = 2 ^ k := by push_cast; rfl
  rw [q]; congr 1; simp

/-- **C123, sums and differences, exactly.** A signed and an unsigned operand: the result is
that of the bit patterns read as unsigned numbers if and only if the signed operand is not
the narrower one, or is a native number that is not negative. -/
theorem C123_add_sub_iff (hn : 0 < n) (hm : 0 < m) (h1 : 1 < max n m) (x : Bits n true) (y : Bits m false)
    (hx : x.Clean) (hy : y.Clean) :
    (∃ z, x.addMix y = .ok z ∧
      (z.bv = x.bv.setWidth (max n m) + y.bv.setWidth (max n m) ↔
        m ≤ n ∨ n ≤ 64 ∧ 0 ≤ numOf true x.bv)) ∧
    (∃ z, x.subMix y = .ok z ∧
      (z.bv = x.bv.setWidth (max n m) - y.bv.setWidth (max n m) ↔
        m ≤ n ∨ n ≤ 64 ∧ 0 ≤ numOf true x.bv)) := by
  obtain ⟨⟨z, hz, e⟩, ⟨w, hw, e'⟩⟩ := Bits.mix_arith hn hm h1 rfl hx hy
  have ux : x.bv.setWidth (max n m) = BitVec.ofInt (max n m) (x.bv.toNat : Int) := by
    rw [BitVec.ofInt_natCast]; apply BitVec.eq_of_toNat_eq; simp
  have uy : y.bv.setWidth (max n m) = BitVec.ofInt (max n m) (y.bv.toNat : Int) := by
    rw [BitVec.ofInt_natCast]; apply BitVec.eq_of_toNat_eq; simp
  obtain ⟨o1, o2⟩ := extNum_or hn (max n m) x.bv
  rw [extNum_unsigned] at e e'
  refine ⟨⟨z, hz, ?_⟩, ⟨w, hw, ?_⟩⟩
  · rw [e, ux, uy, ← BitVec.ofInt_add]
    by_cases hc : (n ≤ 64 ∨ max n m ≤ n) ∧ 0 ≤ numOf true x.bv
    · rw [o1 hc]; refine ⟨fun _ => ?_, fun _ => rfl⟩
      have : max n m ≤ n → m ≤ n := by omega
      tauto
    · rw [o2 hc]
      by_cases hmn : m ≤ n
      · refine ⟨fun _ => Or.inl hmn, fun _ => ?_⟩
        have e1 : (2 : Int) ^ n = 2 ^ max n m := by rw [max_eq_left hmn]
        rw [e1, show ((x.bv.toNat : Int) - 2 ^ max n m + y.bv.toNat) = (x.bv.toNat + y.bv.toNat) - 2 ^ max n m by ring,
          ofInt_sub_pow]
      · constructor
        · intro hh
          exact absurd hh.symm (ofInt_ne_of (d := 2 ^ n) (by ring)
            ⟨by positivity, pow_lt_pow_right₀ (by decide) (by omega)⟩)
        · intro hh; exfalso; apply hc
          rcases hh with hh | hh
          · omega
          · exact ⟨Or.inl hh.1, hh.2⟩
  · rw [e', ux, uy, ← ofInt_sub]
    by_cases hc : (n ≤ 64 ∨ max n m ≤ n) ∧ 0 ≤ numOf true x.bv
    · rw [o1 hc]; refine ⟨fun _ => ?_, fun _ => rfl⟩
      have : max n m ≤ n → m ≤ n := by omega
      tauto
    · rw [o2 hc]
      by_cases hmn : m ≤ n
      · refine ⟨fun _ => Or.inl hmn, fun _ => ?_⟩
        have e1 : (2 : Int) ^ n = 2 ^ max n m := by rw [max_eq_left hmn]
        rw [e1, show ((x.bv.toNat : Int) - 2 ^ max n m - y.bv.toNat) = (x.bv.toNat - y.bv.toNat) - 2 ^ max n m by ring,
          ofInt_sub_pow]
      · constructor
        · intro hh
          exact absurd hh.symm (ofInt_ne_of (d := 2 ^ n) (by ring)
            ⟨by positivity, pow_lt_pow_right₀ (by decide) (by omega)⟩)
        · intro hh; exfalso; apply hc
          rcases hh with hh | hh
          · omega
          · exact ⟨Or.inl hh.1, hh.2⟩

/-- **C123, sums and differences, exactly**, the signed operand on the right. -/
theorem C123_add_sub_iff_right (hn : 0 < n) (hm : 0 < m) (h1 : 1 < max n m) (x : Bits n false) (y : Bits m true)
    (hx : x.Clean) (hy : y.Clean) :
    (∃ z, x.addMix y = .ok z ∧
      (z.bv = x.bv.setWidth (max n m) + y.bv.setWidth (max n m) ↔
        n ≤ m ∨ m ≤ 64 ∧ 0 ≤ numOf true y.bv)) ∧
    (∃ z, x.subMix y = .ok z ∧
      (z.bv = x.bv.setWidth (max n m) - y.bv.setWidth (max n m) ↔
        n ≤ m ∨ m ≤ 64 ∧ 0 ≤ numOf true y.bv)) := by
  obtain ⟨⟨z, hz, e⟩, ⟨w, hw, e'⟩⟩ := Bits.mix_arith hn hm h1 rfl hx hy
  have ux : x.bv.setWidth (max n m) = BitVec.ofInt (max n m) (x.bv.toNat : Int) := by
    rw [BitVec.ofInt_natCast]; apply BitVec.eq_of_toNat_eq; simp
  have uy : y.bv.setWidth (max n m) = BitVec.ofInt (max n m) (y.bv.toNat : Int) := by
    rw [BitVec.ofInt_natCast]; apply BitVec.eq_of_toNat_eq; simp
  obtain ⟨o1, o2⟩ := extNum_or hm (max n m) y.bv
  rw [extNum_unsigned] at e e'
  have d : ¬ n ≤ m → (0 : Int) < 2 ^ m ∧ (2 : Int) ^ m < 2 ^ max n m := fun hc =>
    ⟨by positivity, pow_lt_pow_right₀ (by decide) (by omega)⟩
  refine ⟨⟨z, hz, ?_⟩, ⟨w, hw, ?_⟩⟩
  · rw [e, ux, uy, ← BitVec.ofInt_add]
    by_cases hc : (m ≤ 64 ∨ max n m ≤ m) ∧ 0 ≤ numOf true y.bv
    · rw [o1 hc]; refine ⟨fun _ => ?_, fun _ => rfl⟩
      have : max n m ≤ m → n ≤ m := by omega
      tauto
    · rw [o2 hc]
      by_cases hmn : n ≤ m
      · refine ⟨fun _ => Or.inl hmn, fun _ => ?_⟩
        have e1 : (2 : Int) ^ m = 2 ^ max n m := by rw [max_eq_right hmn]
        rw [e1, show ((x.bv.toNat : Int) + (y.bv.toNat - 2 ^ max n m)) = (x.bv.toNat + y.bv.toNat) - 2 ^ max n m by ring,
          ofInt_sub_pow]
      · constructor
        · intro hh
          exact absurd hh.symm (ofInt_ne_of (d := 2 ^ m) (by ring) (d hmn))
        · intro hh; exfalso; apply hc
          rcases hh with hh | hh
          · omega
          · exact ⟨Or.inl hh.1, hh.2⟩
  · rw [e', ux, uy, ← ofInt_sub]
    by_cases hc : (m ≤ 64 ∨ max n m ≤ m) ∧ 0 ≤ numOf true y.bv
    · rw [o1 hc]; refine ⟨fun _ => ?_, fun _ => rfl⟩
      have : max n m ≤ m → n ≤ m := by omega
      tauto
    · rw [o2 hc]
      by_cases hmn : n ≤ m
      · refine ⟨fun _ => Or.inl hmn, fun _ => ?_⟩
        have e1 : (2 : Int) ^ m = 2 ^ max n m := by rw [max_eq_right hmn]
        rw [e1, ← ofInt_sub_pow (max n m) (↑x.bv.toNat - (↑y.bv.toNat - 2 ^ max n m))]
        congr 1; ring
      · constructor
        · intro hh
          exact absurd hh (ofInt_ne_of (d := 2 ^ m) (by ring) (d hmn))
        · intro hh; exfalso; apply hc
          rcases hh with hh | hh
          · omega
          · exact ⟨Or.inl hh.1, hh.2⟩

/-- the number with which C++ divides when one of two holders of the same size is unsigned:
`int` up to 16 bits, reduced modulo the holder above -/
def divNum (n : Nat) (v : Int) : Int := if n ≤ 16 then v else v % 2 ^ hw n

theorem Bits.usual_conv_divNum (h1 : 1 < n) (h : n ≤ 64) (hst : (s && t) = false) {x : Bits n s} (hx : x.Clean) :
    (CTy.usual (holderTy n s) (holderTy n t)).conv x.nv.v = divNum n (numOf s x.bv) ∧
    (CTy.usual (holderTy n t) (holderTy n s)).conv x.nv.v = divNum n (numOf s x.bv) := by
  have e := (Bits.clean_native h x).1 hx
  rw [divNum]
  by_cases h16 : n ≤ 16
  · rw [if_pos h16]
    have h32 : hw n < 32 := (hw_lt_iff n).2 h16
    have k := Bits.usual_conv_nv (t := t) h x (Or.inl h32)
    refine ⟨by rw [k, e], ?_⟩
    rw [Verif.usual_holder, if_pos h32] at k ⊢
    rw [k, e]
  · rw [if_neg h16]
    have h32 : ¬ hw n < 32 := fun hc => h16 ((hw_lt_iff n).1 hc)
    rw [Verif.usual_holder n s t, Verif.usual_holder n t s, Bool.and_comm t s, hst, if_neg h32, e]
    exact ⟨by simp [CTy.conv], by simp [CTy.conv]⟩

theorem divNum_bounds (h1 : 1 < n) (h : n ≤ 64) (b : BitVec n) :
    (n ≤ 16 → -2 ^ 16 < divNum n (numOf s b) ∧ divNum n (numOf s b) < 2 ^ 16) ∧
    (16 < n → 0 ≤ divNum n (numOf s b) ∧ divNum n (numOf s b) < 2 ^ hw n) := by
  rw [divNum]
  constructor
  · intro h16
    rw [if_pos h16]
    have nb := Bits.numOf_bounds (s := s) (by omega) b
    have p : (2 : Int) ^ (n - 1) ≤ 2 ^ 15 := Bits.pow_mono (by omega)
    have p' : (2 : Int) ^ n ≤ 2 ^ 16 := Bits.pow_mono (by omega)
    split_ifs at nb <;> omega
  · intro h16
    rw [if_neg (by omega)]
    exact ⟨Int.emod_nonneg _ (by positivity), Int.emod_lt_of_pos _ (by positivity)⟩

/-- **C123, quotients and remainders of equal native widths, exactly**: up to 16 bits the
numbers are divided with their signs, above that as unsigned numbers of the holder's size. -/
theorem C123_div_exact (h1 : 1 < n) (h : n ≤ 64) (hst : s ≠ t) (x : Bits n s) (y : Bits n t)
    (hx : x.Clean) (hy : y.Clean) (hy0 : y.bv ≠ 0) :
    (∃ q, x.div y = .ok q ∧
      q.bv = BitVec.ofInt n ((divNum n (numOf s x.bv)).tdiv (divNum n (numOf t y.bv)))) ∧
    (∃ r, x.mod y = .ok r ∧
      r.bv = BitVec.ofInt n ((divNum n (numOf s x.bv)).tmod (divNum n (numOf t y.bv)))) := by
  have hst' : (s && t) = false := by cases s <;> cases t <;> simp_all
  have hts' : (t && s) = false := by rw [Bool.and_comm]; exact hst'
  have cx := (Bits.usual_conv_divNum h1 h hst' hx).1
  have cy := (Bits.usual_conv_divNum (t := s) h1 h hts' hy).2
  have bx := divNum_bounds (s := s) h1 h x.bv
  have bY := divNum_bounds (s := t) h1 h y.bv
  set a := divNum n (numOf s x.bv)
  set b := divNum n (numOf t y.bv) with hb
  have b0 : b ≠ 0 := by
    intro hc
    rw [hb, divNum] at hc
    have hz : numOf t y.bv % 2 ^ n = 0 := by
      by_cases h16 : n ≤ 16
      · rw [if_pos h16] at hc; rw [hc]; simp
      · rw [if_neg h16] at hc
        have d : (2 : Int) ^ n ∣ 2 ^ hw n := pow_dvd_pow 2 (le_hw h)
        exact Int.emod_eq_zero_of_dvd (d.trans (Int.dvd_of_emod_eq_zero hc))
    apply hy0
    rw [← ofInt_numOf (s := t) y.bv]
    apply BitVec.eq_of_toNat_eq
    have q : ((2 ^ n : Nat) : Int) = 2 ^ n := by push_cast; rfl
    rw [BitVec.toNat_ofInt, q, hz]; simp
  have tv : ∀ f : Int → Int → Int, (n ≤ 16 → -2 ^ 31 ≤ f a b ∧ f a b < 2 ^ 31) →
      (16 < n → 0 ≤ f a b ∧ f a b < 2 ^ hw n) →
      TV.arith f x.nv y.nv = .ok ⟨CTy.usual (holderTy n s) (holderTy n t), f a b⟩ := by
    intro f f1 f2
    have hty : CTy.usual x.nv.ty y.nv.ty = CTy.usual (holderTy n s) (holderTy n t) := by simp
    simp only [TV.arith, hty, cx, cy]
    have hr : (CTy.usual (holderTy n s) (holderTy n t)).conv (f a b) = f a b := by
      rw [Verif.usual_holder, hst']
      by_cases h16 : n ≤ 16
      · rw [if_pos ((hw_lt_iff n).2 h16)]
        exact CTy.conv_signed_of_mem (by omega) (f1 h16).1 (f1 h16).2
      · rw [if_neg (fun hc => h16 ((hw_lt_iff n).1 hc))]
        exact CTy.conv_unsigned_of_lt (f2 (by omega)).1 (f2 (by omega)).2
    simp [hr]
  have d1 : TV.arith Int.tdiv x.nv y.nv = .ok ⟨CTy.usual (holderTy n s) (holderTy n t), a.tdiv b⟩ := by
    apply tv
    · intro h16
      have := bx.1 h16
      have hab : (a.tdiv b).natAbs ≤ a.natAbs := by
        rw [Int.natAbs_tdiv]; exact Nat.div_le_self _ _
      omega
    · intro h16
      have ha := bx.2 h16
      have hb' := bY.2 h16
      have := Bits.tdiv_nonneg_le ha.1 hb'.1
      omega
  have d2 : TV.arith Int.tmod x.nv y.nv = .ok ⟨CTy.usual (holderTy n s) (holderTy n t), a.tmod b⟩ := by
    apply tv
    · intro h16
      have := bx.1 h16
      have hab : (a.tmod b).natAbs ≤ a.natAbs := by
        rw [Int.natAbs_tmod]; exact Nat.mod_le _ _
      omega
    · intro h16
      have ha := bx.2 h16
      have hb' := bY.2 h16
      have := Bits.tmod_nonneg_le ha.1 hb'.1
      omega
  have hty : CTy.usual x.nv.ty y.nv.ty = CTy.usual (holderTy n s) (holderTy n t) := by simp
  constructor
  · refine ⟨_, by rw [Bits.div, dif_pos h, TV.div, hty, cy, if_neg b0, d1]; rfl, ?_⟩
    rw [Bits.bv_mkN h (by omega)]
  · refine ⟨_, by rw [Bits.mod, dif_pos h, TV.mod, hty, cy, if_neg b0, d1]; simp only [d2]; rfl, ?_⟩
    rw [Bits.bv_mkN h (by omega)]

/-- **C123, quotients, partial**: right when the signed operand is not negative, and always
at 32 and 64 bits. Missing: negative operands at the other widths (`C123_div_exact`,
`C123_div_refuted`). -/
theorem C123_div_partial (h1 : 1 < n) (h : n ≤ 64) (hst : s ≠ t) (x : Bits n s) (y : Bits n t)
    (hx : x.Clean) (hy : y.Clean) (hy0 : y.bv ≠ 0)
    (hok : n = 32 ∨ n = 64 ∨ 0 ≤ numOf s x.bv ∧ 0 ≤ numOf t y.bv) :
    (∃ q, x.div y = .ok q ∧ q.bv = x.bv / y.bv) ∧ (∃ r, x.mod y = .ok r ∧ r.bv = x.bv % y.bv) := by
  have key : ∀ {u : Bool} (b : BitVec n), (n = 32 ∨ n = 64 ∨ 0 ≤ numOf u b) →
      divNum n (numOf u b) = b.toNat := by
    intro u b hb
    have hl : (b.toNat : Int) < 2 ^ n := by exact_mod_cast b.isLt
    have pl : (2 : Int) ^ n ≤ 2 ^ hw n := Bits.pow_mono (le_hw h)
    have pos : numOf u b = b.toNat ∨ numOf u b < 0 ∧ numOf u b = b.toNat - 2 ^ n := by
      cases u
      · left; rfl
      · rcases numOf_or (by omega) b with hh | hh
        · exact Or.inl hh.2
        · exact Or.inr hh
    rw [divNum]
    rcases pos with e | ⟨e0, e⟩
    · rw [e]; split_ifs
      · rfl
      · exact Int.emod_eq_of_lt (by omega) (by omega)
    · have hh : n = 32 ∨ n = 64 := by omega
      have hwn : hw n = n := by rcases hh with rfl | rfl <;> rfl
      rw [if_neg (by omega), hwn, e]
      simp only [Int.sub_emod_right]
      exact Int.emod_eq_of_lt (by omega) (by omega)
  obtain ⟨⟨q, hq, eq⟩, r, hr, er⟩ := C123_div_exact h1 h hst x y hx hy hy0
  rw [key x.bv (by tauto), key y.bv (by tauto)] at eq er
  refine ⟨⟨q, hq, ?_⟩, r, hr, ?_⟩
  · rw [eq, ← Int.ofNat_tdiv, BitVec.ofInt_natCast]
    apply BitVec.eq_of_toNat_eq
    rw [BitVec.toNat_ofNat, BitVec.toNat_udiv]
    exact Nat.mod_eq_of_lt (lt_of_le_of_lt (Nat.div_le_self _ _) x.bv.isLt)
  · rw [er, ← Int.ofNat_tmod, BitVec.ofInt_natCast]
    apply BitVec.eq_of_toNat_eq
    rw [BitVec.toNat_ofNat, BitVec.toNat_umod]
    exact Nat.mod_eq_of_lt (lt_of_le_of_lt (Nat.mod_le _ _) x.bv.isLt)

/-- **C123 is false at every native width except 32 and 64** (and 1): the signed -1 divided
by the unsigned 2. -/
theorem C123_div_refuted (h1 : 1 < n) (h : n ≤ 64) (h32 : n ≠ 32) (h64 : n ≠ 64) :
    ∃ (x : Bits n true) (y : Bits n false), x.Clean ∧ y.Clean ∧ x.bv.toInt = -1 ∧ y.bv.toNat = 2 ∧
      ∃ q, x.div y = .ok q ∧ q.bv ≠ x.bv / y.bv := by
  obtain ⟨x, cx, ex⟩ := Bits.exists_clean (s := true) (BitVec.allOnes n)
  obtain ⟨y, cy, ey⟩ := Bits.exists_clean (s := false) (BitVec.ofNat n 2)
  have p2 : 2 ^ 2 ≤ 2 ^ n := Nat.pow_le_pow_right (by decide) (by omega)
  have ny : y.bv.toNat = 2 := by rw [ey, BitVec.toNat_ofNat, Nat.mod_eq_of_lt (by omega)]
  have ix : x.bv.toInt = -1 := by rw [ex, BitVec.toInt_allOnes, if_pos (by omega)]
  have nx : x.bv.toNat = 2 ^ n - 1 := by rw [ex, BitVec.toNat_allOnes]
  obtain ⟨⟨q, hq, e⟩, -⟩ := C123_div_exact h1 h (by simp) x y cx cy (by
    intro hc; rw [hc] at ny; simp at ny)
  refine ⟨x, y, cx, cy, ix, ny, q, hq, fun hc => ?_⟩
  have hn2 := congrArg BitVec.toNat hc
  rw [BitVec.toNat_udiv, nx, ny, e, toInt_of_num (by omega), ix] at hn2
  have en : numOf false y.bv = 2 := by show (y.bv.toNat : Int) = 2; rw [ny]; rfl
  rw [en] at hn2
  have half : 2 ^ n = 2 * 2 ^ (n - 1) := by rw [← Nat.pow_succ']; congr 1; omega
  have hp : 1 ≤ 2 ^ (n - 1) := Nat.one_le_two_pow
  have hp2 : 2 ≤ 2 ^ (n - 1) := by
    calc 2 = 2 ^ 1 := rfl
      _ ≤ 2 ^ (n - 1) := Nat.pow_le_pow_right (by decide) (by omega)
  by_cases h16 : n ≤ 16
  · simp only [divNum, if_pos h16] at hn2
    have : ((-1 : Int).tdiv 2) = 0 := by decide
    rw [this] at hn2
    simp at hn2
    omega
  · have hwn : n < hw n ∧ (hw n = 32 ∨ hw n = 64) := by
      have := le_hw h
      rcases hw_cases n with hh | hh | hh | hh | hh <;> omega
    simp only [divNum, if_neg h16] at hn2
    have pw : (2 : Int) ^ hw n = 2 ^ 32 ∨ (2 : Int) ^ hw n = 2 ^ 64 := by
      rcases hwn.2 with hh | hh <;> rw [hh] <;> simp
    have e1 : ((-1 : Int) % 2 ^ hw n).tdiv (2 % 2 ^ hw n) = 2 ^ (hw n - 1) - 1 := by
      rcases hwn.2 with hh | hh <;> rw [hh] <;> decide
    rw [e1] at hn2
    have e2 : BitVec.ofInt n ((2 : Int) ^ (hw n - 1) - 1) = BitVec.allOnes n := by
      have d : (2 : Int) ^ n ∣ 2 ^ (hw n - 1) := pow_dvd_pow 2 (by omega)
      apply BitVec.eq_of_toNat_eq
      have qq : ((2 ^ n : Nat) : Int) = 2 ^ n := by push_cast; rfl
      rw [BitVec.toNat_ofInt, BitVec.toNat_allOnes, qq]
      obtain ⟨c, hc⟩ := d
      rw [hc, show (2 : Int) ^ n * c - 1 = (2 ^ n - 1) + 2 ^ n * (c - 1) by ring, Int.add_mul_emod_self_left,
        Int.emod_eq_of_lt (by have : (1 : Int) ≤ 2 ^ n := by exact_mod_cast Nat.one_le_two_pow
                              omega) (by omega)]
      have : ((2 : Int) ^ n - 1) = ((2 ^ n - 1 : Nat) : Int) := by
        rw [Nat.cast_sub Nat.one_le_two_pow]; push_cast; rfl
      rw [this]; rfl
    rw [e2, BitVec.toNat_allOnes] at hn2
    omega

/-- **C123, the order of native operands, exactly**: both numbers are taken modulo `2^64`. -/
theorem C123_order_exact (hn : n ≤ 64) (hm : m ≤ 64) (hst : s ≠ t) (x : Bits n s) (y : Bits m t)
    (hx : x.Clean) (hy : y.Clean) :
    x.gt y = .ok (decide (numOf t y.bv % 2 ^ 64 < numOf s x.bv % 2 ^ 64)) ∧
    x.lt y = .ok (decide (numOf s x.bv % 2 ^ 64 < numOf t y.bv % 2 ^ 64)) ∧
    x.ge y = .ok (decide (numOf t y.bv % 2 ^ 64 ≤ numOf s x.bv % 2 ^ 64)) ∧
    x.le y = .ok (decide (numOf s x.bv % 2 ^ 64 ≤ numOf t y.bv % 2 ^ 64)) := by
  have hst' : ¬ (s && t) = true := by cases s <;> cases t <;> simp_all
  have ex := (Bits.clean_native hn x).1 hx
  have ey := (Bits.clean_native hm y).1 hy
  have c : ∀ v : Int, tU64.conv v = v % 2 ^ 64 := fun v => by simp [CTy.conv]
  have b0 : ∀ v : Int, 0 ≤ tU64.conv v ∧ tU64.conv v < 2 ^ 64 := fun v => by rw [c]; omega
  have cc : ∀ f : Int → Int → Bool, TV.cmp f (x.nv.cast tU64) (y.nv.cast tU64) =
      f (numOf s x.bv % 2 ^ 64) (numOf t y.bv % 2 ^ 64) := fun f => by
    show TV.cmp f ⟨tU64, tU64.conv x.nv.v⟩ ⟨tU64, tU64.conv y.nv.v⟩ = _
    rw [Bits.cmp_u64 f (b0 _).1 (b0 _).2 (b0 _).1 (b0 _).2, c, c, ex, ey]
  refine ⟨?_, ?_, ?_, ?_⟩
  · rw [Bits.gt, dif_pos hn, if_pos hm, Bits.cmpNat, if_neg hst', TV.gt, cc]
  · rw [Bits.lt, dif_pos hn, if_pos hm, Bits.cmpNat, if_neg hst', TV.lt, cc]
  · rw [Bits.ge, dif_pos hn, if_pos hm, Bits.cmpNat, if_neg hst', TV.ge, cc]
  · rw [Bits.le, dif_pos hn, if_pos hm, Bits.cmpNat, if_neg hst', TV.le, cc]

/-- **C123 is false for the order of every pair of native widths**: a negative number of fewer
than 64 bits is above every unsigned value of fewer than 64 bits. -/
theorem C123_order_refuted (hn : 1 < n) (hn64 : n ≤ 64) (hm : m < 64) (x : Bits n true) (y : Bits m false)
    (hx : x.Clean) (hy : y.Clean) (hneg : x.bv.toInt < 0) :
    x.gt y = .ok true := by
  rw [(C123_order_exact hn64 (by omega) (by simp) x y hx hy).1, toInt_of_num hn]
  have lo := BitVec.le_toInt x.bv
  have p : (2 : Int) ^ (n - 1) ≤ 2 ^ 63 := Bits.pow_mono (by omega)
  have q : (y.bv.toNat : Int) < 2 ^ m := by exact_mod_cast y.bv.isLt
  have q' : (2 : Int) ^ m ≤ 2 ^ 63 := Bits.pow_mono (by omega)
  have en : numOf false y.bv = y.bv.toNat := rfl
  rw [en]
  congr 1
  apply decide_eq_true
  omega

example : ((Bits.ofInt (-1) : Bits 4 true).addMix (Bits.ofInt 1 : Bits 8 false)).map (·.bv.toNat) = .ok 0 ∧
    ((Bits.ofInt (-1) : Bits 4 true).addMix (Bits.ofInt 1 : Bits 3 false)).map (·.bv.toNat) = .ok 0 ∧
    ((Bits.ofInt 5 : Bits 4 true).addMix (Bits.ofInt 1 : Bits 80 false)).map (·.bv.toNat) = .ok 6 ∧
    ((Bits.ofInt (-1) : Bits 8 true).div (Bits.ofInt 2 : Bits 8 false)).map (·.bv.toNat) = .ok 0 ∧
    ((Bits.ofInt (-1) : Bits 20 true).div (Bits.ofInt 2 : Bits 20 false)).map (·.bv.toNat) = .ok (2 ^ 20 - 1) ∧
    ((Bits.ofInt (-1) : Bits 32 true).div (Bits.ofInt 2 : Bits 32 false)).map (·.bv.toNat) = .ok (2 ^ 31 - 1) ∧
    ((Bits.ofInt 100 : Bits 8 true).mod (Bits.ofInt 7 : Bits 8 false)).map (·.bv.toNat) = .ok 2 := by decide +kernel

end Verif
