import Verif.Model.BigMixed
import Verif.Lemmas.Arith
import Verif.Props.Truth
import Verif.Show

/-!
# `big_num` operators on operands of different sizes (C110), `big_num::concat` (C112) and
compound assignment of `big_num` (C113)
-/

namespace Verif
variable {n m : Nat} {s t : Bool}

instance (x : Big n s) : Decidable x.Clean := inferInstanceAs (Decidable (_ < _))

namespace Big

theorem extend_same (x : Big n s) : x.extend n = x := by
  apply ext_raw
  intro i _
  cases s with
  | false => exact raw_extend_unsigned x le_rfl i
  | true => rw [raw_extend_signed x le_rfl i, if_neg (by omega)]

/-- extension of an unsigned value, or to the same size -/
theorem raw_extend_ok (h : n ≤ m) (hs : s = true → m = n) (x : Big n s) (i : Nat) :
    (x.extend m).raw i = x.raw i := by
  cases s with
  | false => exact raw_extend_unsigned x h i
  | true =>
    have e := hs rfl
    rw [raw_extend_signed x h i, if_neg (by omega)]

theorem clean_extend_ok (h : n ≤ m) (hs : s = true → m = n) {x : Big n s} (hx : x.Clean) :
    (x.extend m).Clean := by
  rw [clean_iff] at hx ⊢
  intro i hi
  rw [raw_extend_ok h hs, hx i (by omega)]

theorem bv_extend_ok (h : n ≤ m) (hs : s = true → m = n) {x : Big n s} (hx : x.Clean) :
    (x.extend m).bv = x.bv.setWidth m := by
  apply BitVec.eq_of_getLsbD_eq
  intro i hi
  rw [getLsbD_bv, get_eq, raw_extend_ok h hs, BitVec.getLsbD_setWidth, getLsbD_bv, hx.get]

theorem bv_and (hn : 0 < n) (x : Big n s) (y : Big n t) : (x.and y).bv = x.bv &&& y.bv := by
  apply BitVec.eq_of_getLsbD_eq
  intro i hi
  rw [getLsbD_bv, get_and hn, BitVec.getLsbD_and, getLsbD_bv, getLsbD_bv]

theorem bv_or (x : Big n s) (y : Big n t) : (x.or y).bv = x.bv ||| y.bv := by
  apply BitVec.eq_of_getLsbD_eq
  intro i hi
  rw [getLsbD_bv, get_or, BitVec.getLsbD_or, getLsbD_bv, getLsbD_bv]

theorem bv_xor (x : Big n s) (y : Big n t) : (x.xor y).bv = x.bv ^^^ y.bv := by
  apply BitVec.eq_of_getLsbD_eq
  intro i hi
  rw [getLsbD_bv, get_xor, BitVec.getLsbD_xor, getLsbD_bv, getLsbD_bv]

end Big

/-! ## C110 -/

section C110
variable (x : Big n s) (y : Big m t)

/-- **C110, bitwise operators and sums, partial.** On canonical operands of which the narrower
one is unsigned or negative the result has the larger size and is the operator applied to the
extended values (sign extended for signed operands); `& | ^` give canonical results. Missing:
narrower signed operands that are not negative (`C110_signed`). -/
theorem C110_bitwise_add_partial (hn : 0 < n) (hm : 0 < m) (hs : s = true → n < m → x.bv.msb = true)
    (ht : t = true → m < n → y.bv.msb = true) (hx : x.Clean) (hy : y.Clean) (a b : BitVec (max n m))
    (ha : a = if s then x.bv.signExtend _ else x.bv.setWidth _)
    (hb : b = if t then y.bv.signExtend _ else y.bv.setWidth _) :
    ((x.andM y).bv = a &&& b ∧ (x.andM y).Clean) ∧ ((x.orM y).bv = a ||| b ∧ (x.orM y).Clean) ∧
    ((x.xorM y).bv = a ^^^ b ∧ (x.xorM y).Clean) ∧ (x.addM y).bv = a + b ∧ (x.subM y).bv = a - b := by
  have h0 : 0 < max n m := by omega
  have key : ∀ {k : Nat} {u : Bool} (w : Big k u), 0 < k → k ≤ max n m → w.Clean →
      (u = true → k < max n m → w.bv.msb = true) → (w.extend (max n m)).Clean ∧
      (w.extend (max n m)).bv = if u then w.bv.signExtend _ else w.bv.setWidth _ := by
    intro k u w hk hkm hw hneg
    cases u with
    | false => exact ⟨Big.clean_extend_ok hkm (by simp) hw, Big.bv_extend_ok hkm (by simp) hw⟩
    | true =>
      refine ⟨?_, ?_⟩
      · rw [Big.clean_iff] at hw ⊢
        intro i hi
        rw [Big.raw_extend_signed w hkm, if_neg (by omega), hw i (by omega)]
      · apply BitVec.eq_of_getLsbD_eq
        intro i hi
        rw [if_pos rfl, Big.getLsbD_bv, Big.get_eq, Big.raw_extend_signed w hkm, BitVec.getLsbD_signExtend,
          Big.getLsbD_bv, hw.get]
        by_cases hik : i < k
        · rw [if_neg (by omega), if_pos hik]
        · rw [if_pos (by omega), if_neg hik, hneg rfl (by omega)]
  obtain ⟨cx, ex⟩ := key x hn (by omega) hx (fun h h' => hs h (by omega))
  obtain ⟨cy, ey⟩ := key y hm (by omega) hy (fun h h' => ht h (by omega))
  rw [← ha] at ex
  rw [← hb] at ey
  refine ⟨⟨?_, Big.clean_and h0 _ _⟩, ⟨?_, cx.or cy⟩, ⟨?_, cx.xor cy⟩, ?_, ?_⟩
  · rw [Big.andM, Big.bv_and h0, ex, ey]
  · rw [Big.orM, Big.bv_or, ex, ey]
  · rw [Big.xorM, Big.bv_xor, ex, ey]
  · rw [Big.addM, Big.bv_add, ex, ey]
  · rw [Big.subM, Big.bv_sub h0, ex, ey]

/-- **C110, products, partial.** Missing: as for C30 (chunks set only in their upper halves,
products whose chunk count exceeds the result), a narrower signed operand, and operands of one
limb (`C110_mul_one_limb`). -/
theorem C110_mul_partial (hn : 64 < max n m) (hs : s = true → m ≤ n) (ht : t = true → n ≤ m)
    (hx : x.Clean) (hy : y.Clean) (vx : LowHalves x.bv) (vy : LowHalves y.bv) (a b : Nat)
    (ha : x.bv.toNat < 2 ^ (64 * a)) (hb : y.bv.toNat < 2 ^ (64 * b)) (hab : 64 * (a + b) < max n m + 64) :
    ∃ z, x.mulM y = .ok z ∧ z.bv = x.bv.setWidth _ * y.bv.setWidth _ := by
  have h : ¬ max n m ≤ 64 := by omega
  have ex := Big.bv_extend_ok (m := max n m) (by omega) (fun h => by have := hs h; omega) hx
  have ey := Big.bv_extend_ok (m := max n m) (by omega) (fun h => by have := ht h; omega) hy
  have cx := Big.clean_extend_ok (m := max n m) (by omega) (fun h => by have := hs h; omega) hx
  have cy := Big.clean_extend_ok (m := max n m) (by omega) (fun h => by have := ht h; omega) hy
  have tx : (x.bv.setWidth (max n m)).toNat = x.bv.toNat :=
    BitVec.toNat_setWidth_of_le (Nat.le_max_left n m)
  have ty : (y.bv.setWidth (max n m)).toNat = y.bv.toNat :=
    BitVec.toNat_setWidth_of_le (Nat.le_max_right n m)
  obtain ⟨z, hz, e⟩ := Bits.mul_wide h (.big h (x.extend (max n m)) : Bits _ s) (.big h (y.extend (max n m)) : Bits _ t)
    cx cy (by rw [show (Bits.big h (x.extend (max n m)) : Bits _ s).bv = _ from ex]; exact lowHalves_setWidth (by omega) vx)
    (by rw [show (Bits.big h (y.extend (max n m)) : Bits _ t).bv = _ from ey]; exact lowHalves_setWidth (by omega) vy)
    (a := a) (b := b) (by rw [show (Bits.big h (x.extend (max n m)) : Bits _ s).bv = _ from ex, tx]; exact ha)
    (by rw [show (Bits.big h (y.extend (max n m)) : Bits _ t).bv = _ from ey, ty]; exact hb) hab
  rw [Bits.mul, dif_neg h] at hz
  have hz' : (x.mulM y).map (Bits.big h) = .ok z := hz
  cases hr : x.mulM y with
  | error e => rw [hr] at hz'; cases hz'
  | ok w =>
    rw [hr] at hz'
    cases hz'
    refine ⟨w, rfl, ?_⟩
    rw [← ex, ← ey]; exact e

end C110

/-- **C110, quotient and remainder, partial.** A zero divisor gives zero twice. Missing: as for
C31, chunks set only in their upper halves, and a narrower signed divisor. -/
theorem C110_div_partial (x : Big n false) (y : Big m t) (hn : 64 < max n m) (hN : max n m ≤ 2 ^ 32)
    (ht : t = true → n ≤ m) (hx : x.Clean) (hy : y.Clean) (vx : LowHalves x.bv) (vy : LowHalves y.bv) :
    ∃ q r, x.divM y = .ok q ∧ x.modM y = .ok r ∧ q.Clean ∧ r.Clean ∧
      (y.bv ≠ 0 → q.bv.toNat = x.bv.toNat / y.bv.toNat ∧ r.bv.toNat = x.bv.toNat % y.bv.toNat) ∧
      (y.bv = 0 → q.bv = 0 ∧ r.bv = 0) := by
  have ex := Big.bv_extend_ok (m := max n m) (by omega) (fun h => by cases h) hx
  have ey := Big.bv_extend_ok (m := max n m) (by omega) (fun h => by have := ht h; omega) hy
  have cx := Big.clean_extend_ok (m := max n m) (by omega) (fun h => by cases h) hx
  have cy := Big.clean_extend_ok (m := max n m) (by omega) (fun h => by have := ht h; omega) hy
  have tx : val (x.extend (max n m)).vals = x.bv.toNat := by
    rw [← cx.toNat_bv, ex]; exact BitVec.toNat_setWidth_of_le (by omega)
  have ty : val (y.extend (max n m)).vals = y.bv.toNat := by
    rw [← cy.toNat_bv, ey]; exact BitVec.toNat_setWidth_of_le (by omega)
  by_cases h0 : y.bv = 0
  · have e := Big.divMod_zero (x.extend (max n m)) (y.extend (max n m)) (by rw [ty, h0]; rfl)
    have bz : (Big.zero : Big (max n m) false).bv = 0 := by
      apply BitVec.eq_of_toNat_eq; rw [Big.clean_zero.toNat_bv, Big.val_zero]; simp
    exact ⟨Big.zero, Big.zero, by rw [Big.divM, Big.div, e]; rfl, by rw [Big.modM, Big.mod, e]; rfl, Big.clean_zero,
      Big.clean_zero, fun h => absurd h0 h, fun _ => ⟨bz, bz⟩⟩
  · have h0' : y.bv.toNat ≠ 0 := fun h => h0 (BitVec.eq_of_toNat_eq (by rw [h]; simp))
    obtain ⟨q, r, e, cq, cr, eq', er⟩ := Big.divMod_spec hn hN (x.extend (max n m)) (y.extend (max n m)) cx cy (by rwa [ty])
      (Bits.visible_of cx (by rw [ex]; exact lowHalves_setWidth (by omega) vx))
      (Bits.visible_of cy (by rw [ey]; exact lowHalves_setWidth (by omega) vy))
    exact ⟨q, r, by rw [Big.divM, Big.div, e]; rfl, by rw [Big.modM, Big.mod, e]; rfl, cq, cr,
      fun _ => ⟨by rw [cq.toNat_bv, eq', tx, ty], by rw [cr.toNat_bv, er, tx, ty]⟩, fun h => absurd h h0⟩

/-- **C110 is false for a narrower signed operand**, whatever its value: it is extended with ones,
so that `0 | 0` is not zero. General in both sizes. -/
theorem C110_signed (hnm : n < m) (x : Big n true) (y : Big m t) (i : Nat) (h1 : n ≤ i) (h2 : i < m) :
    (x.orM y).bv.getLsbD i = true := by
  have hm : max n m = m := by omega
  rw [Big.getLsbD_bv, Big.get_eq, Big.orM, Big.raw_or, Big.raw_extend_signed x (by omega), if_pos (by omega)]
  simp; omega

/-- **C110 is false for products of operands of one limb**: the high half is written behind the
array. -/
theorem C110_mul_one_limb (hn : max n m ≤ 64) (x : Big n s) (y : Big m t) : x.mulM y = .error .oob := by
  have hl : limbs (max n m) < 2 := by have := limbs_lt (max n m); unfold limbs; split <;> omega
  have hf : ∀ {u : Bool} (b : Big (max n m) u), b.fitIn64 = true := by
    intro u b
    have : b.vals.drop 1 = [] := by apply List.drop_eq_nil_of_le; rw [b.len]; omega
    rw [Big.fitIn64, this]; rfl
  rw [Big.mulM, Big.mul, hf, hf]
  simp only [Bool.and_self, if_true]
  rw [if_pos hl]

-- 2^64 + 5 (70 bits) and 2^65 + 3 (130 bits)
private def bigA : Big 70 false := ⟨[5, 1], rfl⟩
private def bigB : Big 130 false := ⟨[3, 2, 0], rfl⟩
example : bigA.Clean ∧ bigB.Clean ∧ LowHalves bigA.bv := by decide +kernel
example : (bigA.addM bigB).bv.toNat = 2 ^ 64 + 5 + 2 ^ 65 + 3 ∧ (bigA.xorM bigB).bv.toNat = 3 * 2 ^ 64 + 6 := by
  decide +kernel
example : ((bigB.mulM (Big.ofU64 7 : Big 70 false)).map fun z => z.bv.toNat) = .ok ((2 ^ 65 + 3) * 7) ∧
    (bigB.divM bigA).map (fun z => z.bv.toNat) = .ok 1 ∧
    (bigB.modM bigA).map (fun z => z.bv.toNat) = .ok (2 ^ 64 - 2) := by decide +kernel

/-! ## C112 -/

/-- **C112.** `x.concat(y)` holds `y` in its low bits and `x` above, at any two sizes and for
any stored values; it is canonical when `y` is. -/
theorem C112_concat (x : Big n s) (y : Big m t) :
    (x.concat y).bv = x.bv ++ y.bv ∧ (y.Clean → (x.concat y).Clean) := by
  constructor
  · apply BitVec.eq_of_getLsbD_eq
    intro i hi
    rw [Big.getLsbD_bv, BitVec.getLsbD_append, Big.getLsbD_bv, Big.getLsbD_bv, Big.get_eq, Big.concat]
    have h2 := Big.raw_loop_set (loop 0 (limbs m) (Big.zero : Big (n + m) false)
        fun i r => r.setLimb i (y.limb i)) m (n + m)
      (fun i => i) (fun i => x.get (i - m)) i (by intros; omega)
    by_cases him : i < m
    · rw [if_pos him, h2.2 (by intros; omega), Big.raw_loop_copy _ _ (limbs_mono (by omega)), if_pos
        (by have := le_limbs m; omega), Big.get_eq]
      simp [him, hi]
    · rw [if_neg him, h2.1 i (by omega) hi rfl hi]
      simp [hi]
  · intro hy
    rw [Big.concat]
    refine Big.clean_loop_set ?_ m (n + m) id fun i => x.get (i - m)
    rw [Big.clean_iff] at hy ⊢
    intro i hi
    rw [Big.raw_loop_copy _ y (limbs_mono (by omega))]
    split_ifs
    · exact hy i (by omega)
    · simp

/-- the condition of C112 on canonicity is needed: complementing 70 bits leaves ones above bit 69,
and they stay in the concatenation. -/
theorem C112_dirty : ∃ x : Big 1 false, ∃ y : Big 70 false, x.Clean ∧ y = Big.zero.not ∧ ¬ (x.concat y).Clean :=
  ⟨Big.zero, Big.zero.not, by decide +kernel, rfl, by decide +kernel⟩

example : (bigA.concat bigB).bv.toNat = (2 ^ 64 + 5) * 2 ^ 130 + (2 ^ 65 + 3) := by decide +kernel

/-! ## C113 -/

/-- one compound assignment statement with its operand -/
structure BigAssign where
  isAnd : Bool
  m : Nat
  t : Bool
  op : Big m t

/-- execution of the statement -/
def BigAssign.run (x : Big n s) (a : BigAssign) : Res (Big n s) :=
  if a.isAnd then x.andAssign a.op else x.xorAssign a.op

/-- its meaning on the bits -/
def BigAssign.spec (b : BitVec n) (a : BigAssign) : BitVec n :=
  if a.isAnd then b &&& a.op.bv.setWidth n else b ^^^ a.op.bv.setWidth n

/-- the operand is canonical, not wider than the target, unsigned when narrower, and the form
compiles -/
def BigAssign.Ok (n : Nat) (s : Bool) (a : BigAssign) : Prop :=
  a.op.Clean ∧ a.m ≤ n ∧ (a.t = true → a.m = n) ∧ (s = true → a.t = true)

/-- **C113, partial.** Any sequence of `&=` and `^=` leaves the bits of the same sequence of
operators, in canonical form from the first statement on. Missing: wider operands, `|=` and
signed targets with unsigned operands, which do not compile; narrower signed operands
(`C113_refuted`). -/
theorem C113_assign_partial (hn : 0 < n) : ∀ (l : List BigAssign) (x : Big n s), (∀ a ∈ l, a.Ok n s) →
    ∃ z, l.foldlM BigAssign.run x = .ok z ∧ z.bv = l.foldl BigAssign.spec x.bv ∧ (x.Clean ∨ l ≠ [] → z.Clean)
  | [], x, _ => ⟨x, rfl, rfl, fun h => by simpa using h⟩
  | a :: l, x, h => by
    obtain ⟨hc, hm, ht, hs⟩ := h a (by simp)
    have hst : (s && a.t) = s := by
      cases s with
      | false => rfl
      | true => rw [hs rfl]; rfl
    have ebv := Big.bv_extend_ok hm (fun h => (ht h).symm) hc
    have bvm : ∀ {u : Bool} (w : Big n u), w.maskOff.bv = w.bv := fun w => by
      apply BitVec.eq_of_getLsbD_eq
      intro i _
      rw [Big.getLsbD_bv, Big.getLsbD_bv, Big.get_maskOff hn]
    have step : ∃ y, a.run x = .ok y ∧ y.bv = a.spec x.bv ∧ y.Clean := by
      rw [BigAssign.run, BigAssign.spec]
      split_ifs with ha
      · refine ⟨_, by rw [Big.andAssign, if_pos ⟨hm, hst⟩], ?_, Big.clean_maskOff hn _⟩
        rw [bvm, Big.bv_toSign, Big.bv_and hn, ebv]
      · refine ⟨_, by rw [Big.xorAssign, if_pos ⟨hm, hst⟩], ?_, Big.clean_maskOff hn _⟩
        rw [bvm, Big.bv_toSign, Big.bv_xor, ebv]
    obtain ⟨y, hy, hb, cy⟩ := step
    obtain ⟨z, hz, hzb, hzc⟩ := C113_assign_partial hn l y (fun b hb => h b (by simp [hb]))
    refine ⟨z, ?_, ?_, fun _ => hzc (Or.inl cy)⟩
    · rw [List.foldlM_cons, hy]; exact hz
    · rw [hzb, hb]; rfl

/-- **C113 is false for a narrower signed operand**: `x ^= 0` flips the bits of `x` above the
operand. -/
theorem C113_refuted (hnm : m < n) (x : Big n false) : ∃ z, x.xorAssign (Big.zero : Big m true) = .ok z ∧
    ∀ i, i < n → z.bv.getLsbD i = if m ≤ i then !x.bv.getLsbD i else x.bv.getLsbD i := by
  refine ⟨_, by rw [Big.xorAssign, if_pos ⟨hnm.le, rfl⟩], fun i hi => ?_⟩
  rw [Big.getLsbD_bv, Big.get_maskOff (by omega), Big.get_toSign, Big.get_xor, Big.getLsbD_bv]
  have e : ((Big.zero : Big m true).extend n).get i = decide (m ≤ i) := by
    rw [Big.get_eq, Big.raw_extend_signed _ hnm.le, Big.raw_zero]
    by_cases h : m ≤ i <;> simp [h, hi]
  rw [e]
  by_cases h : m ≤ i <;> simp [h]

example : BigAssign.Ok 130 false ⟨true, 70, false, bigA⟩ ∧ BigAssign.Ok 130 false ⟨false, 130, false, bigB⟩ := by
  refine ⟨⟨by decide +kernel, by decide, by simp, by simp⟩, ⟨by decide +kernel, by decide, by simp, by simp⟩⟩
example : (([⟨true, 70, false, bigA⟩, ⟨false, 130, false, bigB⟩] : List BigAssign).foldlM BigAssign.run bigB).map
    (fun z => z.bv.toNat) = .ok (2 ^ 65 + 2) := by decide +kernel

end Verif
