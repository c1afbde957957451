import Verif.Props.PartSelect
import Verif.Props.UpdateExact
import Verif.Props.BigMixed
import Verif.Props.Unary
import Verif.Props.Assign

/-!
# Exact outcomes for C108, C110, C111 and C113
-/

namespace Verif

variable {n m : Nat} {s t : Bool}

/-! ## C108 -/

/-- **C108, native values, exact.** The truth value is that of the storage: a native value
is true exactly when a stored bit is one, above its width or below. -/
theorem C108_native_exact (h : n ≤ 64) (x : Bits n s) :
    x.toBool = true ↔ ∃ i, x.raw i = true := by
  rw [Bits.toBool, Bits.anySet_iff]
  simp [seen, h]

/-- **C108 is false at every native width without a C++ type**: after `x = 2^n` all bits of
`x` are 0 and `x` is true. -/
theorem C108_dirty_all (h : n ≤ 64) (h1 : 1 < n) (hf : ¬ Full n) :
    (Bits.assignInt h ⟨tU64, 2 ^ n⟩ : Bits n false).bv = 0 ∧
    (Bits.assignInt h ⟨tU64, 2 ^ n⟩ : Bits n false).toBool = true ∧
    (Bits.assignInt h ⟨tU64, 2 ^ n⟩ : Bits n false).lnot = false := by
  have hne : hw n ≠ n := fun e => hf ((Bits.full_iff (by omega) h).2 e)
  have hle := le_hw h
  have hlt : (2 : Int) ^ n < 2 ^ hw n := by exact_mod_cast Nat.pow_lt_pow_right (by omega) (by omega)
  have hpos : (0 : Int) < 2 ^ n := by positivity
  have e1 : (Bits.assignInt h ⟨tU64, 2 ^ n⟩ : Bits n false).nv.v = 2 ^ n := by
    rw [Bits.assignInt, Bits.nv_mkN]
    show (holderTy n false).conv (2 ^ n) = _
    rw [holderTy_ge (by omega), CTy.conv_unsigned_of_lt (by omega) hlt]
  have ha : (Bits.assignInt h ⟨tU64, 2 ^ n⟩ : Bits n false).anySet = true := by
    rw [Bits.anySet, dif_pos h, e1, bne_iff_ne]; omega
  exact ⟨(C92_refuted.1 n h h1 hf).1, ha, by rw [Bits.lnot, ha]; rfl⟩

example : ¬ Full 12 := by decide

/-! ## C110 -/

/-- **C110, bitwise operators and sums, exact.** On canonical operands of any two sizes and
signs the result is the operator applied to the operands, the narrower of which is
continued with ones if it is signed, whatever its sign. -/
theorem C110_bitwise_add_exact (hn : 0 < n) (hm : 0 < m) (x : Big n s) (y : Big m t) (hx : x.Clean) (hy : y.Clean)
    (a b : BitVec (max n m))
    (ha : ∀ i, i < max n m → a.getLsbD i = if i < n then x.bv.getLsbD i else s)
    (hb : ∀ i, i < max n m → b.getLsbD i = if i < m then y.bv.getLsbD i else t) :
    ((x.andM y).bv = a &&& b ∧ (x.andM y).Clean) ∧ ((x.orM y).bv = a ||| b ∧ (x.orM y).Clean) ∧
    ((x.xorM y).bv = a ^^^ b ∧ (x.xorM y).Clean) ∧ (x.addM y).bv = a + b ∧ (x.subM y).bv = a - b := by
  have h0 : 0 < max n m := by omega
  have key : ∀ {k : Nat} {u : Bool} (w : Big k u) (c : BitVec (max n m)), k ≤ max n m → w.Clean →
      (∀ i, i < max n m → c.getLsbD i = if i < k then w.bv.getLsbD i else u) →
      (w.extend (max n m)).Clean ∧ (w.extend (max n m)).bv = c := by
    intro k u w c hkm hw hc
    have hc0 := hw
    rw [Big.clean_iff] at hw
    cases u with
    | false =>
      refine ⟨Big.clean_extend_ok hkm (by simp) hc0, ?_⟩
      apply BitVec.eq_of_getLsbD_eq
      intro i hi
      rw [Big.bv_extend_ok hkm (by simp) hc0, hc i hi, BitVec.getLsbD_setWidth, decide_eq_true hi, Bool.true_and]
      split_ifs with h
      · rfl
      · exact BitVec.getLsbD_of_ge _ _ (by omega)
    | true =>
      refine ⟨?_, ?_⟩
      · rw [Big.clean_iff]
        intro i hi
        rw [Big.raw_extend_signed w hkm, if_neg (by omega), hw i (by omega)]
      · apply BitVec.eq_of_getLsbD_eq
        intro i hi
        rw [Big.getLsbD_bv, Big.get_eq, Big.raw_extend_signed w hkm, hc i hi, Big.getLsbD_bv, hc0.get]
        by_cases hik : i < k
        · rw [if_neg (by omega), if_pos hik, decide_eq_true hi, Bool.true_and]
        · rw [if_pos (by omega), if_neg hik, decide_eq_true hi, Bool.true_and]
  obtain ⟨cx, ex⟩ := key x a (by omega) hx ha
  obtain ⟨cy, ey⟩ := key y b (by omega) hy hb
  refine ⟨⟨?_, Big.clean_and h0 _ _⟩, ⟨?_, cx.or cy⟩, ⟨?_, cx.xor cy⟩, ?_, ?_⟩
  · rw [Big.andM, Big.bv_and h0, ex, ey]
  · rw [Big.orM, Big.bv_or, ex, ey]
  · rw [Big.xorM, Big.bv_xor, ex, ey]
  · rw [Big.addM, Big.bv_add, ex, ey]
  · rw [Big.subM, Big.bv_sub h0, ex, ey]

-- 5 in 70 signed bits and 3 in 130: the sum is 5 + 3 - 2^70
private def a70 : Big 70 true := ⟨[5, 0], rfl⟩
private def b130 : Big 130 false := ⟨[3, 0, 0], rfl⟩
example : a70.Clean ∧ b130.Clean ∧ (a70.addM b130).bv.toInt = 8 - 2 ^ 70 := by decide +kernel

/-! ## C111 -/

/-- **C111, native values, exact.** `x[base +: k] = v` and `x[base -: k] = v` with a native
canonical `v` of any width: a selection of at most 32 bits (64 for a `v` of more than 32)
receives `v` extended by its sign; a longer one is undefined behaviour. -/
theorem C111_native_exact (hn : 0 < n) (hm : 0 < m) (hN : n ≤ 2 ^ 31) (h : m ≤ 64) (x : Bits n s)
    (op : Bits m t) (hc : op.Clean) (k base : Nat) (h0 : 0 < k) :
    (base + k ≤ n →
      (k ≤ (if m ≤ 32 then 32 else 64) → ∃ y, x.updateBase (Rng.down n) k true base (Rng.down m) op = .ok y ∧
        (∀ i, i < n → y.bv.getLsbD i =
          if base ≤ i ∧ i < base + k then
            (if i - base < m then op.bv.getLsbD (i - base) else t && decide (1 < m) && op.bv.msb)
          else x.bv.getLsbD i) ∧ (s = false → x.Clean → y.Clean)) ∧
      ((if m ≤ 32 then 32 else 64) < k →
        x.updateBase (Rng.down n) k true base (Rng.down m) op = .error .shift)) ∧
    (base < n → k ≤ base + 1 →
      (k ≤ (if m ≤ 32 then 32 else 64) → ∃ y, x.updateBase (Rng.down n) k false base (Rng.down m) op = .ok y ∧
        (∀ i, i < n → y.bv.getLsbD i =
          if base < i + k ∧ i ≤ base then
            (if i + k - base - 1 < m then op.bv.getLsbD (i + k - base - 1) else t && decide (1 < m) && op.bv.msb)
          else x.bv.getLsbD i) ∧ (s = false → x.Clean → y.Clean)) ∧
      ((if m ≤ 32 then 32 else 64) < k →
        x.updateBase (Rng.down n) k false base (Rng.down m) op = .error .shift)) := by
  constructor
  · intro hb
    have ec : tInt.conv (base : Int) = base := tInt_conv_of (by omega) (by omega)
    have eu : x.updateBase (Rng.down n) k true base (Rng.down m) op =
        x.updateRt (Rng.down n) base (base + k - 1 : Nat) (Rng.down m) op := by
      rw [Bits.updateBase]
      simp only [ec, if_true]
      rw [intRes_ok (by omega) (by omega), res_bind_ok,
        show (base : Int) + ((k : Int) - 1) = ((base + k - 1 : Nat) : Int) by omega]
    have mx : max base (base + k - 1) - min base (base + k - 1) = k - 1 := by omega
    have mn : min base (base + k - 1) = base := by omega
    obtain ⟨e1, e2⟩ := C57_rt_native_exact hn hm hN h x op hc base (base + k - 1) (by omega) (by omega)
    rw [eu]
    refine ⟨fun hk => ?_, fun hk => e2 (by rw [mx]; omega)⟩
    obtain ⟨y, hy, bits, cl⟩ := e1 (by rw [mx]; omega)
    refine ⟨y, hy, fun i hi => ?_, cl⟩
    rw [bits i hi, mn]
    by_cases hq : base ≤ i ∧ i < base + k
    · rw [if_pos (by omega), if_pos hq]
    · rw [if_neg (by omega), if_neg hq]
  · intro hb hkb
    have ec : tInt.conv (base : Int) = base := tInt_conv_of (by omega) (by omega)
    have eu : x.updateBase (Rng.down n) k false base (Rng.down m) op =
        x.updateRt (Rng.down n) base (base + 1 - k : Nat) (Rng.down m) op := by
      rw [Bits.updateBase]
      simp only [ec, Bool.false_eq_true, if_false]
      rw [intRes_ok (by omega) (by omega), res_bind_ok,
        show (base : Int) - ((k : Int) - 1) = ((base + 1 - k : Nat) : Int) by omega]
    have mx : max base (base + 1 - k) - min base (base + 1 - k) = k - 1 := by omega
    have mn : min base (base + 1 - k) = base + 1 - k := by omega
    obtain ⟨e1, e2⟩ := C57_rt_native_exact hn hm hN h x op hc base (base + 1 - k) (by omega) (by omega)
    rw [eu]
    refine ⟨fun hk => ?_, fun hk => e2 (by rw [mx]; omega)⟩
    obtain ⟨y, hy, bits, cl⟩ := e1 (by rw [mx]; omega)
    refine ⟨y, hy, fun i hi => ?_, cl⟩
    rw [bits i hi, mn]
    by_cases hq : base < i + k ∧ i ≤ base
    · rw [if_pos (by omega), if_pos hq, show i - (base + 1 - k) = i + k - base - 1 by omega]
    · rw [if_neg (by omega), if_neg hq]

-- a negative four bit value fills the eight selected bits
example : ((Bits.ofInt 0 : Bits 16 false).updateBase (Rng.down 16) 8 true 4 (Rng.down 4) (Bits.ofInt (-2) : Bits 4 true)).map
    (·.bv.toNat) = .ok 0xfe0 := by decide +kernel

/-! ## C113 -/

/-- **C113, exact for one statement.** With an operand that is not wider, `x &= y` and
`x ^= y` apply the operator to `y` continued with ones if it is narrower and signed. -/
theorem C113_assign_exact (hn : 0 < n) (hmn : m ≤ n) (hst : s = true → t = true) (x : Big n s) (y : Big m t) (hy : y.Clean) :
    (∃ z, x.andAssign y = .ok z ∧ z.Clean ∧ ∀ i, i < n →
      z.bv.getLsbD i = (x.bv.getLsbD i && if i < m then y.bv.getLsbD i else t)) ∧
    (∃ z, x.xorAssign y = .ok z ∧ z.Clean ∧ ∀ i, i < n →
      z.bv.getLsbD i = (x.bv.getLsbD i ^^ if i < m then y.bv.getLsbD i else t)) := by
  have hst : (s && t) = s := by
    cases s with
    | false => rfl
    | true => rw [hst rfl]; rfl
  have ebv : ∀ i, i < n → (y.extend n).bv.getLsbD i = if i < m then y.bv.getLsbD i else t := by
    intro i hi
    rw [Big.getLsbD_bv, Big.get_eq, Big.getLsbD_bv, hy.get, decide_eq_true hi, Bool.true_and]
    cases t with
    | false =>
      rw [Big.raw_extend_unsigned y hmn]
      split_ifs with h
      · rfl
      · exact (Big.clean_iff y).1 hy i (by omega)
    | true =>
      rw [Big.raw_extend_signed y hmn]
      by_cases h : i < m
      · rw [if_neg (by omega), if_pos h]
      · rw [if_pos (by omega), if_neg h]
  have bvm : ∀ {u : Bool} (w : Big n u), w.maskOff.bv = w.bv := fun w => by
    apply BitVec.eq_of_getLsbD_eq
    intro i _
    rw [Big.getLsbD_bv, Big.getLsbD_bv, Big.get_maskOff hn]
  refine ⟨⟨_, by rw [Big.andAssign, if_pos ⟨hmn, hst⟩], Big.clean_maskOff hn _, fun i hi => ?_⟩,
    ⟨_, by rw [Big.xorAssign, if_pos ⟨hmn, hst⟩], Big.clean_maskOff hn _, fun i hi => ?_⟩⟩
  · rw [bvm, Big.bv_toSign, Big.bv_and hn, BitVec.getLsbD_and, ebv i hi]
  · rw [bvm, Big.bv_toSign, Big.bv_xor, BitVec.getLsbD_xor, ebv i hi]

end Verif
