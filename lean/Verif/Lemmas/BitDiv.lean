import Verif.Lemmas.BitArith

/-! Division, remainder, negation and ordering of native 2-state values. -/

namespace Verif

theorem ofInt_natCast (n k : Nat) : BitVec.ofInt n (k : Int) = BitVec.ofNat n k := by
  apply BitVec.eq_of_toNat_eq
  rw [BitVec.toNat_ofInt, BitVec.toNat_ofNat]
  rfl

namespace Bits

variable {n m : Nat} {s t : Bool}

theorem exists_usual (n : Nat) (s t : Bool) : ∃ W sg, CTy.usual (holderTy n s) (holderTy n t) = .int W sg ∧
    W = max 32 (hw n) ∧ (sg = (decide (hw n < 32) || (s && t))) := by
  rw [usual_holder]
  by_cases h : hw n < 32
  · exact ⟨32, true, by simp [h], by omega, by simp [h]⟩
  · exact ⟨hw n, s && t, by simp [h], by omega, by simp [h]⟩

/-- on two unsigned holders the common type represents both values -/
theorem usual_conv_unsigned (h : n ≤ 64) (x : Bits n false) :
    (CTy.usual (holderTy n false) (holderTy n false)).conv x.nv.v = x.nv.v := by
  by_cases h32 : hw n < 32
  · exact usual_conv_nv h x (Or.inl h32)
  · rw [usual_holder, if_neg h32]
    have := nv_nonneg h x
    exact CTy.conv_unsigned_of_lt this.1 this.2

/-- a built-in operator whose exact result is a value of the common type -/
theorem arith_of_fits {f : Int → Int → Int} {x y : TV} {t : CTy} (ht : CTy.usual x.ty y.ty = t)
    (hx : t.conv x.v = x.v) (hy : t.conv y.v = y.v) (hr : t.conv (f x.v y.v) = f x.v y.v) :
    TV.arith f x y = .ok ⟨t, f x.v y.v⟩ := by
  simp only [TV.arith, ht, hx, hy, hr]
  simp

theorem conv_fits (hr : fits n r) (h : (decide (hw n < 32) || (s && t)) = true) :
    (CTy.usual (holderTy n s) (holderTy n t)).conv r = r := by
  obtain ⟨W, sg, e, hW, hsg⟩ := exists_usual n s t
  rw [e, hsg, h]
  exact CTy.conv_signed_of_mem (by omega) (by rw [hW]; exact hr.1) (by rw [hW]; exact hr.2)

theorem tdiv_nonneg_le {a b : Int} (ha : 0 ≤ a) (hb : 0 ≤ b) : 0 ≤ a.tdiv b ∧ a.tdiv b ≤ a := by
  rw [Int.tdiv_eq_ediv_of_nonneg ha]
  exact ⟨Int.ediv_nonneg ha hb, Int.ediv_le_self b ha⟩

theorem tmod_nonneg_le {a b : Int} (ha : 0 ≤ a) (hb : 0 ≤ b) : 0 ≤ a.tmod b ∧ a.tmod b ≤ a := by
  have h := tdiv_nonneg_le ha hb
  have e := Int.mul_tdiv_add_tmod a b
  have h2 : 0 ≤ a.tmod b := Int.tmod_nonneg _ ha
  refine ⟨h2, ?_⟩
  have : 0 ≤ b * a.tdiv b := mul_nonneg hb h.1
  omega

theorem conv_unsigned_range (h : n ≤ 64) (x : Bits n false) {r : Int} (h0 : 0 ≤ r) (h1 : r ≤ x.nv.v) :
    (CTy.usual (holderTy n false) (holderTy n false)).conv r = r := by
  have b := nv_nonneg h x
  by_cases h32 : hw n < 32
  · apply conv_fits _ (by simp [h32])
    have : (2 : Int) ^ hw n ≤ 2 ^ 31 := pow_mono (by omega)
    exact fits_of (k := 31) (Or.inl (by omega)) (by omega) (by omega)
  · rw [usual_holder, if_neg h32]
    exact CTy.conv_unsigned_of_lt h0 (by omega)

theorem div_unsigned_native (h : n ≤ 64) (x y : Bits n false) (hy : y.nv.v ≠ 0) :
    TV.div x.nv y.nv = .ok ⟨CTy.usual (holderTy n false) (holderTy n false), x.nv.v.tdiv y.nv.v⟩ ∧
    TV.mod x.nv y.nv = .ok ⟨CTy.usual (holderTy n false) (holderTy n false), x.nv.v.tmod y.nv.v⟩ := by
  have bx := nv_nonneg h x
  have by' := nv_nonneg h y
  have hd := tdiv_nonneg_le bx.1 by'.1
  have hm := tmod_nonneg_le bx.1 by'.1
  have e1 := arith_of_fits (f := Int.tdiv) (x := x.nv) (y := y.nv)
    (t := CTy.usual (holderTy n false) (holderTy n false)) (by simp)
    (usual_conv_unsigned h x) (usual_conv_unsigned h y)
    (conv_unsigned_range h x hd.1 hd.2)
  have e2 := arith_of_fits (f := Int.tmod) (x := x.nv) (y := y.nv)
    (t := CTy.usual (holderTy n false) (holderTy n false)) (by simp)
    (usual_conv_unsigned h x) (usual_conv_unsigned h y)
    (conv_unsigned_range h x hm.1 hm.2)
  constructor
  · rw [TV.div, nv_ty, nv_ty, usual_conv_unsigned h y, if_neg hy, e1]
  · rw [TV.mod, nv_ty, nv_ty, usual_conv_unsigned h y, if_neg hy, e1]
    exact e2

theorem div_signed_native (h : n ≤ 64) (x y : Bits n true) (hy : y.nv.v ≠ 0)
    (hf : fits n (x.nv.v.tdiv y.nv.v)) :
    TV.div x.nv y.nv = .ok ⟨CTy.usual (holderTy n true) (holderTy n true), x.nv.v.tdiv y.nv.v⟩ ∧
    TV.mod x.nv y.nv = .ok ⟨CTy.usual (holderTy n true) (holderTy n true), x.nv.v.tmod y.nv.v⟩ := by
  have cx := usual_conv_nv (t := true) h x (Or.inr rfl)
  have cy := usual_conv_nv (t := true) h y (Or.inr rfl)
  have e1 := arith_of_fits (f := Int.tdiv) (x := x.nv) (y := y.nv)
    (t := CTy.usual (holderTy n true) (holderTy n true)) (by simp) cx cy
    (conv_fits hf (by simp))
  have hm : fits n (x.nv.v.tmod y.nv.v) := by
    have bx := nv_abs_bounds h x
    have hb : fits n x.nv.v := by
      by_cases h1 : n ≤ 1
      · have := nv_bounds h x
        simp only [h1, decide_true, Bool.not_true, Bool.and_false, Bool.false_eq_true, if_false,
          hw_one h1] at this
        exact fits_of (k := 31) (Or.inl (by omega)) (by omega) (by omega)
      · have := nv_signed h (by omega) x
        exact fits_of (Or.inr (Nat.le_refl _)) this.1 this.2
    rcases Int.le_total 0 x.nv.v with hx | hx
    · have h2 : 0 ≤ x.nv.v.tmod y.nv.v := Int.tmod_nonneg _ hx
      have h3 : x.nv.v.tmod y.nv.v ≤ x.nv.v := by
        have : x.nv.v.tmod y.nv.v = x.nv.v.tmod (|y.nv.v|) := by
          rcases abs_choice y.nv.v with e | e <;> rw [e]
          rw [Int.tmod_neg]
        rw [this]
        exact (tmod_nonneg_le hx (abs_nonneg _)).2
      constructor
      · have := hb.1; have := hb.2; omega
      · have := hb.2; omega
    · have e : x.nv.v.tmod y.nv.v = - ((-x.nv.v).tmod (|y.nv.v|)) := by
        have : (-x.nv.v).tmod (|y.nv.v|) = (-x.nv.v).tmod y.nv.v := by
          rcases abs_choice y.nv.v with e | e <;> rw [e]
          rw [Int.tmod_neg]
        rw [this, Int.neg_tmod]; omega
      have := tmod_nonneg_le (a := -x.nv.v) (by omega) (abs_nonneg y.nv.v)
      constructor
      · have := hb.1; omega
      · have := hb.1; have := hb.2
        have : (0 : Int) < 2 ^ (max 32 (hw n) - 1) := by positivity
        omega
  have e2 := arith_of_fits (f := Int.tmod) (x := x.nv) (y := y.nv)
    (t := CTy.usual (holderTy n true) (holderTy n true)) (by simp) cx cy
    (conv_fits hm (by simp))
  constructor
  · rw [TV.div, nv_ty, nv_ty, cy, if_neg hy, e1]
  · rw [TV.mod, nv_ty, nv_ty, cy, if_neg hy, e1]
    exact e2

/-! ### negation -/

theorem promote_holder (n : Nat) (s : Bool) :
    (holderTy n s).promote = if hw n < 32 then .int 32 true else .int (hw n) s := by
  by_cases h1 : n ≤ 1
  · rw [holderTy_one h1, hw_one h1]; rfl
  · rw [holderTy_ge h1]; rfl

theorem neg_exact (h : n ≤ 64) (x : Bits n s) (hf : s = true → 16 < n → x.nv.v ≠ -2 ^ (hw n - 1)) :
    ∃ v, TV.neg x.nv = .ok v ∧ BitVec.ofInt (hw n) v.v = BitVec.ofInt (hw n) (-x.nv.v) := by
  have hb := nv_abs_bounds h x
  have hb' := nv_bounds h x
  rw [TV.neg]
  simp only [nv_ty]
  rw [promote_conv_nv h x]
  by_cases h32 : hw n < 32
  · rw [promote_holder, if_pos h32]
    have p1 : (2 : Int) ^ hw n ≤ 2 ^ 31 := pow_mono (by omega)
    have p2 : (2 : Int) ^ (hw n - 1) ≤ 2 ^ 30 := pow_mono (by omega)
    have e : (CTy.int 32 true).conv (-x.nv.v) = -x.nv.v :=
      CTy.conv_signed_of_mem (by decide) (by show -2 ^ 31 ≤ _; omega) (by show _ < 2 ^ 31; omega)
    rw [e]
    exact ⟨⟨.int 32 true, -x.nv.v⟩, by simp, rfl⟩
  · rw [promote_holder, if_neg h32]
    cases s with
    | false =>
      refine ⟨_, by simp [CTy.signed]; rfl, ?_⟩
      rw [ofInt_conv (Nat.le_refl _)]
    | true =>
      have h16 : 16 < n := by have := hw_lt_iff n; omega
      have hx := hf rfl h16
      rw [if_pos (by simp; omega)] at hb'
      have e : (CTy.int (hw n) true).conv (-x.nv.v) = -x.nv.v :=
        CTy.conv_signed_of_mem (by omega) (by omega) (by omega)
      rw [e]
      exact ⟨⟨.int (hw n) true, -x.nv.v⟩, by simp, rfl⟩

theorem neg_overflow (h : n ≤ 64) (h16 : 16 < n) (x : Bits n true) (hx : x.nv.v = -2 ^ (hw n - 1)) :
    TV.neg x.nv = .error .overflow := by
  rw [TV.neg]
  simp only [nv_ty]
  rw [promote_conv_nv h x, hx]
  have h32 : ¬ hw n < 32 := by rw [hw_lt_iff]; omega
  rw [promote_holder, if_neg h32]
  have hne : (CTy.int (hw n) true).conv (- -2 ^ (hw n - 1)) ≠ - -2 ^ (hw n - 1) := by
    intro e
    have := CTy.conv_signed_mem (w := hw n) (by omega) (- -2 ^ (hw n - 1))
    rw [e] at this
    omega
  rw [if_pos (by simpa [CTy.signed] using hne)]

/-! ### ordering -/

theorem usual_conv_mixed (h : n ≤ 64) (x : Bits n true) (m : Nat) :
    (CTy.usual (holderTy n true) (holderTy m true)).conv x.nv.v = x.nv.v ∧
    (CTy.usual (holderTy m true) (holderTy n true)).conv x.nv.v = x.nv.v := by
  have aux : ∀ W, hw n ≤ W → 32 ≤ W → (CTy.int W true).conv x.nv.v = x.nv.v := by
    intro W h1 h2
    have hb := nv_bounds h x
    by_cases hn1 : n ≤ 1
    · simp only [hn1, decide_true, Bool.not_true, Bool.and_false, Bool.false_eq_true, if_false,
        hw_one hn1] at hb
      have p : (2 : Int) ^ 1 ≤ 2 ^ (W - 1) := pow_mono (by omega)
      exact CTy.conv_signed_of_mem (by omega) (by omega) (by omega)
    · simp only [hn1, decide_false, Bool.not_false, Bool.and_true, if_true] at hb
      have p : (2 : Int) ^ (hw n - 1) ≤ 2 ^ (W - 1) := pow_mono (by omega)
      exact CTy.conv_signed_of_mem (by omega) (by omega) (by omega)
  have key : ∃ W, CTy.usual (holderTy n true) (holderTy m true) = .int W true ∧
      CTy.usual (holderTy m true) (holderTy n true) = .int W true ∧ hw n ≤ W ∧ 32 ≤ W := by
    simp only [CTy.usual, promote_holder]
    by_cases a : hw n < 32 <;> by_cases b : hw m < 32
    · exact ⟨32, by simp [a, b], by simp [a, b], by omega, by omega⟩
    · exact ⟨hw m, by simp [a, b]; omega, by simp [a, b]; omega, by omega, by omega⟩
    · exact ⟨hw n, by simp [a, b]; omega, by simp [a, b]; omega, by omega, by omega⟩
    · refine ⟨max (hw n) (hw m), by simp [a, b], by simp [a, b]; omega, by omega, by omega⟩
  obtain ⟨W, e1, e2, h1, h2⟩ := key
  rw [e1, e2]
  exact ⟨aux W h1 h2, aux W h1 h2⟩

theorem cmp_signed (hn : n ≤ 64) (hm : m ≤ 64) (x : Bits n true) (y : Bits m true)
    (f : Int → Int → Bool) : TV.cmp f x.nv y.nv = f x.nv.v y.nv.v := by
  simp only [TV.cmp, nv_ty]
  rw [(usual_conv_mixed hn x m).1, (usual_conv_mixed hm y n).2]

theorem cast_u64 (h : n ≤ 64) (x : Bits n false) : x.nv.cast tU64 = ⟨tU64, x.nv.v⟩ := by
  have b := nv_nonneg h x
  have p : (2 : Int) ^ hw n ≤ 2 ^ 64 := pow_mono (hw_le n)
  rw [TV.cast, CTy.conv_unsigned_of_lt b.1 (by omega)]

theorem cmp_u64 {a b : Int} (f : Int → Int → Bool) (ha0 : 0 ≤ a) (ha : a < 2 ^ 64) (hb0 : 0 ≤ b)
    (hb : b < 2 ^ 64) : TV.cmp f ⟨tU64, a⟩ ⟨tU64, b⟩ = f a b := by
  have e : CTy.usual tU64 tU64 = tU64 := rfl
  simp only [TV.cmp, e]
  rw [tU64_conv_of ha0 ha, tU64_conv_of hb0 hb]

theorem cmp_unsigned (hn : n ≤ 64) (hm : m ≤ 64) (x : Bits n false) (y : Bits m false)
    (f : Int → Int → Bool) :
    TV.cmp f (x.nv.cast tU64) (y.nv.cast tU64) = f x.nv.v y.nv.v := by
  rw [cast_u64 hn, cast_u64 hm]
  have bx := nv_nonneg hn x
  have by' := nv_nonneg hm y
  have p : (2 : Int) ^ hw n ≤ 2 ^ 64 := pow_mono (hw_le n)
  have p' : (2 : Int) ^ hw m ≤ 2 ^ 64 := pow_mono (hw_le m)
  exact cmp_u64 f bx.1 (by omega) by'.1 (by omega)

/-- native ordering of two operands of the same signedness -/
theorem cmpNat_same (hn : n ≤ 64) (hm : m ≤ 64) (x : Bits n s) (y : Bits m s)
    (f : Int → Int → Bool) : cmpNat (TV.cmp f) x y = f x.nv.v y.nv.v := by
  cases s with
  | false => rw [cmpNat]; exact cmp_unsigned hn hm x y f
  | true => rw [cmpNat]; exact cmp_signed hn hm x y f

theorem eq_native (hn : n ≤ 64) (hm : m ≤ 64) (x : Bits n s) (y : Bits m t) :
    x.eq y = decide (x.nv.v = (holderTy n s).conv y.nv.v) := by
  rw [eq, dif_pos hn, dif_pos hm]
  have e := nv_mkN (s := s) hn y.nv
  have e2 : y.nv.cast (holderTy n s) = (mkN hn y.nv : Bits n s).nv := by rw [e]; rfl
  rw [e2]
  have hv : (holderTy n s).conv y.nv.v = (mkN hn y.nv : Bits n s).nv.v := by rw [e]
  rw [hv]
  simp only [TV.eq, TV.cmp, nv_ty]
  generalize (mkN hn y.nv : Bits n s) = w
  have aux : ∀ u : Bits n s, (CTy.usual (holderTy n s) (holderTy n s)).conv u.nv.v = u.nv.v := by
    intro u
    cases s with
    | false => exact usual_conv_unsigned hn u
    | true => exact usual_conv_nv hn u (Or.inr rfl)
  rw [aux, aux]
  by_cases h : x.nv.v = w.nv.v <;> simp [h]

end Bits
end Verif
