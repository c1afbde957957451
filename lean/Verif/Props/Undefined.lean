import Verif.Props.XSound
import Verif.Props.Arith
import Verif.Props.ShiftExact
import Verif.Props.ExprI
import Verif.Props.Exactly
import Verif.Props.Lift
import Verif.Props.ArithExact

/-!
# Undefined behaviour of the arithmetic operators, exactly (C197)

For vectors of any width and signedness, with canonical operands. `numOf s b` is the number a vector with
bits `b` denotes. The undefined cases of the shifts are `C24_native_iff`, `C25_native_exact` and `C26_native_exact`.
-/

namespace Verif

variable {n : Nat} {s t : Bool}

/-- the call is undefined behaviour of kind `e` exactly if `P`, and otherwise has a result -/
def UndefIff {α : Type} (r : Res α) (e : Fault) (P : Prop) : Prop := (P → r = .error e) ∧ (¬ P → ∃ z, r = .ok z)

theorem UndefIff.iff {α : Type} {r : Res α} {e : Fault} {P : Prop} (h : UndefIff r e P) : r = .error e ↔ P := by
  constructor
  · intro hr
    by_contra hp
    obtain ⟨z, hz⟩ := h.2 hp
    rw [hz] at hr
    cases hr
  · exact h.1

theorem UndefIff.congr {α : Type} {r : Res α} {e : Fault} {P Q : Prop} (h : UndefIff r e P) (hpq : P ↔ Q) : UndefIff r e Q :=
  ⟨fun q => h.1 (hpq.2 q), fun q => h.2 fun p => q (hpq.1 p)⟩

theorem UndefIff.map {α β : Type} {r : Res α} {e : Fault} {P : Prop} (f : α → β) (h : UndefIff r e P) : UndefIff (r.map f) e P := by
  refine ⟨fun p => by rw [h.1 p]; rfl, fun p => ?_⟩
  obtain ⟨z, hz⟩ := h.2 p
  exact ⟨f z, by rw [hz]; rfl⟩

/-- the number fits the C++ type in which vectors of `n` bits are computed -/
def InW (n : Nat) (r : Int) : Prop := -2 ^ (if n ≤ 32 then 31 else 63) ≤ r ∧ r < 2 ^ (if n ≤ 32 then 31 else 63)

theorem Bits.fits_inW (n : Nat) (r : Int) : Bits.fits n r ↔ InW n r := by
  have e : max 32 (hw n) - 1 = if n ≤ 32 then 31 else 63 := by simp only [hw]; split_ifs <;> omega
  rw [Bits.fits, InW, e]

theorem Bits.arith_undef (h : n ≤ 64) (x : Bits n s) (y : Bits n t) (f : Int → Int → Int) :
    UndefIff (TV.arith f x.nv y.nv) .overflow (((s && t) = true ∨ n ≤ 16) ∧ ¬ InW n (f x.nv.v y.nv.v)) := by
  obtain ⟨W, sg, e, hW, hsg⟩ := Bits.exists_usual n s t
  by_cases hs : hw n < 32 ∨ (s && t) = true
  · have ex := Bits.usual_conv_nv (t := t) h x hs
    have ey := Bits.usual_conv_nv (t := s) h y (by rw [Bool.and_comm]; exact hs)
    rw [Bits.usual_comm_holder] at ey
    have hsg' : sg = true := by rw [hsg]; simpa using hs
    subst hsg'
    have hs' : (s && t) = true ∨ n ≤ 16 := by rw [hw_lt_iff] at hs; tauto
    have hr : (CTy.int W true).conv (f x.nv.v y.nv.v) = f x.nv.v y.nv.v ↔ InW n (f x.nv.v y.nv.v) := by
      rw [← Bits.fits_inW, Bits.fits, ← hW]
      constructor
      · intro e; have := CTy.conv_signed_mem (w := W) (by omega) (f x.nv.v y.nv.v); rw [e] at this; exact this
      · intro hf; exact CTy.conv_signed_of_mem (by omega) hf.1 hf.2
    simp only [TV.arith, Bits.nv_ty, ex, ey]
    rw [e]
    refine ⟨fun p => ?_, fun p => ?_⟩
    · rw [if_pos]
      simpa [CTy.signed] using fun q => p.2 (hr.1 q)
    · have hin : InW n (f x.nv.v y.nv.v) := by by_contra hc; exact p ⟨hs', hc⟩
      rw [if_neg (by simpa [CTy.signed] using hr.2 hin)]
      exact ⟨_, rfl⟩
  · have hsg' : sg = false := by rw [hsg]; simpa using hs
    subst hsg'
    refine ⟨fun p => absurd p.1 (by rw [hw_lt_iff] at hs; tauto), fun _ => ?_⟩
    simp only [TV.arith, Bits.nv_ty]
    rw [e, if_neg (by simp [CTy.signed])]
    exact ⟨_, rfl⟩

/-- **C197, sum, difference and product.** With canonical operands of one native width, `+`, `-` and `*` are
undefined behaviour exactly if they are computed in a signed C++ type (both operands signed, or at most 16 bits, where
C++ computes in `int`) and the exact result does not fit that type; they have a result otherwise. -/
theorem C197_add_sub_mul (h : n ≤ 64) (x : Bits n s) (y : Bits n t) (hx : x.Clean) (hy : y.Clean) :
    UndefIff (x.add y) .overflow (((s && t) = true ∨ n ≤ 16) ∧ ¬ InW n (numOf s x.bv + numOf t y.bv)) ∧
    UndefIff (x.sub y) .overflow (((s && t) = true ∨ n ≤ 16) ∧ ¬ InW n (numOf s x.bv - numOf t y.bv)) ∧
    UndefIff (x.mul y) .overflow (((s && t) = true ∨ n ≤ 16) ∧ ¬ InW n (numOf s x.bv * numOf t y.bv)) := by
  rw [← (Bits.clean_native h x).1 hx, ← (Bits.clean_native h y).1 hy, Bits.add, Bits.sub, Bits.mul, dif_pos h, dif_pos h,
    dif_pos h]
  exact ⟨(Bits.arith_undef h x y (· + ·)).map _, (Bits.arith_undef h x y (· - ·)).map _, (Bits.arith_undef h x y (· * ·)).map _⟩

theorem InW.of_le {r : Int} (h0 : -2 ^ 31 ≤ r) (h1 : r < 2 ^ 31) : InW n r := by
  unfold InW; split_ifs <;> omega

/-- bounds of a number of at most 16 bits -/
theorem numOf_small (hn : 0 < n) (h16 : n ≤ 16) (b : BitVec n) : -2 ^ 15 ≤ numOf s b ∧ numOf s b < 2 ^ 16 := by
  have := Bits.numOf_bounds (s := s) hn b
  have p1 : (2 : Int) ^ n ≤ 2 ^ 16 := Bits.pow_mono h16
  have p2 : (2 : Int) ^ (n - 1) ≤ 2 ^ 15 := Bits.pow_mono (by omega)
  split_ifs at this <;> omega

/-- **C197, the types of sums and differences.** `+` and `-` are undefined behaviour exactly if both operands are
signed, have 32 or 64 bits and the exact result does not fit them. -/
theorem C197_add_sub (hn : 0 < n) (h : n ≤ 64) (x : Bits n s) (y : Bits n t) (hx : x.Clean) (hy : y.Clean) :
    UndefIff (x.add y) .overflow (s = true ∧ t = true ∧ (n = 32 ∨ n = 64) ∧
      ¬ (-2 ^ (n - 1) ≤ numOf s x.bv + numOf t y.bv ∧ numOf s x.bv + numOf t y.bv < 2 ^ (n - 1))) ∧
    UndefIff (x.sub y) .overflow (s = true ∧ t = true ∧ (n = 32 ∨ n = 64) ∧
      ¬ (-2 ^ (n - 1) ≤ numOf s x.bv - numOf t y.bv ∧ numOf s x.bv - numOf t y.bv < 2 ^ (n - 1))) := by
  obtain ⟨ha, hs, -⟩ := C197_add_sub_mul h x y hx hy
  have key : ∀ f : Int → Int → Int, f = (· + ·) ∨ f = (· - ·) →
      ((((s && t) = true ∨ n ≤ 16) ∧ ¬ InW n (f (numOf s x.bv) (numOf t y.bv))) ↔ (s = true ∧ t = true ∧ (n = 32 ∨ n = 64) ∧
      ¬ (-2 ^ (n - 1) ≤ f (numOf s x.bv) (numOf t y.bv) ∧ f (numOf s x.bv) (numOf t y.bv) < 2 ^ (n - 1)))) := by
    intro f hf
    by_cases h16 : n ≤ 16
    · have a := numOf_small (s := s) hn h16 x.bv
      have b := numOf_small (s := t) hn h16 y.bv
      constructor
      · rintro ⟨-, hc⟩
        exact absurd (InW.of_le (by rcases hf with e | e <;> subst e <;> simp only <;> omega)
          (by rcases hf with e | e <;> subst e <;> simp only <;> omega)) hc
      · rintro ⟨-, -, hc, -⟩
        omega
    · by_cases hst : s = true ∧ t = true
      swap
      · constructor
        · rintro ⟨hc, -⟩
          rw [Bool.and_eq_true] at hc
          tauto
        · rintro ⟨hs, ht, -⟩
          exact absurd ⟨hs, ht⟩ hst
      obtain ⟨rfl, rfl⟩ := hst
      by_cases hn2 : n = 32 ∨ n = 64
      · simp only [Bool.and_self, true_or, true_and, hn2]
        rcases hn2 with e | e <;> subst e <;> simp [InW]
      · constructor
        · rintro ⟨-, hc⟩
          exfalso
          apply hc
          have a := Bits.numOf_bounds (s := true) hn x.bv
          have b := Bits.numOf_bounds (s := true) hn y.bv
          rw [if_pos (by simp; omega)] at a b
          rw [← Bits.fits_inW]
          have hwe := hw_eq_of_gt (n := n) (by omega)
          have hlt : n ≤ hw n - 1 := by rw [hwe]; split_ifs <;> omega
          have p : (2 : Int) ^ n = 2 ^ (n - 1) * 2 := by rw [← pow_succ]; congr 1; omega
          apply Bits.fits_of (k := n) (Or.inr hlt)
          · rcases hf with e | e <;> subst e <;> simp only <;> omega
          · rcases hf with e | e <;> subst e <;> simp only <;> omega
        · rintro ⟨-, -, hc, -⟩
          exact absurd hc hn2
  exact ⟨ha.congr (key _ (.inl rfl)), hs.congr (key _ (.inr rfl))⟩

/-- **C197, the types of products.** Some product is undefined behaviour exactly if the operands are unsigned of 16
bits (C++ computes in `int`) or both signed of more than 16 bits. -/
theorem C197_mul_types (hn : 0 < n) (h : n ≤ 64) :
    (∃ (x : Bits n s) (y : Bits n t), x.Clean ∧ y.Clean ∧ x.mul y = .error .overflow) ↔
    (n = 16 ∧ s = false ∧ t = false) ∨ (16 < n ∧ s = true ∧ t = true) := by
  constructor
  · rintro ⟨x, y, hx, hy, e⟩
    obtain ⟨hc, hw⟩ := (C197_add_sub_mul h x y hx hy).2.2.iff.1 e
    by_cases h16 : n ≤ 16
    · left
      have a := Bits.numOf_bounds (s := s) hn x.bv
      have b := Bits.numOf_bounds (s := t) hn y.bv
      by_contra hne
      apply hw
      rw [InW, if_pos (by omega)]
      have p1 : (2 : Int) ^ (n - 1) ≤ 2 ^ 15 := Bits.pow_mono (by omega)
      have p2 : (2 : Int) ^ n ≤ 2 ^ 16 := Bits.pow_mono (by omega)
      have key : ∀ A B : Int, 0 ≤ A → 0 ≤ B → A * B < 2 ^ 31 → -A ≤ numOf s x.bv → numOf s x.bv ≤ A →
          -B ≤ numOf t y.bv → numOf t y.bv ≤ B → -2 ^ 31 ≤ numOf s x.bv * numOf t y.bv ∧
          numOf s x.bv * numOf t y.bv < 2 ^ 31 := by
        intro A B hA hB hAB a0 a1 b0 b1
        have := Bits.mul_bounds a0 a1 b0 b1
        omega
      by_cases h15 : n ≤ 15
      · have p3 : (2 : Int) ^ n ≤ 2 ^ 15 := Bits.pow_mono (by omega)
        refine key 32768 32768 (by omega) (by omega) (by omega) ?_ ?_ ?_ ?_ <;> split_ifs at a b <;> omega
      · cases s
        · cases t
          · exact absurd ⟨by omega, rfl, rfl⟩ hne
          · rw [if_pos (by simp; omega)] at b
            rw [if_neg (by simp)] at a
            refine key 65535 32768 (by omega) (by omega) (by omega) ?_ ?_ ?_ ?_ <;> omega
        · rw [if_pos (by simp; omega)] at a
          refine key 32768 65535 (by omega) (by omega) (by omega) ?_ ?_ ?_ ?_ <;> split_ifs at b <;> omega
    · right
      rw [Bool.and_eq_true] at hc
      have := hc.resolve_right h16
      exact ⟨by omega, this⟩
  · rintro (⟨rfl, rfl, rfl⟩ | ⟨h16, rfl, rfl⟩)
    · exact ⟨Bits.ofInt 65535, Bits.ofInt 65535, by decide +kernel, by decide +kernel, by decide +kernel⟩
    · obtain ⟨x, cx, bx⟩ := Bits.exists_clean (s := true) (BitVec.intMin n)
      refine ⟨x, x, cx, cx, (C197_add_sub_mul h x x cx cx).2.2.1 ⟨Or.inl rfl, ?_⟩⟩
      have e : numOf true x.bv = -2 ^ (n - 1) := by
        rw [numOf, if_pos (by simp; omega), bx, BitVec.toInt_intMin_of_pos (by omega)]
      rw [e, InW]
      have : (2 : Int) ^ (if n ≤ 32 then 31 else 63) ≤ 2 ^ (n - 1) * 2 ^ (n - 1) := by
        rw [← pow_add]
        exact Bits.pow_mono (by split_ifs <;> omega)
      intro hc
      rw [neg_mul_neg] at hc
      omega

/-- a nonzero divisor stays nonzero in the type of the division -/
theorem Bits.conv_ne_zero (h : n ≤ 64) (x : Bits n s) (y : Bits n t) (hy : y.nv.v ≠ 0) :
    (CTy.usual x.nv.ty y.nv.ty).conv y.nv.v ≠ 0 := by
  rw [Bits.nv_ty, Bits.nv_ty]
  by_cases hs : hw n < 32 ∨ (s && t) = true
  · have ey := Bits.usual_conv_nv (t := s) h y (by rw [Bool.and_comm]; exact hs)
    rw [Bits.usual_comm_holder] at ey
    rwa [ey]
  · obtain ⟨W, sg, e, hW, hsg⟩ := Bits.exists_usual n s t
    have hsg' : sg = false := by rw [hsg]; simpa using hs
    subst hsg'
    have hb := Bits.nv_abs_bounds h y
    have p : (2 : Int) ^ hw n ≤ 2 ^ W := Bits.pow_mono (by omega)
    rw [e]
    simp only [CTy.conv]
    intro hc
    have := Int.dvd_of_emod_eq_zero hc
    have h1 := Int.natAbs_dvd_natAbs.2 this
    have h2 := Nat.le_of_dvd (by omega) h1
    rw [Int.natAbs_natCast] at h2
    have h4 : ((2 ^ W : Nat) : Int) = 2 ^ W := by push_cast; rfl
    have p' : (2 : Int) ^ (hw n - 1) < 2 ^ hw n := pow_lt_pow_right₀ (by decide) (by have := hw_pos n; omega)
    omega

/-- a quotient fits unless it is the least number divided by -1 -/
theorem InW.tdiv (hn : 0 < n) (h : n ≤ 64) (a : BitVec n) (b : BitVec n) (hb : numOf t b ≠ 0)
    (hc : (s && t) = true ∨ n ≤ 16) :
    InW n ((numOf s a).tdiv (numOf t b)) ↔ ¬ (s = true ∧ t = true ∧ (n = 32 ∨ n = 64) ∧ a.toInt = -2 ^ (n - 1) ∧ b.toInt = -1) := by
  by_cases h16 : n ≤ 16
  · have hs := numOf_small (s := s) hn h16 a
    have := Bits.tdiv_range (N := 2 ^ 17) (by omega) (a := numOf s a) (b := numOf t b) (by omega) (by omega) hb (by omega)
    exact iff_of_true (InW.of_le (by omega) (by omega)) (by omega)
  · rw [Bool.and_eq_true] at hc
    obtain ⟨rfl, rfl⟩ := hc.resolve_right h16
    have e : ∀ b : BitVec n, numOf true b = b.toInt := fun b => by rw [numOf, if_pos (by simp; omega)]
    rw [e, e] at *
    have a0 := BitVec.le_toInt a
    have a1 := BitVec.toInt_lt (x := a)
    by_cases hm : a.toInt = -2 ^ (n - 1) ∧ b.toInt = -1
    · rw [hm.1, hm.2, Int.tdiv_neg, Int.tdiv_one, neg_neg]
      by_cases hn2 : n = 32 ∨ n = 64
      · refine iff_of_false ?_ (by simp [hn2])
        rcases hn2 with e | e <;> subst e <;> simp [InW]
      · refine iff_of_true ?_ (by tauto)
        rw [← Bits.fits_inW]
        have hwe := hw_eq_of_gt (n := n) (by omega)
        have hlt : n ≤ hw n - 1 := by rw [hwe]; split_ifs <;> omega
        have p : (2 : Int) ^ n = 2 ^ (n - 1) * 2 := by rw [← pow_succ]; congr 1; omega
        have p0 : (0 : Int) < 2 ^ (n - 1) := by positivity
        exact Bits.fits_of (k := n) (Or.inr hlt) (by omega) (by omega)
    · refine iff_of_true ?_ (by tauto)
      have := Bits.tdiv_range (N := 2 ^ (n - 1)) (by positivity) (by exact_mod_cast a0) (by exact_mod_cast a1) hb hm
      rw [← Bits.fits_inW]
      have hwe := le_hw h
      exact Bits.fits_of (k := n - 1) (Or.inr (by omega)) this.1 this.2

/-- **C197, quotient and remainder.** `/` and `%` are undefined behaviour exactly if the divisor is 0, or both operands
are signed, have 32 or 64 bits, the dividend is the least number and the divisor is -1. -/
theorem C197_div_mod (hn : 0 < n) (h : n ≤ 64) (x : Bits n s) (y : Bits n t) (hx : x.Clean) (hy : y.Clean) :
    (y.bv = 0 → x.div y = .error .divZero ∧ x.mod y = .error .divZero) ∧
    (y.bv ≠ 0 →
      UndefIff (x.div y) .overflow (s = true ∧ t = true ∧ (n = 32 ∨ n = 64) ∧ x.bv.toInt = -2 ^ (n - 1) ∧ y.bv.toInt = -1) ∧
      UndefIff (x.mod y) .overflow (s = true ∧ t = true ∧ (n = 32 ∨ n = 64) ∧ x.bv.toInt = -2 ^ (n - 1) ∧ y.bv.toInt = -1)) := by
  refine ⟨Bits.div_zero_any h x y hy, fun hy0 => ?_⟩
  have ex := (Bits.clean_native h x).1 hx
  have ey := (Bits.clean_native h y).1 hy
  have hne : numOf t y.bv ≠ 0 := by
    have e0 : numOf t (0 : BitVec n) = 0 := by rw [numOf]; split_ifs <;> simp
    rw [← e0]
    exact fun e => hy0 (numOf_inj.1 e)
  have hc := Bits.conv_ne_zero h x y (by rw [ey]; exact hne)
  have hd := Bits.arith_undef h x y Int.tdiv
  have hm := Bits.arith_undef h x y Int.tmod
  rw [ex, ey] at hd hm
  have hmod : ∃ z, TV.arith Int.tmod x.nv y.nv = .ok z := by
    apply hm.2
    rintro ⟨hc, hw⟩
    apply hw
    by_cases h16 : n ≤ 16
    · have hs := numOf_small (s := s) hn h16 x.bv
      have := Bits.tmod_range (N := 2 ^ 17) (a := numOf s x.bv) (b := numOf t y.bv) (by omega) (by omega)
      exact InW.of_le (by omega) (by omega)
    · rw [Bool.and_eq_true] at hc
      obtain ⟨rfl, rfl⟩ := hc.resolve_right h16
      have a := Bits.numOf_bounds (s := true) hn x.bv
      rw [if_pos (by simp; omega)] at a
      have := Bits.tmod_range (b := numOf true y.bv) a.1 a.2
      rw [← Bits.fits_inW]
      have hwe := le_hw h
      exact Bits.fits_of (k := n - 1) (Or.inr (by omega)) this.1 this.2
  have hd' : UndefIff (TV.arith Int.tdiv x.nv y.nv) .overflow
      (s = true ∧ t = true ∧ (n = 32 ∨ n = 64) ∧ x.bv.toInt = -2 ^ (n - 1) ∧ y.bv.toInt = -1) := by
    refine hd.congr ⟨?_, ?_⟩
    · rintro ⟨h1, h2⟩
      rw [InW.tdiv hn h _ _ hne h1] at h2
      exact not_not.1 h2
    · intro hq
      have h1 : (s && t) = true ∨ n ≤ 16 := Or.inl (by rw [hq.1, hq.2.1]; rfl)
      exact ⟨h1, by rw [InW.tdiv hn h _ _ hne h1]; exact not_not.2 hq⟩
  constructor
  · rw [Bits.div, dif_pos h, TV.div, if_neg hc]
    exact hd'.map _
  · rw [Bits.mod, dif_pos h, TV.mod, if_neg hc]
    apply UndefIff.map
    refine ⟨fun p => by rw [hd'.1 p], fun p => ?_⟩
    obtain ⟨z, hz⟩ := hd'.2 p
    rw [hz]
    exact hmod

/-- **C197, unary minus.** Unary minus is undefined behaviour exactly on the least number of a signed vector of 32 or
64 bits. -/
theorem C197_neg (hn : 0 < n) (h : n ≤ 64) (x : Bits n s) (hx : x.Clean) :
    UndefIff (x.neg h) .overflow (s = true ∧ (n = 32 ∨ n = 64) ∧ x.bv.toInt = -2 ^ (n - 1)) := by
  refine ⟨?_, fun p => ?_⟩
  · rintro ⟨rfl, hn2, hm⟩
    exact C35_min_overflow h hn2 x hx hm
  · obtain ⟨z, hz, -⟩ := ((C35_neg_iff hn x hx).1 h).2 p
    exact ⟨z, hz⟩

/-- **C197, 4-state operands, partial.** An unknown bit in an operand makes every arithmetic operator give a result, whatever
the known bits are, and so does a divisor that is 0. With known operands (and a divisor other than 0) an operator is
undefined behaviour exactly if the 2-state operator is on the values. Missing: wide operands, for which the first claim is
false (`C197_logic_refuted`); what holds of them is `C197_logic_wide`. -/
theorem C197_logic_partial (hn : 0 < n) (h : n ≤ 64) (x : Lg n s) (y : Lg n t) (hc : y.value.Clean) :
    ((∃ i < n, (x.at i).isKnown = false) ∨ (∃ i < n, (y.at i).isKnown = false) → ∃ a b c d e,
      x.add y = .ok a ∧ x.sub y = .ok b ∧ x.mul y = .ok c ∧ x.div y = .ok d ∧ x.mod y = .ok e) ∧
    (x.Known → y.Known → ∀ e : Fault,
      (x.add y = .error e ↔ x.value.add y.value = .error e) ∧ (x.sub y = .error e ↔ x.value.sub y.value = .error e) ∧
      (x.mul y = .error e ↔ x.value.mul y.value = .error e) ∧
      (x.div y = .error e ↔ y.value.bv ≠ 0 ∧ x.value.div y.value = .error e) ∧
      (x.mod y = .error e ↔ y.value.bv ≠ 0 ∧ x.value.mod y.value = .error e)) := by
  constructor
  · intro hu
    have hxy : (x.xz.anySet || y.xz.anySet) = true := by
      rcases hu with ⟨i, hi, hk⟩ | ⟨i, hi, hk⟩
      · rw [Lg.anySet_of_unknown hi (Or.inl h) hk]; rfl
      · rw [Lg.anySet_of_unknown hi (Or.inl h) hk, Bool.or_true]
    obtain ⟨d, hd, -⟩ := Lg.dflt_ok (n := n) (s := s && t) hn
    refine ⟨d, d, d, d, d, ?_, ?_, ?_, ?_, ?_⟩
    · rw [Lg.add, Lg.arithWith, if_pos hxy, hd]
    · rw [Lg.sub, Lg.arithWith, if_pos hxy, hd]
    · rw [Lg.mul, Lg.arithWith, if_pos hxy, hd]
    · rw [Lg.div, Lg.divWith, if_pos (by rw [hxy]; rfl), hd]
    · rw [Lg.mod, Lg.divWith, if_pos (by rw [hxy]; rfl), hd]
  · intro hx hy e
    have hm : ∀ (r : Res (Bits n (s && t))), (r.map fun v => (⟨v, Bits.zero⟩ : Lg n (s && t))) = .error e ↔ r = .error e := by
      intro r
      cases r with
      | error f => exact ⟨fun q => by injection q with q; rw [q], fun q => by injection q with q; rw [q]; rfl⟩
      | ok v => exact iff_of_false (fun q => by cases q) (fun q => by cases q)
    have ha : ∀ f : Bits n s → Bits n t → Res (Bits n (s && t)),
        Lg.arithWith f x y = .error e ↔ f x.value y.value = .error e := by
      intro f
      rw [Lg.arithWith, hx.anySet, hy.anySet, if_neg (by decide), hm]
    have hd : ∀ f : Bits n s → Bits n t → Res (Bits n (s && t)),
        Lg.divWith f x y = .error e ↔ y.value.anySet = true ∧ f x.value y.value = .error e := by
      intro f
      obtain ⟨d, hd, -⟩ := Lg.dflt_ok (n := n) (s := s && t) hn
      rw [Lg.divWith, hx.anySet, hy.anySet]
      cases y.value.anySet
      · rw [if_pos (by decide), hd]
        exact iff_of_false (fun q => by cases q) (fun q => by cases q.1)
      · rw [if_neg (by decide), hm]
        simp
    rw [Bits.anySet_native h hc, decide_eq_true_iff] at hd
    exact ⟨ha _, ha _, ha _, hd _, hd _⟩

/-- **C197, wide vectors.** Above 64 bits sums, differences, quotients and remainders always have a result, also with
the divisor 0. A product writes outside its storage exactly if some pair of set bits lies in limbs whose product has its
upper half past the last limb, unless `fit_in_64` holds of both operands; it has a result otherwise. -/
theorem C197_wide (h : 64 < n) (hN : n ≤ 2 ^ 32) :
    (∀ (x : Bits n s) (y : Bits n t), x.Clean → y.Clean →
      (∃ a, x.add y = .ok a) ∧ (∃ b, x.sub y = .ok b) ∧
      UndefIff (x.mul y) .oob (¬ (LowOnly x.bv ∧ LowOnly y.bv) ∧
        ∃ i j, x.bv.getLsbD i = true ∧ y.bv.getLsbD j = true ∧ n ≤ 64 * (i / 64 + j / 64 + 1))) ∧
    (∀ x y : Bits n false, x.Clean → y.Clean → (∃ q, x.div y = .ok q) ∧ (∃ r, x.mod y = .ok r)) := by
  have h' : ¬ n ≤ 64 := by omega
  constructor
  · intro x y hx hy
    refine ⟨⟨_, by rw [Bits.add, dif_neg h']⟩, ⟨_, by rw [Bits.sub, dif_neg h']⟩, ?_⟩
    obtain ⟨hl, hm⟩ := Bits.mul_wide_exact h' x y hx hy
    refine ⟨fun p => (hm p.1).1 p.2, fun p => ?_⟩
    by_cases hlo : LowOnly x.bv ∧ LowOnly y.bv
    · obtain ⟨z, hz, -⟩ := hl hlo
      exact ⟨z, hz⟩
    · obtain ⟨z, hz, -⟩ := (hm hlo).2 fun q => p ⟨hlo, q⟩
      exact ⟨z, hz⟩
  · intro x y hx hy
    obtain ⟨q, r, hq, hr, -⟩ := Bits.div_wide_exact h' hN x y hx hy
    exact ⟨⟨q, hq⟩, ⟨r, hr⟩⟩

/-- **C197, wide 4-state operands.** Sums and differences always have a result. A product writes outside its storage
exactly if the test for unknown bits sees none in either operand and the product of the values does. For unsigned operands
quotients and remainders always have a result. -/
theorem C197_logic_wide (h : 64 < n) (hN : n ≤ 2 ^ 32) :
    (∀ (x : Lg n s) (y : Lg n t), x.Clean → y.Clean →
      (∃ a, x.add y = .ok a) ∧ (∃ b, x.sub y = .ok b) ∧
      UndefIff (x.mul y) .oob (¬ x.SeenXZ ∧ ¬ y.SeenXZ ∧ ¬ (LowOnly x.value.bv ∧ LowOnly y.value.bv) ∧
        ∃ i j, x.value.bv.getLsbD i = true ∧ y.value.bv.getLsbD j = true ∧ n ≤ 64 * (i / 64 + j / 64 + 1))) ∧
    (∀ x y : Lg n false, x.Clean → y.Clean → (∃ q, x.div y = .ok q) ∧ (∃ r, x.mod y = .ok r)) := by
  constructor
  · intro x y hx hy
    obtain ⟨⟨a, ha⟩, ⟨b, hb⟩, hm⟩ := (C197_wide (s := s) (t := t) h hN).1 x.value y.value hx.1 hy.1
    obtain ⟨d, hd, -⟩ := Lg.dflt_ok (n := n) (s := s && t) (by omega)
    have ok : ∀ (f : Bits n s → Bits n t → Res (Bits n (s && t))) v, f x.value y.value = .ok v → ∃ z, Lg.arithWith f x y = .ok z := by
      intro f v hv
      rw [Lg.arithWith]
      split
      · exact ⟨d, hd⟩
      · exact ⟨_, by rw [hv, res_map_ok]⟩
    refine ⟨ok _ a ha, ok _ b hb, fun p => ?_, fun p => ?_⟩
    · have e1 : x.xz.anySet = false := by rw [← Bool.not_eq_true, Lg.anySet_iff_seen hx.2]; exact p.1
      have e2 : y.xz.anySet = false := by rw [← Bool.not_eq_true, Lg.anySet_iff_seen hy.2]; exact p.2.1
      rw [Lg.mul, Lg.arithWith, e1, e2, if_neg (by decide), hm.1 p.2.2]; rfl
    · by_cases q : x.xz.anySet = true ∨ y.xz.anySet = true
      · exact ⟨d, by rw [Lg.mul, Lg.arithWith, if_pos (by rcases q with q | q <;> simp [q]), hd]⟩
      · rw [Lg.anySet_iff_seen hx.2, Lg.anySet_iff_seen hy.2, not_or] at q
        obtain ⟨v, hv⟩ := hm.2 fun r => p ⟨q.1, q.2, r⟩
        exact ok _ v hv
  · intro x y hx hy
    obtain ⟨⟨a, ha⟩, b, hb⟩ := (C197_wide (s := false) (t := false) h hN).2 x.value y.value hx.1 hy.1
    obtain ⟨d, hd, -⟩ := Lg.dflt_ok (n := n) (s := false && false) (by omega)
    have ok : ∀ (f : Bits n false → Bits n false → Res (Bits n (false && false))) v, f x.value y.value = .ok v →
        ∃ z, Lg.divWith f x y = .ok z := by
      intro f v hv
      rw [Lg.divWith]
      split
      · exact ⟨d, hd⟩
      · exact ⟨_, by rw [hv, res_map_ok]⟩
    exact ⟨ok _ a ha, ok _ b hb⟩

/-- **C197 is false of wide 4-state products**: at every wide width there is an operand with an unknown bit whose square
is undefined behaviour. -/
theorem C197_logic_refuted (h : 64 < n) (hN : n ≤ 2 ^ 32) :
    ∃ x : Lg n s, x.Clean ∧ (x.at 40).isKnown = false ∧ x.mul x = .error .oob := by
  obtain ⟨v, cv, ev⟩ := Bits.exists_clean (s := s) (BitVec.twoPow n (64 * ((n - 1) / 64)))
  obtain ⟨x, rfl, cx, h40, hs⟩ := exists_unseen h v
  have hbit : x.value.bv.getLsbD (64 * ((n - 1) / 64)) = true := by
    rw [ev, BitVec.getLsbD_twoPow, decide_eq_true (by omega), decide_eq_true rfl]; rfl
  refine ⟨x, ⟨cv, cx⟩, h40, ((C197_logic_wide h hN).1 x x ⟨cv, cx⟩ ⟨cv, cx⟩).2.2.1 ⟨hs, hs, fun hl => ?_, _, _, hbit, hbit, by omega⟩⟩
  rw [hl.1 _ (by omega) (by omega)] at hbit
  cases hbit

/-! ## cases -/

example : (Bits.ofInt 65535 : Bits 16 false).Clean ∧
    (Bits.ofInt 65535 : Bits 16 false).mul (Bits.ofInt 65535 : Bits 16 false) = .error .overflow := by decide +kernel

example : (Bits.ofInt (-2 ^ 31) : Bits 32 true).Clean ∧ (Bits.ofInt (-1) : Bits 32 true).Clean ∧
    (Bits.ofInt (-2 ^ 31) : Bits 32 true).div (Bits.ofInt (-1) : Bits 32 true) = .error .overflow ∧
    (Bits.ofInt (-2 ^ 31) : Bits 32 true).mod (Bits.ofInt (-1) : Bits 32 true) = .error .overflow ∧
    (Bits.ofInt (-2 ^ 31) : Bits 32 true).add (Bits.ofInt (-1) : Bits 32 true) = .error .overflow := by decide +kernel

/-- 31 bits are enough room -/
example : (Bits.ofInt (-2 ^ 30) : Bits 31 true).Clean ∧
    ((Bits.ofInt (-2 ^ 30) : Bits 31 true).div (Bits.ofInt (-1) : Bits 31 true)).toOption.isSome = true ∧
    ((Bits.ofInt (-2 ^ 30) : Bits 31 true).add (Bits.ofInt (-1) : Bits 31 true)).toOption.isSome = true := by decide +kernel

/-- a square of 70 bits, bit 40 of the operand an x: the unknown bit is not seen and the product leaves the storage -/
example : (do
    let v ← (Bits.ofInt 1 : Bits 70 false).shl (Bits.ofInt 64 : Bits 32 false)
    let u ← (Bits.ofInt 1 : Bits 70 false).shl (Bits.ofInt 40 : Bits 32 false)
    let x : Lg 70 false := ⟨v, u⟩
    x.mul x : Res (Lg 70 false)) = .error .oob := by decide +kernel

end Verif
