import Verif.Lemmas.BitOps
import Verif.Lemmas.BigDiv

/-! Arithmetic and comparison of 2-state values. -/

namespace Verif

theorem usual_holder (n : Nat) (s t : Bool) :
    CTy.usual (holderTy n s) (holderTy n t) =
      if hw n < 32 then .int 32 true else .int (hw n) (s && t) := by
  by_cases h1 : n ≤ 1
  · rw [holderTy_one h1, holderTy_one h1, hw_one h1]; rfl
  · rw [holderTy_ge h1, holderTy_ge h1]
    rcases hw_cases n with h | h | h | h | h <;> rw [h] <;> cases s <;> cases t <;> rfl

theorem hw_lt_iff (n : Nat) : hw n < 32 ↔ n ≤ 16 := by
  simp only [hw]; split_ifs <;> omega

theorem hw_eq_of_gt {n : Nat} (h : 16 < n) : hw n = if n ≤ 32 then 32 else 64 := by
  simp only [hw]; split_ifs <;> omega

namespace Bits

variable {n m : Nat} {s t : Bool}

theorem nv_bounds (h : n ≤ 64) (x : Bits n s) :
    if s && !decide (n ≤ 1) then -2 ^ (hw n - 1) ≤ x.nv.v ∧ x.nv.v < 2 ^ (hw n - 1)
    else 0 ≤ x.nv.v ∧ x.nv.v < 2 ^ hw n := by
  rw [nv_v h]
  split_ifs with hs
  · have h1 := BitVec.le_toInt x.hold
    have h2 := BitVec.toInt_lt (x := x.hold)
    exact ⟨by simpa using h1, by simpa using h2⟩
  · have := x.hold.isLt
    exact ⟨by omega, by exact_mod_cast this⟩

theorem nv_abs_bounds (h : n ≤ 64) (x : Bits n s) :
    -2 ^ (hw n - 1) ≤ x.nv.v ∧ x.nv.v < 2 ^ hw n := by
  have := nv_bounds h x
  have hp : (2 : Int) ^ hw n = 2 ^ (hw n - 1) * 2 := by
    rw [← pow_succ]; congr 1; have := hw_pos n; omega
  have hpos : (0 : Int) < 2 ^ (hw n - 1) := by positivity
  split_ifs at this <;> constructor <;> omega

theorem nv_nonneg (h : n ≤ 64) (x : Bits n false) : 0 ≤ x.nv.v ∧ x.nv.v < 2 ^ hw n := by
  have := nv_bounds h x
  simpa using this

theorem nv_signed (h : n ≤ 64) (h1 : 1 < n) (x : Bits n true) :
    -2 ^ (hw n - 1) ≤ x.nv.v ∧ x.nv.v < 2 ^ (hw n - 1) := by
  have := nv_bounds h x
  simpa [show ¬ n ≤ 1 by omega] using this

theorem numOf_bounds (hn : 0 < n) (b : BitVec n) :
    if s && !decide (n ≤ 1) then -2 ^ (n - 1) ≤ numOf s b ∧ numOf s b < 2 ^ (n - 1)
    else 0 ≤ numOf s b ∧ numOf s b < 2 ^ n := by
  rw [numOf]
  split_ifs with hs
  · have h1 := BitVec.le_toInt b
    have h2 := BitVec.toInt_lt (x := b)
    exact ⟨by simpa using h1, by simpa using h2⟩
  · have := b.isLt
    exact ⟨by omega, by exact_mod_cast this⟩

/-- the result type's exact-arithmetic condition for a signed common type -/
def fits (n : Nat) (r : Int) : Prop := -2 ^ (max 32 (hw n) - 1) ≤ r ∧ r < 2 ^ (max 32 (hw n) - 1)

theorem usual_conv_nv (h : n ≤ 64) (x : Bits n s) (hs : hw n < 32 ∨ (s && t) = true) :
    (CTy.usual (holderTy n s) (holderTy n t)).conv x.nv.v = x.nv.v := by
  rw [usual_holder]
  have hb := nv_bounds h x
  have hab := nv_abs_bounds h x
  by_cases h32 : hw n < 32
  · rw [if_pos h32]
    have : (2 : Int) ^ hw n ≤ 2 ^ 31 := pow_le_pow_right₀ (by decide) (by omega)
    have h3 : (2 : Int) ^ (hw n - 1) ≤ 2 ^ 31 := pow_le_pow_right₀ (by decide) (by omega)
    apply CTy.conv_signed_of_mem (by decide)
    · have : (2 : Int) ^ (32 - 1) = 2 ^ 31 := rfl
      omega
    · have : (2 : Int) ^ (32 - 1) = 2 ^ 31 := rfl
      omega
  · rw [if_neg h32]
    have hst : (s && t) = true := by tauto
    have h1 : 1 < n := by
      by_contra hc
      rw [hw_one (by omega)] at h32; omega
    rw [hst]
    simp only [Bool.and_eq_true] at hst
    have hsn : (s && !decide (n ≤ 1)) = true := by simp [hst.1, h1]
    rw [if_pos hsn] at hb
    exact CTy.conv_signed_of_mem (by omega) hb.1 hb.2

theorem usual_comm_holder (n : Nat) (s t : Bool) :
    CTy.usual (holderTy n s) (holderTy n t) = CTy.usual (holderTy n t) (holderTy n s) := by
  rw [usual_holder, usual_holder, Bool.and_comm]

/-- exact outcome of a built-in `+ - *` on two equally wide holders -/
theorem arith_exact (h : n ≤ 64) (x : Bits n s) (y : Bits n t) (f : Int → Int → Int)
    (g : (w : Nat) → BitVec w → BitVec w → BitVec w)
    (hfg : ∀ w a b, BitVec.ofInt w (f a b) = g w (BitVec.ofInt w a) (BitVec.ofInt w b)) :
    if hw n < 32 ∨ (s && t) = true then
      (fits n (f x.nv.v y.nv.v) → ∃ v, TV.arith f x.nv y.nv = .ok v ∧ v.v = f x.nv.v y.nv.v) ∧
      (¬ fits n (f x.nv.v y.nv.v) → TV.arith f x.nv y.nv = .error .overflow)
    else ∃ v, TV.arith f x.nv y.nv = .ok v ∧
      BitVec.ofInt (hw n) v.v = g (hw n) (BitVec.ofInt (hw n) x.nv.v) (BitVec.ofInt (hw n) y.nv.v) := by
  split_ifs with hs
  · have ex := usual_conv_nv (t := t) h x hs
    have ey := usual_conv_nv (t := s) h y (by rw [Bool.and_comm]; exact hs)
    rw [usual_comm_holder] at ey
    simp only [TV.arith, nv_ty, ex, ey]
    have hW : ∃ W, CTy.usual (holderTy n s) (holderTy n t) = .int W true ∧ W = max 32 (hw n) := by
      rw [usual_holder]
      by_cases h32 : hw n < 32
      · rw [if_pos h32]; exact ⟨32, rfl, by omega⟩
      · rw [if_neg h32]
        have hst : (s && t) = true := by tauto
        exact ⟨hw n, by rw [hst], by omega⟩
    obtain ⟨W, hW, hWe⟩ := hW
    rw [hW]
    simp only [CTy.signed, Bool.true_and]
    have hWpos : 0 < W := by omega
    refine ⟨?_, ?_⟩
    · intro hfit
      have : (CTy.int W true).conv (f x.nv.v y.nv.v) = f x.nv.v y.nv.v :=
        CTy.conv_signed_of_mem hWpos (by rw [hWe]; exact hfit.1) (by rw [hWe]; exact hfit.2)
      refine ⟨⟨.int W true, f x.nv.v y.nv.v⟩, ?_, rfl⟩
      rw [this]; simp
    · intro hfit
      have hne : (CTy.int W true).conv (f x.nv.v y.nv.v) ≠ f x.nv.v y.nv.v := by
        intro e
        apply hfit
        have := CTy.conv_signed_mem hWpos (f x.nv.v y.nv.v)
        rw [e, hWe] at this
        exact this
      rw [if_pos (by simpa using hne)]
  · have h32 : ¬ hw n < 32 := by tauto
    have hst : (s && t) = false := by simpa using fun h => hs (Or.inr h)
    have hu : CTy.usual (holderTy n s) (holderTy n t) = .int (hw n) false := by
      rw [usual_holder, if_neg h32, hst]
    simp only [TV.arith, nv_ty, hu, CTy.signed, Bool.false_and, Bool.false_eq_true, if_false]
    refine ⟨_, rfl, ?_⟩
    rw [ofInt_conv (Nat.le_refl _), hfg, ofInt_conv (Nat.le_refl _), ofInt_conv (Nat.le_refl _)]

/-- `+ - *` on native values: the low bits are those of the exact result -/
theorem arith_bv (h : n ≤ 64) (h1 : 1 < n) (x : Bits n s) (y : Bits n t) (f : Int → Int → Int)
    (g : (w : Nat) → BitVec w → BitVec w → BitVec w)
    (hfg : ∀ w a b, BitVec.ofInt w (f a b) = g w (BitVec.ofInt w a) (BitVec.ofInt w b))
    (hg : ∀ k w (a b : BitVec w), k ≤ w → (g w a b).setWidth k = g k (a.setWidth k) (b.setWidth k))
    (hfit : hw n < 32 ∨ (s && t) = true → fits n (f x.nv.v y.nv.v)) :
    ∃ z : Bits n (s && t), (TV.arith f x.nv y.nv).map (mkN h) = .ok z ∧ z.bv = g n x.bv y.bv := by
  have key := arith_exact h x y f g hfg
  have hle := le_hw h
  split_ifs at key with hs
  · obtain ⟨v, hv, e⟩ := key.1 (hfit hs)
    refine ⟨mkN h v, by rw [hv]; rfl, ?_⟩
    rw [bv_mkN h (by omega), e, hfg, bv_ofInt h x, bv_ofInt h y]
  · obtain ⟨v, hv, e⟩ := key
    refine ⟨mkN h v, by rw [hv]; rfl, ?_⟩
    rw [bv_mkN h (by omega), ← setWidth_ofInt hle, e, hg _ _ _ _ hle, setWidth_ofInt hle,
      setWidth_ofInt hle, bv_ofInt h x, bv_ofInt h y]

theorem setWidth_add' (k w : Nat) (a b : BitVec w) (h : k ≤ w) :
    (a + b).setWidth k = a.setWidth k + b.setWidth k := by
  rw [BitVec.setWidth_add _ _ h]

theorem setWidth_sub' (k w : Nat) (a b : BitVec w) (h : k ≤ w) :
    (a - b).setWidth k = a.setWidth k - b.setWidth k := by
  rw [BitVec.sub_eq_add_neg, BitVec.sub_eq_add_neg, BitVec.setWidth_add _ _ h,
    BitVec.setWidth_neg_of_le h]

theorem setWidth_mul' (k w : Nat) (a b : BitVec w) (h : k ≤ w) :
    (a * b).setWidth k = a.setWidth k * b.setWidth k := by
  rw [BitVec.setWidth_mul _ _ h]

theorem add_native (h : n ≤ 64) (h1 : 1 < n) (x : Bits n s) (y : Bits n t)
    (hfit : hw n < 32 ∨ (s && t) = true → fits n (x.nv.v + y.nv.v)) :
    ∃ z, x.add y = .ok z ∧ z.bv = x.bv + y.bv := by
  rw [add, dif_pos h]
  exact arith_bv h h1 x y (· + ·) (fun _ a b => a + b) (fun w a b => BitVec.ofInt_add a b)
    (fun k w a b hk => setWidth_add' k w a b hk) hfit

theorem sub_native (h : n ≤ 64) (h1 : 1 < n) (x : Bits n s) (y : Bits n t)
    (hfit : hw n < 32 ∨ (s && t) = true → fits n (x.nv.v - y.nv.v)) :
    ∃ z, x.sub y = .ok z ∧ z.bv = x.bv - y.bv := by
  rw [sub, dif_pos h]
  exact arith_bv h h1 x y (· - ·) (fun _ a b => a - b) (fun w a b => ofInt_sub a b)
    (fun k w a b hk => setWidth_sub' k w a b hk) hfit

theorem mul_native (h : n ≤ 64) (h1 : 1 < n) (x : Bits n s) (y : Bits n t)
    (hfit : hw n < 32 ∨ (s && t) = true → fits n (x.nv.v * y.nv.v)) :
    ∃ z, x.mul y = .ok z ∧ z.bv = x.bv * y.bv := by
  rw [mul, dif_pos h]
  exact arith_bv h h1 x y (· * ·) (fun _ a b => a * b) (fun w a b => BitVec.ofInt_mul a b)
    (fun k w a b hk => setWidth_mul' k w a b hk) hfit

theorem add_wide (h : ¬ n ≤ 64) (x : Bits n s) (y : Bits n t) :
    ∃ z, x.add y = .ok z ∧ z.bv = x.bv + y.bv := by
  refine ⟨.big h ((x.bg h).add (y.bg h)), by rw [add, dif_neg h], ?_⟩
  rw [bv_big h, bv_big h x, bv_big h y, bg_big]
  exact Big.bv_add _ _

theorem sub_wide (h : ¬ n ≤ 64) (x : Bits n s) (y : Bits n t) :
    ∃ z, x.sub y = .ok z ∧ z.bv = x.bv - y.bv := by
  refine ⟨.big h ((x.bg h).sub (y.bg h)), by rw [sub, dif_neg h], ?_⟩
  rw [bv_big h, bv_big h x, bv_big h y, bg_big]
  exact Big.bv_sub (by omega) _ _

/-! ### when the exact result fits -/

theorem clean_signed_bounds (h : n ≤ 64) (h1 : 1 < n) {x : Bits n true} (hc : x.Clean) :
    x.nv.v = x.bv.toInt ∧ -2 ^ (n - 1) ≤ x.nv.v ∧ x.nv.v < 2 ^ (n - 1) := by
  rw [clean_native h] at hc
  have := numOf_bounds (s := true) (by omega) x.bv
  simp only [Bool.true_and, show ¬ n ≤ 1 by omega, decide_false, Bool.not_false, if_true] at this
  rw [hc]
  refine ⟨?_, this⟩
  simp [numOf, show ¬ n ≤ 1 by omega]

theorem clean_unsigned_bounds (h : n ≤ 64) {x : Bits n false} (hc : x.Clean) :
    x.nv.v = x.bv.toNat ∧ 0 ≤ x.nv.v ∧ x.nv.v < 2 ^ n := by
  have e := clean_unsigned_num h hc
  have := x.bv.isLt
  refine ⟨e, by omega, ?_⟩
  rw [e]; exact_mod_cast this

theorem pow_mono {a b : Nat} (h : a ≤ b) : (2 : Int) ^ a ≤ 2 ^ b :=
  pow_le_pow_right₀ (by decide) h

theorem fits_of {r : Int} {k : Nat} (hk : k ≤ 31 ∨ k ≤ hw n - 1) (h0 : -2 ^ k ≤ r)
    (h1 : r < 2 ^ k) : fits n r := by
  have : (2 : Int) ^ k ≤ 2 ^ (max 32 (hw n) - 1) := pow_mono (by omega)
  constructor <;> omega

/-- the operands of a signed-signed `+`, `-` never overflow the holder when the
declared width leaves room, or by assumption -/
theorem fits_addlike (h : n ≤ 64) (h1 : 1 < n) (x : Bits n s) (y : Bits n t)
    (f : Int → Int → Int) (hf : f = (· + ·) ∨ f = (· - ·))
    (hc : s = true → t = true → 16 < n → x.Clean ∧ y.Clean ∧
      (n = 32 ∨ n = 64 → -2 ^ (n - 1) ≤ f x.bv.toInt y.bv.toInt ∧
        f x.bv.toInt y.bv.toInt < 2 ^ (n - 1)))
    (hs : hw n < 32 ∨ (s && t) = true) : fits n (f x.nv.v y.nv.v) := by
  by_cases h16 : n ≤ 16
  · have ax := nv_abs_bounds h x
    have ay := nv_abs_bounds h y
    have h32 := (hw_lt_iff n).2 h16
    have e16 : hw n ≤ 16 := by rcases hw_cases n with h | h | h | h | h <;> omega
    have p1 : (2 : Int) ^ hw n ≤ 2 ^ 16 := pow_mono e16
    have p2 : (2 : Int) ^ (hw n - 1) ≤ 2 ^ 16 := pow_mono (by omega)
    apply fits_of (k := 20) (Or.inl (by omega))
    · rcases hf with e | e <;> subst e <;> simp only <;> omega
    · rcases hf with e | e <;> subst e <;> simp only <;> omega
  · have h32 : ¬ hw n < 32 := by rw [hw_lt_iff]; omega
    have hst : (s && t) = true := by tauto
    rw [Bool.and_eq_true] at hst
    obtain ⟨hs', ht'⟩ := hst
    subst hs' ht'
    obtain ⟨cx, cy, hr⟩ := hc rfl rfl (by omega)
    obtain ⟨ex, bx, bx'⟩ := clean_signed_bounds h h1 cx
    obtain ⟨ey, bY, bY'⟩ := clean_signed_bounds h h1 cy
    have hwe := hw_eq_of_gt (n := n) (by omega)
    by_cases hn : n = 32 ∨ n = 64
    · have := hr hn
      rw [← ex, ← ey] at this
      exact fits_of (Or.inr (by rcases hn with hn | hn <;> subst hn <;> decide)) this.1 this.2
    · have hlt : n ≤ hw n - 1 := by
        rw [hwe]; split_ifs <;> omega
      have p : (2 : Int) ^ n = 2 ^ (n - 1) * 2 := by rw [← pow_succ]; congr 1; omega
      apply fits_of (k := n) (Or.inr hlt)
      · rcases hf with e | e <;> subst e <;> simp only <;> omega
      · rcases hf with e | e <;> subst e <;> simp only <;> omega

theorem mul_bounds {a b A B : Int} (ha0 : -A ≤ a) (ha1 : a ≤ A) (hb0 : -B ≤ b) (hb1 : b ≤ B) :
    -(A * B) ≤ a * b ∧ a * b ≤ A * B := by
  constructor <;> nlinarith

theorem fits_mul (h : n ≤ 64) (h1 : 1 < n) (x : Bits n s) (y : Bits n t)
    (hu : s = false → t = false → 8 < n → n ≤ 16 → x.Clean ∧ y.Clean ∧
      x.bv.toNat * y.bv.toNat < 2 ^ 31)
    (hc : s = true → t = true → 16 < n → x.Clean ∧ y.Clean ∧
      -2 ^ (hw n - 1) ≤ x.bv.toInt * y.bv.toInt ∧ x.bv.toInt * y.bv.toInt < 2 ^ (hw n - 1))
    (hs : hw n < 32 ∨ (s && t) = true) : fits n (x.nv.v * y.nv.v) := by
  by_cases h16 : n ≤ 16
  · have ax := nv_bounds h x
    have ay := nv_bounds h y
    simp only [show ¬ n ≤ 1 by omega, decide_false, Bool.not_false, Bool.and_true] at ax ay
    by_cases h8 : n ≤ 8
    · have e8 : hw n = 8 := by simp only [hw]; split_ifs <;> omega
      have ax' := nv_abs_bounds h x
      have ay' := nv_abs_bounds h y
      rw [e8] at ax' ay'
      have := mul_bounds (A := 256) (B := 256) (a := x.nv.v) (b := y.nv.v) (by omega) (by omega)
        (by omega) (by omega)
      exact fits_of (k := 20) (Or.inl (by omega)) (by omega) (by omega)
    · have e16 : hw n = 16 := by simp only [hw]; split_ifs <;> omega
      rw [e16] at ax ay
      by_cases hst : s = false ∧ t = false
      · obtain ⟨hs', ht'⟩ := hst
        subst hs' ht'
        obtain ⟨cx, cy, hp⟩ := hu rfl rfl (by omega) h16
        rw [(clean_unsigned_bounds h cx).1, (clean_unsigned_bounds h cy).1]
        have hp' : (x.bv.toNat : Int) * (y.bv.toNat : Int) < 2 ^ 31 := by exact_mod_cast hp
        have : (0 : Int) ≤ (x.bv.toNat : Int) * (y.bv.toNat : Int) := by positivity
        exact fits_of (k := 31) (Or.inl (by omega)) (by omega) hp'
      · have : -(32768 * 65535 : Int) ≤ x.nv.v * y.nv.v ∧ x.nv.v * y.nv.v ≤ 32768 * 65535 := by
          cases s <;> cases t
          · exact absurd ⟨rfl, rfl⟩ hst
          · simp only [Bool.false_eq_true, if_false, if_true] at ax ay
            have := mul_bounds (A := 65535) (B := 32768) (a := x.nv.v) (b := y.nv.v)
              (by omega) (by omega) (by omega) (by omega)
            constructor <;> omega
          · simp only [Bool.false_eq_true, if_false, if_true] at ax ay
            exact mul_bounds (by omega) (by omega) (by omega) (by omega)
          · simp only [if_true] at ax ay
            have := mul_bounds (A := 32768) (B := 32768) (a := x.nv.v) (b := y.nv.v)
              (by omega) (by omega) (by omega) (by omega)
            constructor <;> omega
        exact fits_of (k := 31) (Or.inl (by omega)) (by omega) (by omega)
  · have h32 : ¬ hw n < 32 := by rw [hw_lt_iff]; omega
    have hst : (s && t) = true := by tauto
    rw [Bool.and_eq_true] at hst
    obtain ⟨hs', ht'⟩ := hst
    subst hs' ht'
    obtain ⟨cx, cy, hr⟩ := hc rfl rfl (by omega)
    rw [(clean_signed_bounds h h1 cx).1, (clean_signed_bounds h h1 cy).1]
    exact fits_of (Or.inr (Nat.le_refl _)) hr.1 hr.2

end Bits
end Verif
