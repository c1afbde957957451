import Verif.Lemmas.Prelude
import Verif.Model.CInt

/-! Lemmas about C++ integer conversions, loops and bit patterns. -/

namespace Verif

/-! ### `BitVec.ofInt` -/

theorem ofInt_congr {n : Nat} {a b : Int} (h : a % (2 ^ n : Nat) = b % (2 ^ n : Nat)) :
    BitVec.ofInt n a = BitVec.ofInt n b := by
  apply BitVec.eq_of_toNat_eq
  simp only [BitVec.toNat_ofInt, h]

theorem ofInt_eq_iff {n : Nat} {a b : Int} :
    BitVec.ofInt n a = BitVec.ofInt n b ↔ a % (2 ^ n : Nat) = b % (2 ^ n : Nat) := by
  constructor
  · intro h
    have := congrArg BitVec.toNat h
    simp only [BitVec.toNat_ofInt] at this
    have h1 : 0 ≤ a % ((2 ^ n : Nat) : Int) :=
      Int.emod_nonneg _ (by exact_mod_cast (Nat.two_pow_pos n).ne')
    have h2 : 0 ≤ b % ((2 ^ n : Nat) : Int) :=
      Int.emod_nonneg _ (by exact_mod_cast (Nat.two_pow_pos n).ne')
    omega
  · exact ofInt_congr

theorem ofInt_emod {n w : Nat} (h : n ≤ w) (a : Int) :
    BitVec.ofInt n (a % (2 ^ w : Nat)) = BitVec.ofInt n a := by
  apply ofInt_congr
  apply Int.emod_emod_of_dvd
  exact_mod_cast Nat.pow_dvd_pow 2 h

theorem ofInt_bmod {n w : Nat} (h : n ≤ w) (a : Int) :
    BitVec.ofInt n (a.bmod (2 ^ w)) = BitVec.ofInt n a := by
  rw [ofInt_eq_iff]
  have h1 : (a.bmod (2 ^ w)) % ((2 ^ w : Nat) : Int) = a % ((2 ^ w : Nat) : Int) := Int.bmod_emod
  have hd : ((2 ^ n : Nat) : Int) ∣ ((2 ^ w : Nat) : Int) := by
    exact_mod_cast Nat.pow_dvd_pow 2 h
  rw [← Int.emod_emod_of_dvd (a.bmod (2 ^ w)) hd, h1, Int.emod_emod_of_dvd _ hd]

theorem ofInt_conv {n w : Nat} {sg : Bool} (h : n ≤ w) (a : Int) :
    BitVec.ofInt n ((CTy.int w sg).conv a) = BitVec.ofInt n a := by
  cases sg
  · exact ofInt_emod h a
  · exact ofInt_bmod h a

theorem ofInt_sub {n : Nat} (a b : Int) :
    BitVec.ofInt n (a - b) = BitVec.ofInt n a - BitVec.ofInt n b := by
  rw [Int.sub_eq_add_neg, BitVec.ofInt_add, BitVec.ofInt_neg, BitVec.sub_eq_add_neg]

theorem setWidth_ofInt {n w : Nat} (h : n ≤ w) (a : Int) :
    (BitVec.ofInt w a).setWidth n = BitVec.ofInt n a := by
  have : (BitVec.ofInt w a).setWidth n = BitVec.ofInt n (BitVec.ofInt w a).toInt := by
    apply BitVec.eq_of_toInt_eq
    rw [BitVec.toInt_setWidth, BitVec.toInt_ofInt, BitVec.toInt_eq_toNat_bmod]
    rw [Int.bmod_bmod_of_dvd]
    exact Nat.pow_dvd_pow 2 h
  rw [this, BitVec.toInt_ofInt, ofInt_bmod h]

theorem ofInt_toInt_setWidth {n w : Nat} (h : n ≤ w) (a : BitVec w) :
    BitVec.ofInt n a.toInt = a.setWidth n := by
  rw [← setWidth_ofInt h, BitVec.ofInt_toInt]

theorem ofInt_toNat_setWidth {n w : Nat} (a : BitVec w) :
    BitVec.ofInt n (a.toNat : Int) = a.setWidth n := by
  rw [BitVec.ofInt_natCast, BitVec.ofNat_toNat]

theorem ofInt_neg_one {n : Nat} : BitVec.ofInt n (-1) = BitVec.allOnes n := by
  rw [BitVec.ofInt_neg]
  simp [BitVec.neg_one_eq_allOnes]

theorem ofInt_not {n : Nat} (a : Int) : BitVec.ofInt n (-1 - a) = ~~~ BitVec.ofInt n a := by
  rw [ofInt_sub, ofInt_neg_one, BitVec.allOnes_sub_eq_not]

/-! ### conversions -/

namespace CTy

theorem conv_mod {w : Nat} {sg : Bool} (a : Int) :
    ((CTy.int w sg).conv a) % (2 ^ w : Nat) = a % (2 ^ w : Nat) := by
  cases sg
  · exact Int.emod_emod_of_dvd _ (Int.dvd_refl _)
  · exact Int.bmod_emod

theorem conv_unsigned_of_lt {w : Nat} {a : Int} (h0 : 0 ≤ a) (h : a < 2 ^ w) :
    (CTy.int w false).conv a = a := by
  show a % (2 ^ w : Nat) = a
  exact Int.emod_eq_of_lt h0 (by exact_mod_cast h)

theorem conv_signed_of_mem {w : Nat} {a : Int} (hw : 0 < w) (h0 : -2 ^ (w - 1) ≤ a)
    (h : a < 2 ^ (w - 1)) : (CTy.int w true).conv a = a := by
  show a.bmod (2 ^ w) = a
  obtain ⟨v, rfl⟩ : ∃ v, w = v + 1 := ⟨w - 1, by omega⟩
  simp only [Nat.add_sub_cancel] at h0 h
  have h2 : ((2 ^ (v + 1) : Nat) : Int) = 2 * 2 ^ v := by push_cast; rw [pow_succ]; ring
  apply Int.bmod_eq_of_le <;> omega

theorem conv_signed_mem {w : Nat} (hw : 0 < w) (a : Int) :
    -2 ^ (w - 1) ≤ (CTy.int w true).conv a ∧ (CTy.int w true).conv a < 2 ^ (w - 1) := by
  show -2 ^ (w - 1) ≤ a.bmod (2 ^ w) ∧ a.bmod (2 ^ w) < 2 ^ (w - 1)
  obtain ⟨v, rfl⟩ : ∃ v, w = v + 1 := ⟨w - 1, by omega⟩
  simp only [Nat.add_sub_cancel]
  have h2 : ((2 ^ (v + 1) : Nat) : Int) = 2 * 2 ^ v := by push_cast; rw [pow_succ]; ring
  have hp : 0 < 2 ^ (v + 1) := Nat.two_pow_pos _
  have := @Int.le_bmod a (2 ^ (v + 1)) hp
  have := @Int.bmod_lt a (2 ^ (v + 1)) hp
  omega

theorem conv_unsigned_mem {w : Nat} (a : Int) :
    0 ≤ (CTy.int w false).conv a ∧ (CTy.int w false).conv a < 2 ^ w := by
  show 0 ≤ a % (2 ^ w : Nat) ∧ a % (2 ^ w : Nat) < 2 ^ w
  have hp : (0 : Int) < (2 ^ w : Nat) := by exact_mod_cast Nat.two_pow_pos w
  constructor
  · exact Int.emod_nonneg _ hp.ne'
  · have := Int.emod_lt_of_pos a hp
    exact_mod_cast this

/-- the common type is an integer type at least as wide as both operands -/
theorem usual_spec (a b : CTy) : ∃ w sg, usual a b = .int w sg ∧ 32 ≤ w ∧
    a.width ≤ w ∧ b.width ≤ w := by
  have hp : ∀ c : CTy, ∃ w sg, promote c = .int w sg ∧ 32 ≤ w ∧ c.width ≤ w := by
    intro c
    cases c with
    | bool => exact ⟨32, true, rfl, le_refl _, by simp [width]⟩
    | int w sg =>
      by_cases h : w < 32
      · exact ⟨32, true, by simp [promote, h], le_refl _, by simp [width]; omega⟩
      · exact ⟨w, sg, by simp [promote, h], by omega, by simp [width]⟩
  obtain ⟨wa, sa, ha, ha1, ha2⟩ := hp a
  obtain ⟨wb, sb, hb, hb1, hb2⟩ := hp b
  simp only [usual, ha, hb]
  split_ifs with h1 h2 h3
  · exact ⟨_, _, rfl, by omega, by omega, by omega⟩
  · exact ⟨_, _, rfl, by omega, by omega, by omega⟩
  · exact ⟨_, _, rfl, by omega, by omega, by omega⟩
  · exact ⟨_, _, rfl, by omega, by omega, by omega⟩

theorem promote_spec (c : CTy) : ∃ w sg, promote c = .int w sg ∧ 32 ≤ w ∧ c.width ≤ w := by
  cases c with
  | bool => exact ⟨32, true, rfl, le_refl _, by simp [width]⟩
  | int w sg =>
    by_cases h : w < 32
    · exact ⟨32, true, by simp [promote, h], le_refl _, by simp [width]; omega⟩
    · exact ⟨w, sg, by simp [promote, h], by omega, by simp [width]⟩

end CTy

/-! ### bitwise operators on typed values -/

namespace TV

theorem ofInt_bitw {n : Nat} (f : (w : Nat) → BitVec w → BitVec w → BitVec w)
    (hf : ∀ w (a b : BitVec w), n ≤ w → (f w a b).setWidth n = f n (a.setWidth n) (b.setWidth n))
    (x y : TV) (hx : n ≤ x.ty.width ∨ n ≤ y.ty.width ∨ n ≤ 32) :
    BitVec.ofInt n (bitw f x y).v = f n (BitVec.ofInt n x.v) (BitVec.ofInt n y.v) := by
  obtain ⟨w, sg, he, h32, ha, hb⟩ := CTy.usual_spec x.ty y.ty
  have hn : n ≤ w := by omega
  have hn' : n ≤ (CTy.usual x.ty y.ty).width := by rw [he]; exact hn
  simp only [bitw]
  have hc : ∀ a, BitVec.ofInt n ((CTy.usual x.ty y.ty).conv a) = BitVec.ofInt n a := by
    intro a; rw [he, ofInt_conv hn]
  rw [hc, ofInt_toInt_setWidth hn', hf _ _ _ hn', setWidth_ofInt hn', setWidth_ofInt hn']

theorem ofInt_band {n : Nat} (x y : TV) (hx : n ≤ x.ty.width ∨ n ≤ y.ty.width ∨ n ≤ 32) :
    BitVec.ofInt n (band x y).v = BitVec.ofInt n x.v &&& BitVec.ofInt n y.v :=
  ofInt_bitw (fun _ a b => a &&& b) (fun _ _ _ _ => BitVec.setWidth_and) x y hx

theorem ofInt_bor {n : Nat} (x y : TV) (hx : n ≤ x.ty.width ∨ n ≤ y.ty.width ∨ n ≤ 32) :
    BitVec.ofInt n (bor x y).v = BitVec.ofInt n x.v ||| BitVec.ofInt n y.v :=
  ofInt_bitw (fun _ a b => a ||| b) (fun _ _ _ _ => BitVec.setWidth_or) x y hx

theorem ofInt_bxor {n : Nat} (x y : TV) (hx : n ≤ x.ty.width ∨ n ≤ y.ty.width ∨ n ≤ 32) :
    BitVec.ofInt n (bxor x y).v = BitVec.ofInt n x.v ^^^ BitVec.ofInt n y.v :=
  ofInt_bitw (fun _ a b => a ^^^ b) (fun _ _ _ _ => BitVec.setWidth_xor) x y hx

theorem ofInt_bnot {n : Nat} (x : TV) (hx : n ≤ x.ty.width ∨ n ≤ 32) :
    BitVec.ofInt n (bnot x).v = ~~~ BitVec.ofInt n x.v := by
  obtain ⟨w, sg, he, h32, ha⟩ := CTy.promote_spec x.ty
  simp only [bnot, he]
  rw [ofInt_conv (by omega), ofInt_not]

/-- a non-faulting arithmetic operator is the operator on `BitVec` -/
theorem arith_ok {f : Int → Int → Int} {x y z : TV} (h : arith f x y = .ok z) :
    z.ty = CTy.usual x.ty y.ty ∧
      z.v = (CTy.usual x.ty y.ty).conv
        (f ((CTy.usual x.ty y.ty).conv x.v) ((CTy.usual x.ty y.ty).conv y.v)) := by
  simp only [arith] at h
  split_ifs at h
  cases h
  exact ⟨rfl, rfl⟩

end TV

/-! ### loops -/

theorem loop_zero {σ : Type} (a b : Nat) (st : σ) (f : Nat → σ → σ) (h : b ≤ a) :
    loop a b st f = st := by
  simp [loop, Nat.sub_eq_zero_of_le h]

theorem loop_succ {σ : Type} (a k : Nat) (st : σ) (f : Nat → σ → σ) :
    loop a (a + (k + 1)) st f = f (a + k) (loop a (a + k) st f) := by
  simp only [loop, Nat.add_sub_cancel_left, List.range'_concat, Nat.one_mul]
  simp

theorem loopM_zero {σ : Type} (a b : Nat) (st : σ) (f : Nat → σ → Res σ) (h : b ≤ a) :
    loopM a b st f = .ok st := by
  simp [loopM, Nat.sub_eq_zero_of_le h]; rfl

theorem loopM_succ {σ : Type} (a k : Nat) (st : σ) (f : Nat → σ → Res σ) :
    loopM a (a + (k + 1)) st f = (loopM a (a + k) st f).bind (f (a + k)) := by
  simp only [loopM, Nat.add_sub_cancel_left, List.range'_concat, Nat.one_mul]
  rw [List.foldlM_append]
  simp
  rfl

/-- induction principle for `loop` -/
theorem loop_induct {σ : Type} (a b : Nat) (st : σ) (f : Nat → σ → σ) (P : Nat → σ → Prop)
    (hab : a ≤ b) (h0 : P a st) (hs : ∀ i s, a ≤ i → i < b → P i s → P (i + 1) (f i s)) :
    P b (loop a b st f) := by
  obtain ⟨k, rfl⟩ := Nat.exists_eq_add_of_le hab
  have : ∀ j, j ≤ k → P (a + j) (loop a (a + j) st f) := by
    intro j
    induction j with
    | zero => intro _; rw [loop_zero _ _ _ _ (by omega)]; exact h0
    | succ j ih =>
      intro hj
      rw [loop_succ]
      exact hs (a + j) _ (by omega) (by omega) (ih (by omega))
  exact this k (le_refl _)

/-- induction principle for `loopM` on a run that does not fault -/
theorem loopM_induct {σ : Type} (a b : Nat) (st : σ) (f : Nat → σ → Res σ) (P : Nat → σ → Prop)
    (hab : a ≤ b) (h0 : P a st)
    (hs : ∀ i s, a ≤ i → i < b → P i s → ∃ s', f i s = .ok s' ∧ P (i + 1) s') :
    ∃ s', loopM a b st f = .ok s' ∧ P b s' := by
  obtain ⟨k, rfl⟩ := Nat.exists_eq_add_of_le hab
  have : ∀ j, j ≤ k → ∃ s', loopM a (a + j) st f = .ok s' ∧ P (a + j) s' := by
    intro j
    induction j with
    | zero => intro _; exact ⟨st, loopM_zero _ _ _ _ (by omega), h0⟩
    | succ j ih =>
      intro hj
      obtain ⟨s1, h1, hP⟩ := ih (by omega)
      obtain ⟨s2, h2, hP2⟩ := hs (a + j) s1 (by omega) (by omega) hP
      exact ⟨s2, by rw [loopM_succ, h1]; exact h2, hP2⟩
  exact this k (le_refl _)

end Verif
