import Verif.Props.Arith
import Verif.Props.Compare
import Verif.Props.Bitwise
import Verif.Lemmas.OfBV

/-!
# Laws of bit vector arithmetic (C143)

An identity between expressions over `+ - * & | ^ ~` is an equation that bit vectors
satisfy for all values of the variables, such as `x + y = (x ^ y) + ((x & y) + (x & y))` or
`~(x & y) = ~x | ~y`. A client that rewrites an expression by such a law expects an object that
compares equal (`==`). Operands and results may be used again without a mask in between, so
the bits above the width in the storage matter.
-/

namespace Verif

variable {n : Nat}

/-- A C++ expression over unsigned objects of one width. -/
inductive AE
  | var (i : Nat)
  | not (a : AE)
  | and (a b : AE)
  | or (a b : AE)
  | xor (a b : AE)
  | add (a b : AE)
  | sub (a b : AE)
  | mul (a b : AE)

namespace AE

/-- The expression over objects of type `bit<n-1, 0>`: the operators of `bit.hh`
(`~` 350-358, `& ^ |` 367-438, `+ - *` 723-776). -/
def run (σ : Nat → Bits n false) : AE → Res (Bits n false)
  | var i => .ok (σ i)
  | not a => (run σ a).map Bits.not
  | and a b => do return (← run σ a).and (← run σ b)
  | or a b => do return (← run σ a).or (← run σ b)
  | xor a b => do return (← run σ a).xor (← run σ b)
  | add a b => do (← run σ a).add (← run σ b)
  | sub a b => do (← run σ a).sub (← run σ b)
  | mul a b => do (← run σ a).mul (← run σ b)

/-- The expression over bit vectors of any width. -/
def den {w : Nat} (ρ : Nat → BitVec w) : AE → BitVec w
  | var i => ρ i
  | not a => ~~~ den ρ a
  | and a b => den ρ a &&& den ρ b
  | or a b => den ρ a ||| den ρ b
  | xor a b => den ρ a ^^^ den ρ b
  | add a b => den ρ a + den ρ b
  | sub a b => den ρ a - den ρ b
  | mul a b => den ρ a * den ρ b

/-- no `*` -/
def NoMul : AE → Prop
  | var _ => True
  | not a => a.NoMul
  | and a b | or a b | xor a b | add a b | sub a b => a.NoMul ∧ b.NoMul
  | mul _ _ => False

/-- an identity of `w` bit arithmetic -/
def Law (w : Nat) (e₁ e₂ : AE) : Prop := ∀ ρ : Nat → BitVec w, e₁.den ρ = e₂.den ρ

end AE

theorem arith_hold (h : n ≤ 64) (h1 : 1 < n) (x y : Bits n false) (f : Int → Int → Int)
    (g : (w : Nat) → BitVec w → BitVec w → BitVec w)
    (hfg : ∀ w a b, BitVec.ofInt w (f a b) = g w (BitVec.ofInt w a) (BitVec.ofInt w b)) (z : Bits n false)
    (hz : (TV.arith f x.nv y.nv).map (Bits.mkN h) = .ok z) : z.hold = g (Verif.hw n) x.hold y.hold := by
  have key := Bits.arith_exact h x y f g hfg
  have e : ∀ u : Bits n false, BitVec.ofInt (Verif.hw n) u.nv.v = u.hold := fun u => by
    rw [Bits.ofInt_nv h u (le_refl _), BitVec.setWidth_eq]
  split_ifs at key with hs
  · by_cases hf : Bits.fits n (f x.nv.v y.nv.v)
    · obtain ⟨v, hv, ev⟩ := key.1 hf
      rw [hv] at hz
      obtain rfl := Except.ok.inj hz
      rw [Bits.hold_mkN h (by omega), ev, hfg, e, e]
    · rw [key.2 hf] at hz; cases hz
  · obtain ⟨v, hv, ev⟩ := key
    rw [hv] at hz
    obtain rfl := Except.ok.inj hz
    rw [Bits.hold_mkN h (by omega), ev, e, e]

theorem hold_ext {x : Bits n false} {v : BitVec (Verif.hw n)} (h : n ≤ 64) (hx : ∀ i, i < Verif.hw n → x.raw i = v.getLsbD i) : x.hold = v :=
  BitVec.eq_of_getLsbD_eq fun i hi => by rw [← hx i hi, Bits.raw_native h]

/-- the whole storage of a native result is the value of the expression over the storage of the operands -/
theorem AE.run_hold (h : n ≤ 64) (h1 : 1 < n) (σ : Nat → Bits n false) : (e : AE) → (z : Bits n false) → e.run σ = .ok z →
    z.hold = e.den fun i => (σ i).hold
  | var i, z, hz => by obtain rfl := Except.ok.inj hz; rfl
  | not a, z, hz => by
    rw [run] at hz
    cases ha : a.run σ with
    | error f => rw [ha] at hz; cases hz
    | ok x =>
      rw [ha] at hz
      obtain rfl := Except.ok.inj hz
      rw [den, ← a.run_hold h h1 σ x ha]
      exact hold_ext h fun i hi => by rw [Bits.raw_not_native h (by omega) x hi, BitVec.getLsbD_not, Bits.raw_native h]; simp [hi]
  | and a b, z, hz => by
    rw [run] at hz
    cases ha : a.run σ with
    | error f => rw [ha] at hz; cases hz
    | ok x =>
      cases hb : b.run σ with
      | error f => rw [ha, hb] at hz; cases hz
      | ok y =>
        rw [ha, hb] at hz
        obtain rfl := Except.ok.inj hz
        rw [den, ← a.run_hold h h1 σ x ha, ← b.run_hold h h1 σ y hb]
        exact hold_ext h fun i _ => by
          rw [Bits.raw_and_native (s := false) (t := false) h, BitVec.getLsbD_and, Bits.raw_native h, Bits.raw_native h]
  | or a b, z, hz => by
    rw [run] at hz
    cases ha : a.run σ with
    | error f => rw [ha] at hz; cases hz
    | ok x =>
      cases hb : b.run σ with
      | error f => rw [ha, hb] at hz; cases hz
      | ok y =>
        rw [ha, hb] at hz
        obtain rfl := Except.ok.inj hz
        rw [den, ← a.run_hold h h1 σ x ha, ← b.run_hold h h1 σ y hb]
        exact hold_ext h fun i _ => by
          rw [Bits.raw_or (s := false) (t := false), BitVec.getLsbD_or, Bits.raw_native h, Bits.raw_native h]
  | xor a b, z, hz => by
    rw [run] at hz
    cases ha : a.run σ with
    | error f => rw [ha] at hz; cases hz
    | ok x =>
      cases hb : b.run σ with
      | error f => rw [ha, hb] at hz; cases hz
      | ok y =>
        rw [ha, hb] at hz
        obtain rfl := Except.ok.inj hz
        rw [den, ← a.run_hold h h1 σ x ha, ← b.run_hold h h1 σ y hb]
        exact hold_ext h fun i _ => by
          rw [Bits.raw_xor (s := false) (t := false), BitVec.getLsbD_xor, Bits.raw_native h, Bits.raw_native h]
  | add a b, z, hz => by
    rw [run] at hz
    cases ha : a.run σ with
    | error f => rw [ha] at hz; cases hz
    | ok x =>
      cases hb : b.run σ with
      | error f => rw [ha, hb] at hz; cases hz
      | ok y =>
        rw [ha, hb] at hz
        change x.add y = .ok z at hz
        rw [Bits.add, dif_pos h] at hz
        rw [den, ← a.run_hold h h1 σ x ha, ← b.run_hold h h1 σ y hb]
        exact arith_hold h h1 x y (· + ·) (fun _ a b => a + b) (fun w a b => BitVec.ofInt_add a b) z hz
  | sub a b, z, hz => by
    rw [run] at hz
    cases ha : a.run σ with
    | error f => rw [ha] at hz; cases hz
    | ok x =>
      cases hb : b.run σ with
      | error f => rw [ha, hb] at hz; cases hz
      | ok y =>
        rw [ha, hb] at hz
        change x.sub y = .ok z at hz
        rw [Bits.sub, dif_pos h] at hz
        rw [den, ← a.run_hold h h1 σ x ha, ← b.run_hold h h1 σ y hb]
        exact arith_hold h h1 x y (· - ·) (fun _ a b => a - b) (fun w a b => ofInt_sub a b) z hz
  | mul a b, z, hz => by
    rw [run] at hz
    cases ha : a.run σ with
    | error f => rw [ha] at hz; cases hz
    | ok x =>
      cases hb : b.run σ with
      | error f => rw [ha, hb] at hz; cases hz
      | ok y =>
        rw [ha, hb] at hz
        change x.mul y = .ok z at hz
        rw [Bits.mul, dif_pos h] at hz
        rw [den, ← a.run_hold h h1 σ x ha, ← b.run_hold h h1 σ y hb]
        exact arith_hold h h1 x y (· * ·) (fun _ a b => a * b) (fun w a b => BitVec.ofInt_mul a b) z hz

/-- without a product nothing faults, and the low bits are right at every width -/
theorem AE.run_bv (h1 : 1 < n) (σ : Nat → Bits n false) : (e : AE) → e.NoMul →
    ∃ z, e.run σ = .ok z ∧ z.bv = e.den fun i => (σ i).bv
  | var i, _ => ⟨σ i, rfl, rfl⟩
  | not a, hm => by
    obtain ⟨x, hx, ex⟩ := a.run_bv h1 σ hm
    refine ⟨x.not, by rw [run, hx]; rfl, ?_⟩
    rw [(C14_bitwise (by omega) x x).2.2.2.1, ex]; rfl
  | and a b, hm => by
    obtain ⟨x, hx, ex⟩ := a.run_bv h1 σ hm.1
    obtain ⟨y, hy, ey⟩ := b.run_bv h1 σ hm.2
    refine ⟨x.and y, by rw [run, hx, hy]; rfl, ?_⟩
    rw [(C14_bitwise (by omega) x y).1, ex, ey]; rfl
  | or a b, hm => by
    obtain ⟨x, hx, ex⟩ := a.run_bv h1 σ hm.1
    obtain ⟨y, hy, ey⟩ := b.run_bv h1 σ hm.2
    refine ⟨x.or y, by rw [run, hx, hy]; rfl, ?_⟩
    rw [(C14_bitwise (by omega) x y).2.1, ex, ey]; rfl
  | xor a b, hm => by
    obtain ⟨x, hx, ex⟩ := a.run_bv h1 σ hm.1
    obtain ⟨y, hy, ey⟩ := b.run_bv h1 σ hm.2
    refine ⟨x.xor y, by rw [run, hx, hy]; rfl, ?_⟩
    rw [(C14_bitwise (by omega) x y).2.2.1, ex, ey]; rfl
  | add a b, hm => by
    obtain ⟨x, hx, ex⟩ := a.run_bv h1 σ hm.1
    obtain ⟨y, hy, ey⟩ := b.run_bv h1 σ hm.2
    obtain ⟨z, hz, ez⟩ := C28_add_partial h1 x y (by simp)
    exact ⟨z, by rw [run, hx, hy]; exact hz, by rw [ez, ex, ey]; rfl⟩
  | sub a b, hm => by
    obtain ⟨x, hx, ex⟩ := a.run_bv h1 σ hm.1
    obtain ⟨y, hy, ey⟩ := b.run_bv h1 σ hm.2
    obtain ⟨z, hz, ez⟩ := C29_sub_partial (by omega) x y (by simp)
    exact ⟨z, by rw [run, hx, hy]; exact hz, by rw [ez, ex, ey]; rfl⟩
  | mul _ _, hm => hm.elim

theorem eq_self (x : Bits n false) : x.eq x = true := by
  by_cases h : n ≤ 64
  · rw [Bits.eq_native h h, Bits.nv_conv h]; simp
  · rw [Bits.eq, dif_neg h, dif_neg h, Big.eq_same rfl]; simp

/-- **C143, native.** Every identity of the storage width (8, 16, 32 or 64 bits), so every law that does not
depend on the width, holds for native objects of any width above one and any contents, whatever is in the bits above the width: if both
sides have a value, it is the same object, and `==` says so. Missing: identities of the declared width only, for which it is
false (`C143_iff`, `C143_refuted`); wide objects are `C143_bits` and `C143_wide_exact`. -/
theorem C143_native_partial (h1 : 1 < n) (h : n ≤ 64) (e₁ e₂ : AE) (hl : AE.Law (Verif.hw n) e₁ e₂) (σ : Nat → Bits n false) (z₁ z₂ : Bits n false)
    (r₁ : e₁.run σ = .ok z₁) (r₂ : e₂.run σ = .ok z₂) : z₁ = z₂ ∧ z₁.eq z₂ = true := by
  have e : z₁ = z₂ := by
    rw [← Bits.nat_hold h z₁, ← Bits.nat_hold h z₂, e₁.run_hold h h1 σ z₁ r₁, e₂.run_hold h h1 σ z₂ r₂, hl]
  exact ⟨e, e ▸ eq_self z₁⟩

/-- **C143, the low bits.** At every width above one, wide widths included, an expression without a product never faults,
and the bits of its value are those of the bit vector expression, whatever is in the bits above the width. -/
theorem C143_bits (h1 : 1 < n) (e : AE) (hm : e.NoMul) (σ : Nat → Bits n false) :
    ∃ z, e.run σ = .ok z ∧ z.bv = e.den fun i => (σ i).bv := e.run_bv h1 σ hm

theorem clean_of_full (h1 : 1 < n) (hf : Full n ∨ 64 < n ∧ 64 ∣ n) (x : Bits n false) : x.Clean := by
  by_cases h : n ≤ 64
  · have hw : Verif.hw n = n := (Bits.full_iff (by omega) h).1 (by rcases hf with hf | hf; exact hf; omega)
    rw [Bits.clean_native h]
    have hh : x.bv.toNat = x.hold.toNat := by
      have : x.bv.toNat = x.hold.toNat % 2 ^ n := by
        cases x with
        | nat _ r => exact BitVec.toNat_setWidth _ _
        | big h' _ => exact absurd h h'
      rw [this, Nat.mod_eq_of_lt]
      exact lt_of_lt_of_le x.hold.isLt (Nat.pow_le_pow_right (by decide) (le_of_eq hw))
    rw [Bits.nv_v h]
    simp [numOf, hh]
  · rw [Bits.clean_big h]
    have hd : limbs n * 64 = n := by
      rcases hf with hf | hf
      · rcases hf with rfl | rfl | rfl | rfl | rfl <;> omega
      · rw [limbs, if_pos (by omega)]; omega
    have := Big.val_lt' (x.bg h)
    rwa [show 64 * limbs n = n by omega] at this

/-- `x` doubled `k` times -/
def AE.dbl : Nat → AE
  | 0 => .var 0
  | k + 1 => .add (dbl k) (dbl k)

theorem AE.noMul_dbl : (k : Nat) → (AE.dbl k).NoMul
  | 0 => trivial
  | k + 1 => ⟨noMul_dbl k, noMul_dbl k⟩

theorem AE.den_dbl {w : Nat} (ρ : Nat → BitVec w) : (k : Nat) → ((AE.dbl k).den ρ).toNat = (ρ 0).toNat * 2 ^ k % 2 ^ w
  | 0 => by rw [dbl, den, pow_zero, Nat.mul_one, Nat.mod_eq_of_lt (ρ 0).isLt]
  | k + 1 => by
    rw [dbl, den, BitVec.toNat_add, den_dbl ρ k, ← Nat.add_mod]
    congr 1
    ring

theorem AE.law_dbl (n : Nat) : AE.Law n (AE.dbl n) (.sub (.var 0) (.var 0)) := fun ρ => by
  apply BitVec.eq_of_toNat_eq
  rw [AE.den_dbl, Nat.mul_mod_left, AE.den, BitVec.sub_self]
  rfl

theorem AE.val_dbl (h : ¬ n ≤ 64) (σ : Nat → Bits n false) : (k : Nat) → ∃ z, (AE.dbl k).run σ = .ok z ∧
    val (z.bg h).vals = val ((σ 0).bg h).vals * 2 ^ k % 2 ^ (64 * limbs n)
  | 0 => ⟨σ 0, rfl, by rw [pow_zero, Nat.mul_one, Nat.mod_eq_of_lt (Big.val_lt' _)]⟩
  | k + 1 => by
    obtain ⟨z, hz, ez⟩ := val_dbl h σ k
    refine ⟨.big h ((z.bg h).add (z.bg h)), ?_, ?_⟩
    · rw [dbl, run, hz]
      show z.add z = _
      rw [Bits.add, dif_neg h]
    · rw [Bits.bg_big, Big.add_spec, ez, ← Nat.add_mod]
      congr 1
      ring

/-- **C143 is false at every other width**: doubling 1 as often as the width has bits gives 0 in every bit, as `x - x` does, but
the two do not compare equal, because the bit that was shifted out is still in the storage. -/
theorem C143_refuted (h1 : 1 < n) (hf : ¬ (Full n ∨ 64 < n ∧ 64 ∣ n)) (σ : Nat → Bits n false) (hc : (σ 0).Clean) (hv : (σ 0).bv = 1) :
    AE.Law n (AE.dbl n) (.sub (.var 0) (.var 0)) ∧
    ∃ z₁ z₂, (AE.dbl n).run σ = .ok z₁ ∧ (AE.sub (.var 0) (.var 0)).run σ = .ok z₂ ∧ z₁.bv = 0 ∧ z₂.bv = 0 ∧ z₁.eq z₂ = false := by
  refine ⟨AE.law_dbl n, ?_⟩
  obtain ⟨z₁, r₁, b₁⟩ := AE.run_bv h1 σ _ (AE.noMul_dbl n)
  obtain ⟨z₂, r₂, b₂⟩ := AE.run_bv h1 σ (.sub (.var 0) (.var 0)) ⟨trivial, trivial⟩
  rw [AE.law_dbl n] at b₁
  rw [AE.den, BitVec.sub_self] at b₁ b₂
  refine ⟨z₁, z₂, r₁, r₂, b₁, b₂, ?_⟩
  have h1n : (1 : BitVec n).toNat = 1 := by
    show 1 % 2 ^ n = 1
    exact Nat.mod_eq_of_lt (Nat.one_lt_two_pow (by omega))
  by_cases h : n ≤ 64
  · have hlt : n < Verif.hw n := lt_of_le_of_ne (le_hw h) fun e => hf (Or.inl ((Bits.full_iff (by omega) h).2 e.symm))
    have e1 := AE.run_hold h h1 σ _ z₁ r₁
    have e2 := AE.run_hold h h1 σ _ z₂ r₂
    rw [AE.den, BitVec.sub_self] at e2
    have hv' : (σ 0).hold.toNat = 1 := by
      have := (Bits.clean_native h (σ 0)).1 hc
      rw [Bits.nv_v h, hv] at this
      simp only [Bool.false_and, Bool.false_eq_true, if_false] at this
      simp only [numOf, Bool.false_and, Bool.false_eq_true, if_false, h1n] at this
      omega
    have e3 : z₁.hold.toNat = 2 ^ n := by
      rw [e1, AE.den_dbl, hv', Nat.one_mul, Nat.mod_eq_of_lt (Nat.pow_lt_pow_right (by decide) hlt)]
    rw [Bits.eq_native h h, Bits.nv_conv h, Bits.nv_v h, Bits.nv_v h, e2]
    simp only [Bool.false_and, Bool.false_eq_true, if_false, e3]
    have : 0 < 2 ^ n := Nat.two_pow_pos n
    simp
  · have hlt : n < 64 * limbs n := by
      have h64 : ¬ 64 ∣ n := fun d => hf (Or.inr ⟨by omega, d⟩)
      rw [limbs, if_neg (by omega)]
      omega
    obtain ⟨z, rz, vz⟩ := AE.val_dbl h σ n
    obtain rfl := Except.ok.inj (rz.symm.trans r₁)
    have hv' : val ((σ 0).bg h).vals = 1 := by
      have := (Bits.clean_big h (σ 0)).1 hc
      rw [← this.toNat_bv, ← Bits.bv_big h, hv, h1n]
    rw [hv', Nat.one_mul, Nat.mod_eq_of_lt (Nat.pow_lt_pow_right (by decide) hlt)] at vz
    have r2 : (AE.sub (.var 0) (.var 0)).run σ = (σ 0).sub (σ 0) := rfl
    rw [r2, Bits.sub, dif_neg h] at r₂
    obtain rfl := Except.ok.inj r₂
    rw [Bits.eq, dif_neg h, dif_neg h, Big.eq_same rfl, vz, Bits.bg_big, Big.sub_spec (by omega)]
    have hl := Big.val_lt' ((σ 0).bg h)
    rw [Nat.add_sub_cancel' (le_of_lt hl), Nat.mod_self]
    have : 0 < 2 ^ n := Nat.two_pow_pos n
    simp

/-- **C143, exactly.** For expressions without a product, all identities of `n` bit arithmetic hold with `==`, for all canonical objects,
if and only if `n` is 8, 16, 32, 64 or a larger multiple of 64. -/
theorem C143_iff (h1 : 1 < n) :
    (∀ e₁ e₂ : AE, e₁.NoMul → e₂.NoMul → AE.Law n e₁ e₂ → ∀ σ : Nat → Bits n false, (∀ i, (σ i).Clean) →
      ∃ z₁ z₂, e₁.run σ = .ok z₁ ∧ e₂.run σ = .ok z₂ ∧ z₁.eq z₂ = true) ↔ Full n ∨ 64 < n ∧ 64 ∣ n := by
  constructor
  · intro H
    by_contra hf
    obtain ⟨x, cx, bx⟩ := Bits.exists_clean (s := false) (1 : BitVec n)
    obtain ⟨hl, z₁, z₂, r₁, r₂, -, -, he⟩ := C143_refuted h1 hf (fun _ => x) cx bx
    obtain ⟨w₁, w₂, s₁, s₂, hw⟩ := H _ (.sub (.var 0) (.var 0)) (AE.noMul_dbl n) ⟨trivial, trivial⟩ hl (fun _ => x) fun _ => cx
    obtain rfl := Except.ok.inj (r₁.symm.trans s₁)
    obtain rfl := Except.ok.inj (r₂.symm.trans s₂)
    rw [he] at hw
    cases hw
  · intro hf e₁ e₂ m₁ m₂ hl σ _
    obtain ⟨z₁, r₁, b₁⟩ := AE.run_bv h1 σ e₁ m₁
    obtain ⟨z₂, r₂, b₂⟩ := AE.run_bv h1 σ e₂ m₂
    refine ⟨z₁, z₂, r₁, r₂, ?_⟩
    have : z₁ = z₂ := (clean_of_full h1 hf z₁).ext (clean_of_full h1 hf z₂) (by rw [b₁, b₂, hl])
    exact this ▸ eq_self z₁

/-! ## Boolean laws at wide widths -/

/-- no `+`, `-` or `*` -/
def AE.Boolean : AE → Prop
  | var _ => True
  | not a => a.Boolean
  | and a b | or a b | xor a b => a.Boolean ∧ b.Boolean
  | add _ _ | sub _ _ | mul _ _ => False

/-- what a wide object holds in the bits above its width after the expression: `&` clears them, `~` complements them -/
def AE.above : AE → Bool
  | not a => !a.above
  | or a b => a.above || b.above
  | xor a b => a.above ^^ b.above
  | _ => false

theorem AE.run_above (h : ¬ n ≤ 64) (σ : Nat → Bits n false) (hσ : ∀ i, (σ i).Clean) : (e : AE) → e.Boolean →
    ∃ z, e.run σ = .ok z ∧ z.bv = (e.den fun i => (σ i).bv) ∧ ∀ i, n ≤ i → i < limbs n * 64 → z.raw i = e.above
  | var i, _ => ⟨σ i, rfl, rfl, fun j hj _ => by
      have := (Bits.clean_big h (σ i)).1 (hσ i)
      rw [Bits.raw_big h]
      exact (Big.clean_iff _).1 this j hj⟩
  | not a, hm => by
    obtain ⟨x, hx, ex, ax⟩ := a.run_above h σ hσ hm
    refine ⟨x.not, by rw [run, hx]; rfl, by rw [(C14_bitwise (by omega) x x).2.2.2.1, ex]; rfl, fun i hi hl => ?_⟩
    have e : x.not = .big h ((x.bg h).not.toSign false) := by simp [Bits.not, h]
    rw [e, Bits.raw_big h, Bits.bg_big, Big.raw_toSign, Big.raw_not _ _ hl, ← Bits.raw_big h, ax i hi hl]; rfl
  | and a b, hm => by
    obtain ⟨x, hx, ex, ax⟩ := a.run_above h σ hσ hm.1
    obtain ⟨y, hy, ey, ay⟩ := b.run_above h σ hσ hm.2
    refine ⟨x.and y, by rw [run, hx, hy]; rfl, by rw [(C14_bitwise (by omega) x y).1, ex, ey]; rfl, fun i hi hl => ?_⟩
    have e : x.and y = .big h ((x.bg h).and (y.bg h)) := by simp [Bits.and, h]
    rw [e, Bits.raw_big h, Bits.bg_big, Big.raw_and (by omega)]
    simp [show ¬ i < n by omega, above]
  | or a b, hm => by
    obtain ⟨x, hx, ex, ax⟩ := a.run_above h σ hσ hm.1
    obtain ⟨y, hy, ey, ay⟩ := b.run_above h σ hσ hm.2
    refine ⟨x.or y, by rw [run, hx, hy]; rfl, by rw [(C14_bitwise (by omega) x y).2.1, ex, ey]; rfl, fun i hi hl => ?_⟩
    rw [Bits.raw_or (s := false) (t := false), ax i hi hl, ay i hi hl]; rfl
  | xor a b, hm => by
    obtain ⟨x, hx, ex, ax⟩ := a.run_above h σ hσ hm.1
    obtain ⟨y, hy, ey, ay⟩ := b.run_above h σ hσ hm.2
    refine ⟨x.xor y, by rw [run, hx, hy]; rfl, by rw [(C14_bitwise (by omega) x y).2.2.1, ex, ey]; rfl, fun i hi hl => ?_⟩
    rw [Bits.raw_xor (s := false) (t := false), ax i hi hl, ay i hi hl]; rfl
  | add _ _, hm => hm.elim
  | sub _ _, hm => hm.elim
  | mul _ _, hm => hm.elim

theorem eq_wide_raw (h : ¬ n ≤ 64) (x y : Bits n false) : x.eq y = true ↔ ∀ i, i < limbs n * 64 → x.raw i = y.raw i := by
  rw [Bits.eq, dif_neg h, dif_neg h, Big.eq_same rfl, decide_eq_true_iff]
  constructor
  · intro e i _
    rw [Bits.raw_big h, Bits.raw_big h, ← Big.testBit_val', ← Big.testBit_val', e]
  · intro e
    apply Nat.eq_of_testBit_eq
    intro i
    rw [Big.testBit_val', Big.testBit_val']
    by_cases hi : i < limbs n * 64
    · rw [← Bits.raw_big h, ← Bits.raw_big h, e i hi]
    · rw [Big.raw_of_ge _ (by omega), Big.raw_of_ge _ (by omega)]

/-- **C143, wide Boolean expressions, exactly.** For all expressions over `& | ^ ~` and all canonical wide objects: `==` of the two
values says that their bits agree and, if the width is not a multiple of 64, that the complements in
the two expressions leave the same bit above the width. -/
theorem C143_wide_exact (h : 64 < n) (σ : Nat → Bits n false) (hσ : ∀ i, (σ i).Clean) (e₁ e₂ : AE) (b₁ : e₁.Boolean) (b₂ : e₂.Boolean) :
    ∃ z₁ z₂, e₁.run σ = .ok z₁ ∧ e₂.run σ = .ok z₂ ∧
      (z₁.eq z₂ = true ↔ (e₁.den fun i => (σ i).bv) = (e₂.den fun i => (σ i).bv) ∧ (64 ∣ n ∨ e₁.above = e₂.above)) := by
  have hn : ¬ n ≤ 64 := by omega
  obtain ⟨z₁, r₁, v₁, a₁⟩ := e₁.run_above hn σ hσ b₁
  obtain ⟨z₂, r₂, v₂, a₂⟩ := e₂.run_above hn σ hσ b₂
  refine ⟨z₁, z₂, r₁, r₂, ?_⟩
  rw [eq_wide_raw hn, ← v₁, ← v₂]
  have hle := le_limbs n
  constructor
  · intro H
    refine ⟨BitVec.eq_of_getLsbD_eq fun i hi => by rw [Bits.getLsbD_bv, Bits.getLsbD_bv, H i (by omega)], ?_⟩
    by_cases hd : 64 ∣ n
    · exact Or.inl hd
    · have hlt : n < limbs n * 64 := by rw [limbs, if_neg (by omega)]; omega
      exact Or.inr (by rw [← a₁ n (le_refl _) hlt, ← a₂ n (le_refl _) hlt, H n hlt])
  · rintro ⟨H, ha⟩ i hi
    by_cases hin : i < n
    · have := congrArg (fun b => b.getLsbD i) H
      simp only [Bits.getLsbD_bv, hin, decide_true, Bool.true_and] at this
      exact this
    · rcases ha with hd | ha
      · rw [limbs, if_pos (by omega)] at hi; omega
      · rw [a₁ i (by omega) hi, a₂ i (by omega) hi, ha]

/-- **C143 is false for Boolean laws at every wide width that is not a multiple of 64**: `~x & ~x == ~x` fails for every `x`. -/
theorem C143_wide_refuted (h : 64 < n) (hd : ¬ 64 ∣ n) (x : Bits n false) (hx : x.Clean) :
    ((x.not.and x.not).eq x.not) = false := by
  obtain ⟨z₁, z₂, r₁, r₂, hi⟩ := C143_wide_exact h (fun _ => x) (fun _ => hx) (.and (.not (.var 0)) (.not (.var 0))) (.not (.var 0))
    ⟨trivial, trivial⟩ trivial
  obtain rfl := Except.ok.inj r₁
  obtain rfl := Except.ok.inj r₂
  rw [← Bool.not_eq_true]
  intro H
  rcases (hi.1 H).2 with h' | h'
  · exact hd h'
  · cases h'

/-- a law with carries that holds at any width: `~(x - y) = ~x + y` -/
theorem AE.law_carry (w : Nat) : AE.Law w (.not (.sub (.var 0) (.var 1))) (.add (.not (.var 0)) (.var 1)) := fun ρ => by
  simp only [den]
  have h1 := BitVec.neg_eq_not_add (ρ 0 - ρ 1)
  have h2 := BitVec.neg_eq_not_add (ρ 0)
  have h3 : ~~~(ρ 0 - ρ 1) = -(ρ 0 - ρ 1) - 1#w := by rw [h1]; exact (BitVec.add_sub_cancel _ _).symm
  have h4 : ~~~(ρ 0) = -(ρ 0) - 1#w := by rw [h2]; exact (BitVec.add_sub_cancel _ _).symm
  rw [h3, h4]
  grind

/-- the law at 12 bits, where the complement leaves ones above the width: the two objects are not canonical, but they are the same -/
example (x y : Bits 12 false) : ∃ u v, x.sub y = .ok u ∧ x.not.add y = .ok v ∧ u.not = v ∧ u.not.eq v = true := by
  obtain ⟨u, hu, -⟩ := C29_sub_partial (by decide) x y (by simp)
  obtain ⟨v, hv, -⟩ := C28_add_partial (by decide) x.not y (by simp)
  have := C143_native_partial (n := 12) (by decide) (by decide) _ _ (AE.law_carry _) (fun i => if i = 0 then x else y) u.not v
    (by simp only [AE.run]; exact congrArg (Except.map Bits.not) hu) hv
  exact ⟨u, v, hu, hv, this⟩

end Verif
