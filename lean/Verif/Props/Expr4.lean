import Verif.Model.Expr4
import Verif.Props.Expr
import Verif.Props.Truth

/-!
# 4-state client programs (C115, C117)

Expressions and programs over `logic` objects against a reference semantics on
4-state bits written from the IEEE tables.
-/

namespace Verif

variable {n m : Nat}

/-- reference value of a 4-state vector: its bit at every position -/
abbrev R4 := Nat → V4

/-- the first `n` bits given by a function -/
def bitsOf (f : Nat → Bool) : (n : Nat) → BitVec n
  | 0 => 0#0
  | n + 1 => BitVec.cons (f n) (bitsOf f n)

theorem getLsbD_bitsOf (f : Nat → Bool) : ∀ n i, i < n → (bitsOf f n).getLsbD i = f i
  | 0, i, h => by omega
  | n + 1, i, h => by
    rw [bitsOf, BitVec.getLsbD_cons]
    by_cases e : i = n
    · rw [if_pos e, e]
    · rw [if_neg e, getLsbD_bitsOf f n i (by omega)]

namespace R4

/-- none of the `n` bits is x or z -/
def known (n : Nat) (r : R4) : Prop := ∀ i, i < n → (r i).isKnown = true

instance (n : Nat) (r : R4) : Decidable (known n r) := by unfold known; infer_instance

/-- the number of a vector without x and z -/
def num (n : Nat) (r : R4) : BitVec n := bitsOf (fun i => r i == .b1) n

/-- the vector of a number -/
def ofBV (b : BitVec n) : R4 := fun i => V4.ofBool (b.getLsbD i)

/-- all x -/
def allX : R4 := fun _ => .x

/-- an arithmetic operator: all x if an operand has an x or z -/
def arith (n : Nat) (f : BitVec n → BitVec n → R4) (a b : R4) : R4 :=
  if known n a ∧ known n b then f (num n a) (num n b) else allX

end R4

/-- reference values of the variables -/
abbrev Vals4 := (n : Nat) → Nat → R4

namespace Ex4

/-- **Reference semantics**: IEEE 1800 on 4-state bits. Undefined are a shift of a
known value by a known amount that the machine shift does not take, and `&` and `|` where some
pair of bits is one of those on which the library departs from the IEEE tables
(x or z on the left; C10, C11). -/
def den (ρ : Vals4) : {n : Nat} → Ex4 n → Option R4
  | _, .var n i => some (ρ n i)
  | _, .lit v => some (R4.ofBV v)
  | _, .dflt _ => some R4.allX
  | _, .not a => (den ρ a).map fun x i => V4.not (x i)
  | n, .and a b => (den ρ a).bind fun x => (den ρ b).bind fun y =>
      if ∀ i, i < n → (x i, y i) ∉ [(V4.x, V4.b0), (V4.z, V4.b1), (V4.z, V4.z)] then
        some fun i => V4.and (x i) (y i) else none
  | n, .or a b => (den ρ a).bind fun x => (den ρ b).bind fun y =>
      if ∀ i, i < n → (x i, y i) ∉ [(V4.x, V4.b0), (V4.z, V4.b1)] then
        some fun i => V4.or (x i) (y i) else none
  | _, .xor a b => (den ρ a).bind fun x => (den ρ b).map fun y i => V4.xor (x i) (y i)
  | n, .neg a => (den ρ a).map fun x => if R4.known n x then R4.ofBV (- R4.num n x) else R4.allX
  | n, .add a b => (den ρ a).bind fun x => (den ρ b).map fun y => R4.arith n (fun p q => R4.ofBV (p + q)) x y
  | n, .sub a b => (den ρ a).bind fun x => (den ρ b).map fun y => R4.arith n (fun p q => R4.ofBV (p - q)) x y
  | n, .mul a b => (den ρ a).bind fun x => (den ρ b).map fun y => R4.arith n (fun p q => R4.ofBV (p * q)) x y
  | n, .div a b => (den ρ a).bind fun x => (den ρ b).map fun y =>
      R4.arith n (fun p q => if q = 0 then R4.allX else R4.ofBV (p / q)) x y
  | n, .mod a b => (den ρ a).bind fun x => (den ρ b).map fun y =>
      R4.arith n (fun p q => if q = 0 then R4.allX else R4.ofBV (p % q)) x y
  | n, .shr (m := m) a k => (den ρ a).bind fun x => (den ρ k).bind fun y =>
      if R4.known n x ∧ R4.known m y then
        (if n ≤ (R4.num m y).toNat then none else some (R4.ofBV (R4.num n x >>> (R4.num m y).toNat)))
      else some R4.allX
  | n, .shl (m := m) a k => (den ρ a).bind fun x => (den ρ k).bind fun y =>
      if R4.known n x ∧ R4.known m y then
        (if (if n ≤ 32 then 32 else 64) ≤ (R4.num m y).toNat then none
          else some (R4.ofBV (R4.num n x <<< (R4.num m y).toNat)))
      else some R4.allX
  | _, .ext (n := n) _ a => (den ρ a).map fun x i => if i < n then x i else .b0
  | _, .slice i j a => (den ρ a).map fun x k => x (min i j + k)
  | _, .cat (m := m) a b => (den ρ a).bind fun x => (den ρ b).map fun y i => if i < m then y i else x (i - m)
  | _, .eq (n := n) a b => (den ρ a).bind fun x => (den ρ b).map fun y =>
      R4.arith n (fun p q => R4.ofBV (BitVec.ofBool (decide (p = q)))) x y
  | _, .lt (n := n) a b => (den ρ a).bind fun x => (den ρ b).map fun y =>
      R4.arith n (fun p q => R4.ofBV (BitVec.ofBool (decide (p < q)))) x y
  | _, .le (n := n) a b => (den ρ a).bind fun x => (den ρ b).map fun y =>
      R4.arith n (fun p q => R4.ofBV (BitVec.ofBool (decide (p ≤ q)))) x y
  | _, .same (n := n) a b => (den ρ a).bind fun x => (den ρ b).map fun y _ =>
      V4.ofBool (decide (∀ i, i < n → x i = y i))
  | _, .lnot (n := n) a => (den ρ a).map fun x _ =>
      if R4.known n x then V4.ofBool (decide (∀ i, i < n → x i = .b0)) else .x
  | _, .cond c a b => (den ρ c).bind fun x => if x 0 = .b1 then den ρ a else den ρ b

/-- The value plane of the result is canonical, decided from the syntax. The x/z
plane always is. -/
def Canon : {n : Nat} → Ex4 n → Prop
  | n, .neg _ | n, .add _ _ | n, .sub _ _ | n, .mul _ _ | n, .shl _ _ => NoSpare n
  | _, .cond _ a b => Canon a ∧ Canon b
  | _, .var _ _ | _, .lit _ | _, .dflt _ | _, .not _ | _, .and _ _ | _, .or _ _ | _, .xor _ _ | _, .div _ _
  | _, .mod _ _ | _, .shr _ _ | _, .ext _ _ | _, .slice _ _ _ | _, .cat _ _ | _, .eq _ _ | _, .lt _ _
  | _, .le _ _ | _, .same _ _ | _, .lnot _ => True

/-- **Well-formed expressions**, decided from the syntax. Operators that test their
operands for x and z are restricted to at most 64 bits (the test of wide values is
incomplete, C33), bitwise operators, slices and widening are not. -/
def Ok : {n : Nat} → Ex4 n → Prop
  | _, .var n _ => 0 < n ∧ n ≤ 2 ^ 31
  | n, .lit _ => 0 < n ∧ n ≤ 64
  | _, .dflt n => 0 < n ∧ n ≤ 2 ^ 31
  | _, .not a => Ok a
  | _, .and a b | _, .or a b | _, .xor a b => Ok a ∧ Ok b
  | n, .neg a => Ok a ∧ n ≤ 64
  | n, .add a b => Ok a ∧ Ok b ∧ 1 < n ∧ n ≤ 64
  | n, .sub a b => Ok a ∧ Ok b ∧ n ≤ 64
  | n, .mul a b => Ok a ∧ Ok b ∧ (n ≤ 8 ∨ 16 < n ∧ n ≤ 64)
  | n, .div a b | n, .mod a b => Ok a ∧ Ok b ∧ Canon a ∧ Canon b ∧ n ≤ 64
  | n, .shr (m := m) a k => Ok a ∧ Ok k ∧ Canon k ∧ n ≤ 64 ∧ m ≤ 64
  | n, .shl (m := m) a k => Ok a ∧ Ok k ∧ Canon k ∧ 1 < n ∧ n ≤ 64 ∧ m ≤ 64
  | _, .ext (n := n) m a => Ok a ∧ Canon a ∧ n ≤ m ∧ m ≤ 2 ^ 31
  | _, .slice (n := n) i j a => Ok a ∧ i < n ∧ j < n ∧ max i j - min i j ≠ 64
  | _, .cat (n := n) (m := m) a b => Ok a ∧ Ok b ∧ Canon a ∧ Canon b ∧ n + m < 64 ∧ (n + m ≤ 32 ∨ 32 < n)
  | _, .eq (n := n) a b | _, .lt (n := n) a b | _, .le (n := n) a b => Ok a ∧ Ok b ∧ Canon a ∧ Canon b ∧ n ≤ 64
  | _, .same a b => Ok a ∧ Ok b ∧ Canon a ∧ Canon b
  | _, .lnot (n := n) a => Ok a ∧ Canon a ∧ n ≤ 64
  | _, .cond c a b => Ok c ∧ Ok a ∧ Ok b

theorem Ok.width : {n : Nat} → {e : Ex4 n} → e.Ok → 0 < n ∧ n ≤ 2 ^ 31
  | _, .var _ _, h => h
  | _, .lit _, h => ⟨h.1, by have := h.2; omega⟩
  | _, .dflt _, h => h
  | _, .not a, h => Ok.width (e := a) h
  | _, .and a _, h | _, .or a _, h | _, .xor a _, h | _, .neg a, h | _, .add a _, h | _, .sub a _, h
  | _, .mul a _, h | _, .div a _, h | _, .mod a _, h | _, .shr a _, h | _, .shl a _, h => Ok.width (e := a) h.1
  | _, .ext _ a, h => ⟨by have := Ok.width (e := a) h.1; have := h.2.2.1; omega, h.2.2.2⟩
  | _, .slice _ _ a, h => by
    have := Ok.width (e := a) h.1
    obtain ⟨_, h1, h2, _⟩ := h
    omega
  | _, .cat a b, h => by
    have := Ok.width (e := a) h.1
    obtain ⟨_, _, _, _, h1, h2⟩ := h
    omega
  | _, .eq _ _, _ | _, .lt _ _, _ | _, .le _ _, _ | _, .same _ _, _ | _, .lnot _, _ => by decide
  | _, .cond _ a _, h => Ok.width (e := a) h.2.1

end Ex4

/-- the object holds the reference value and its x/z plane is canonical -/
def Rep4 (x : Lg n false) (r : R4) : Prop := x.xz.Clean ∧ ∀ i, i < n → x.at i = r i

/-- the objects hold the reference values, in canonical form -/
def Agree4 (σ : Objs4) (ρ : Vals4) : Prop := ∀ n i, (σ n i).value.Clean ∧ Rep4 (σ n i) (ρ n i)

namespace Rep4

variable {x : Lg n false} {r : R4}

theorem known (h : Rep4 x r) (hk : R4.known n r) : x.Known :=
  ⟨h.1, fun i hi => by rw [h.2 i hi]; exact hk i hi⟩

theorem num (h : Rep4 x r) (hk : R4.known n r) : x.value.bv = R4.num n r := by
  apply BitVec.eq_of_getLsbD_eq
  intro i hi
  rw [R4.num, getLsbD_bitsOf _ _ _ hi, ← h.2 i hi, (h.known hk).at hi]
  cases x.value.bv.getLsbD i <;> rfl

theorem anySet (h : Rep4 x r) (h64 : n ≤ 64) (hk : ¬ R4.known n r) : x.xz.anySet = true := by
  rw [Lg.anySet_xz h.1]
  unfold R4.known at hk
  push Not at hk
  obtain ⟨i, hi, hf⟩ := hk
  exact ⟨i, hi, Or.inl h64, by rw [h.2 i hi]; simpa using hf⟩

theorem ofKnown (v : Bits n false) : Rep4 ⟨v, Bits.zero⟩ (R4.ofBV v.bv) :=
  ⟨(Lg.known_zero v).1, fun i hi => by rw [(Lg.known_zero v).at hi]; rfl⟩

theorem dflt (hn : 0 < n) : ∃ z : Lg n false, Lg.dflt = .ok z ∧ z.value.Clean ∧ Rep4 z R4.allX := by
  obtain ⟨y, hy, h1, h2⟩ := Lg.dflt_ok (n := n) (s := false) hn
  refine ⟨y, hy, (Bits.clean_unsigned_iff _).2 fun i _ => h1 i,
    (Bits.clean_unsigned_iff _).2 fun i hi => by rw [h2]; simp; omega, fun i hi => ?_⟩
  rw [Lg.at_lt y hi, h1, h2]
  simp [hi, V4.mk, R4.allX]

/-- the shape of `+ - *` -/
theorem arith (hn : 0 < n) (h64 : n ≤ 64) {y : Lg n false} {q : R4} (hx : Rep4 x r) (hy : Rep4 y q)
    (f : Bits n false → Bits n false → Res (Bits n false)) (g : BitVec n → BitVec n → BitVec n)
    (hf : ∃ z, f x.value y.value = .ok z ∧ z.bv = g x.value.bv y.value.bv) :
    ∃ z, Lg.arithWith f x y = .ok z ∧ Rep4 z (R4.arith n (fun p q => R4.ofBV (g p q)) r q) := by
  rw [R4.arith]
  by_cases hk : R4.known n r ∧ R4.known n q
  · rw [if_pos hk]
    obtain ⟨z, hz, e⟩ := hf
    refine ⟨⟨z, Bits.zero⟩, ?_, ?_⟩
    · rw [Lg.arithWith, if_neg (by simp [(hx.known hk.1).anySet, (hy.known hk.2).anySet]), hz]; rfl
    · rw [← hx.num hk.1, ← hy.num hk.2, ← e]
      exact ofKnown z
  · rw [if_neg hk]
    obtain ⟨z, hz, -, hr⟩ := dflt (n := n) hn
    refine ⟨z, ?_, hr⟩
    rw [Lg.arithWith, if_pos ?_]
    · exact hz
    · rw [not_and_or] at hk
      rcases hk with hk | hk
      · simp [hx.anySet h64 hk]
      · simp [hy.anySet h64 hk]

/-- the shape of `/ %` -/
theorem div (hn : 0 < n) (h64 : n ≤ 64) {y : Lg n false} {q : R4} (hx : Rep4 x r) (hy : Rep4 y q)
    (cy : y.value.Clean)
    (f : Bits n false → Bits n false → Res (Bits n false)) (g : BitVec n → BitVec n → BitVec n)
    (hf : y.value.bv ≠ 0 → ∃ z, f x.value y.value = .ok z ∧ z.Clean ∧ z.bv = g x.value.bv y.value.bv) :
    ∃ z, Lg.divWith f x y = .ok z ∧ z.value.Clean ∧
      Rep4 z (R4.arith n (fun p q => if q = 0 then R4.allX else R4.ofBV (g p q)) r q) := by
  obtain ⟨d, hd, cd, hdr⟩ := dflt (n := n) hn
  have ha := Bits.anySet_native h64 cy
  rw [R4.arith]
  by_cases hk : R4.known n r ∧ R4.known n q
  · rw [if_pos hk, ← hx.num hk.1, ← hy.num hk.2]
    by_cases h0 : y.value.bv = 0
    · rw [if_pos h0]
      exact ⟨d, by rw [Lg.divWith, if_pos (by rw [ha]; simp [h0])]; exact hd, cd, hdr⟩
    · rw [if_neg h0]
      obtain ⟨z, hz, cz, e⟩ := hf h0
      refine ⟨⟨z, Bits.zero⟩, ?_, cz, ?_⟩
      · rw [Lg.divWith, if_neg (by rw [ha]; simp [(hx.known hk.1).anySet, (hy.known hk.2).anySet]; exact h0), hz]; rfl
      · rw [← e]; exact ofKnown z
  · rw [if_neg hk]
    refine ⟨d, ?_, cd, hdr⟩
    rw [Lg.divWith, if_pos ?_]
    · exact hd
    · rw [not_and_or] at hk
      rcases hk with hk | hk
      · simp [hx.anySet h64 hk]
      · simp [hy.anySet h64 hk]

theorem one (z : Lg 1 false) {v : V4} (h : z.at 0 = v) (r : R4) (hr : r 0 = v) : Rep4 z r :=
  ⟨Bits.clean_one (by decide) (by decide) _, fun i hi => by
    have : i = 0 := by omega
    subst this; rw [h, hr]⟩

theorem toBool {x : Lg 1 false} (h : Rep4 x r) : x.toBool = true ↔ r 0 = .b1 := by
  rw [C22_bool_native (by decide) x ⟨Bits.clean_one (by decide) (by decide) _, h.1⟩]
  constructor
  · rintro ⟨-, i, hi, e⟩
    have : i = 0 := by omega
    subst this
    rw [← h.2 0 hi]; exact e
  · intro e
    refine ⟨fun i hi => ?_, 0, by decide, by rw [h.2 0 (by decide)]; exact e⟩
    have : i = 0 := by omega
    subst this
    rw [h.2 0 hi, e]; rfl

/-- the shape of the relational operators -/
theorem rel (h64 : n ≤ 64) {y : Lg n false} {q : R4} (hx : Rep4 x r) (hy : Rep4 y q)
    (f : Bits n false → Bits n false → Res Bool) (g : BitVec n → BitVec n → Bool)
    (hf : f x.value y.value = .ok (g x.value.bv y.value.bv)) :
    ∃ z, Lg.relWith f x y = .ok z ∧
      Rep4 z (R4.arith n (fun p q => R4.ofBV (BitVec.ofBool (g p q))) r q) := by
  rw [R4.arith]
  by_cases hk : R4.known n r ∧ R4.known n q
  · rw [if_pos hk, ← hx.num hk.1, ← hy.num hk.2]
    refine ⟨Lg.known1 (g x.value.bv y.value.bv), ?_, ?_⟩
    · rw [Lg.relWith, if_neg (by simp [(hx.known hk.1).anySet, (hy.known hk.2).anySet]), hf]; rfl
    · refine one _ rfl _ ?_
      cases g x.value.bv y.value.bv <;> decide
  · rw [if_neg hk]
    refine ⟨Lg.x1, ?_, one _ Lg.x1_at _ rfl⟩
    rw [Lg.relWith, if_pos ?_]
    rw [not_and_or] at hk
    rcases hk with hk | hk
    · simp [hx.anySet h64 hk]
    · simp [hy.anySet h64 hk]

/-- the shape of the shifts -/
theorem shift (hn : 0 < n) (h64 : n ≤ 64) (hm : m ≤ 64) {y : Lg m false} {q : R4} (hx : Rep4 x r) (hy : Rep4 y q)
    (f : {s' : Bool} → Bits n s' → Bits m false → Res (Bits n (s' && false))) :
    (¬ (R4.known n r ∧ R4.known m q) → ∃ z, Lg.shiftWith f x y = .ok z ∧ z.value.Clean ∧ Rep4 z R4.allX) ∧
    (R4.known n r ∧ R4.known m q → ∀ v k, f x.value y.value = .ok v → f x.xz y.value = .ok k →
      (∀ i, Bits.raw k i = false) → Lg.shiftWith f x y = .ok ⟨v, k⟩ ∧ Rep4 ⟨v, k⟩ (R4.ofBV (Bits.bv v))) := by
  constructor
  · intro hk
    obtain ⟨d, hd, h1, h2⟩ := Lg.dflt_ok (n := n) (s := false) hn
    obtain ⟨k, hk1, hk2⟩ := Bits.mask_ok hn d.xz
    refine ⟨⟨d.value, k⟩, ?_, (Bits.clean_unsigned_iff _).2 fun i _ => h1 i,
      (Bits.clean_unsigned_iff _).2 fun i hi => by rw [hk2]; simp; omega, fun i hi => ?_⟩
    · rw [Lg.shiftWith]
      show (Lg.dflt : Res (Lg n false)).bind _ = _
      rw [hd, res_bind_ok, if_pos ?_, hk1]; rfl
      rw [not_and_or] at hk
      rcases hk with hk | hk
      · simp [hx.anySet h64 hk]
      · simp [hy.anySet hm hk]
    · rw [Lg.at_lt _ hi, h1, hk2]
      simp [hi, V4.mk, R4.allX]
  · intro hk v k hv hk1 hk0
    refine ⟨Lg.shiftWith_known hn f (hx.known hk.1) (hy.known hk.2) hv hk1, ?_⟩
    have hkn : (⟨v, k⟩ : Lg n false).Known := Lg.known_of_raw hk0
    exact ⟨hkn.1, fun i hi => by rw [hkn.at hi]; rfl⟩

end Rep4

theorem Bits.shl_zero_raw (h : n ≤ 64) (h1 : 1 < n) (hm : m ≤ 64) (x : Bits n false) (hx : ∀ i, x.raw i = false)
    (y : Bits m false) {k : Nat} (hy : y.nv.v = k) (hk : k < max 32 (hw n)) :
    ∃ z, x.shl y = .ok z ∧ ∀ i, z.raw i = false := by
  have hc : x.Clean := Bits.clean_of_raw_zero hx
  have hb : x.bv = 0 := by
    apply BitVec.eq_of_getLsbD_eq
    intro i _
    rw [Bits.getLsbD_bv, hx]; simp
  have h0 : x.nv.v = 0 := by rw [Bits.clean_unsigned_num h hc, hb]; simp
  have hW : (holderTy n false).promote.width = max 32 (hw n) := by
    rw [promote_holder]; split_ifs <;> simp [CTy.width] <;> omega
  have hv := TV.shl_ok (x := x.nv) (c := y.nv.cast (holderTy n false)) (k := k)
    (by rw [TV.cast]; simp only [hy]; exact Bits.conv_amount h1 h (by have := hw_le n; omega))
    (by rw [Bits.nv_ty, hW]; exact hk)
  have hc0 : ∀ T : CTy, T.conv 0 = 0 := by
    intro T; cases T with
    | bool => rfl
    | int w sg => cases sg <;> simp [CTy.conv]
  refine ⟨Bits.mkN h _, by rw [Bits.shl, dif_pos h, if_pos hm, hv]; rfl, fun i => ?_⟩
  rw [Bits.raw_native h, Bits.hold_mkN h (by omega)]
  simp only [h0, hc0, Int.zero_mul]
  simp

/-- **C115.** A well-formed 4-state expression over canonical objects, of any size and
nesting: whenever its reference value is defined, the library evaluation does not
fault and every bit of its result is the reference bit, x and z included. -/
theorem C115_expr4 (σ : Objs4) (ρ : Vals4) (h : Agree4 σ ρ) : {n : Nat} → (e : Ex4 n) → e.Ok →
    (r : R4) → e.den ρ = some r → ∃ x, e.run σ = .ok x ∧ Rep4 x r ∧ (e.Canon → x.value.Clean)
  | _, .var n i, _, r, hv => by
    simp only [Ex4.den, Option.some.injEq] at hv
    exact ⟨_, rfl, hv ▸ (h n i).2, fun _ => (h n i).1⟩
  | n, .lit w, ho, r, hv => by
    simp only [Ex4.den, Option.some.injEq] at hv
    obtain ⟨h1, h2⟩ := Bits.ofInt_native ho.2 w
    refine ⟨_, rfl, ?_, fun _ => h1⟩
    rw [← hv]
    have := Rep4.ofKnown (Bits.ofInt w.toNat : Bits n false)
    rw [h2] at this
    exact this
  | n, .dflt _, ho, r, hv => by
    simp only [Ex4.den, Option.some.injEq] at hv
    obtain ⟨z, hz, cz, hr⟩ := Rep4.dflt (n := n) ho.1
    exact ⟨z, hz, hv ▸ hr, fun _ => cz⟩
  | _, .not a, ho, r, hv => by
    simp only [Ex4.den, Option.map_eq_some_iff] at hv
    obtain ⟨u, hu, rfl⟩ := hv
    obtain ⟨x, hx, rx, _⟩ := C115_expr4 σ ρ h a ho u hu
    have hw := Ex4.Ok.width (e := a) ho
    obtain ⟨z, hz, e⟩ := C09_not_table hw.1 x
    obtain ⟨z', hz', h1, h2⟩ := Lg.not_ok hw.1 x
    rw [hz] at hz'; injection hz' with hz'; subst hz'
    refine ⟨z, by rw [Ex4.run, hx, res_bind_ok, hz], ⟨?_, fun i hi => by rw [e i hi, rx.2 i hi]⟩, fun _ => ?_⟩
    · refine (Bits.clean_unsigned_iff _).2 fun i hi => ?_
      rw [h2]; exact (Bits.clean_unsigned_iff _).1 rx.1 i hi
    · exact (Bits.clean_unsigned_iff _).2 fun i hi => by rw [h1]; simp; omega
  | n, .and a b, ho, r, hv => by
    simp only [Ex4.den, Option.bind_eq_some_iff] at hv
    obtain ⟨u, hu, w, hw, hv⟩ := hv
    obtain ⟨x, hx, rx, _⟩ := C115_expr4 σ ρ h a ho.1 u hu
    obtain ⟨y, hy, ry, _⟩ := C115_expr4 σ ρ h b ho.2 w hw
    have hn := (Ex4.Ok.width ho.1).1
    split_ifs at hv with hd
    simp only [Option.some.injEq] at hv
    obtain ⟨z, hz, e⟩ := C10_and_table_partial hn x y
    obtain ⟨z', hz', h1, h2⟩ := Lg.and_ok hn x y
    rw [hz] at hz'; injection hz' with hz'; subst hz'
    refine ⟨z, by rw [Ex4.run, hx, res_bind_ok, hy, res_bind_ok]; exact hz, ⟨?_, fun i hi => ?_⟩, fun _ => ?_⟩
    · exact (Bits.clean_unsigned_iff _).2 fun i hi => by rw [h2]; simp; omega
    · rw [e i hi, rx.2 i hi, ry.2 i hi, ← hv]
      show _ = V4.and (u i) (w i)
      have := hd i hi
      generalize u i = p at this ⊢
      generalize w i = q at this ⊢
      revert this
      cases p <;> cases q <;> decide
    · exact (Bits.clean_unsigned_iff _).2 fun i hi => by rw [h1]; simp; omega
  | n, .or a b, ho, r, hv => by
    simp only [Ex4.den, Option.bind_eq_some_iff] at hv
    obtain ⟨u, hu, w, hw, hv⟩ := hv
    obtain ⟨x, hx, rx, _⟩ := C115_expr4 σ ρ h a ho.1 u hu
    obtain ⟨y, hy, ry, _⟩ := C115_expr4 σ ρ h b ho.2 w hw
    have hn := (Ex4.Ok.width ho.1).1
    split_ifs at hv with hd
    simp only [Option.some.injEq] at hv
    obtain ⟨z, hz, e⟩ := C11_or_table_partial hn x y
    obtain ⟨z', hz', h1, h2⟩ := Lg.or_ok hn x y
    rw [hz] at hz'; injection hz' with hz'; subst hz'
    refine ⟨z, by rw [Ex4.run, hx, res_bind_ok, hy, res_bind_ok]; exact hz, ⟨?_, fun i hi => ?_⟩, fun _ => ?_⟩
    · exact (Bits.clean_unsigned_iff _).2 fun i hi => by rw [h2]; simp; omega
    · rw [e i hi, rx.2 i hi, ry.2 i hi, ← hv]
      show _ = V4.or (u i) (w i)
      have := hd i hi
      generalize u i = p at this ⊢
      generalize w i = q at this ⊢
      revert this
      cases p <;> cases q <;> decide
    · exact (Bits.clean_unsigned_iff _).2 fun i hi => by rw [h1]; simp; omega
  | n, .xor a b, ho, r, hv => by
    simp only [Ex4.den, Option.bind_eq_some_iff, Option.map_eq_some_iff] at hv
    obtain ⟨u, hu, w, hw, rfl⟩ := hv
    obtain ⟨x, hx, rx, _⟩ := C115_expr4 σ ρ h a ho.1 u hu
    obtain ⟨y, hy, ry, _⟩ := C115_expr4 σ ρ h b ho.2 w hw
    have hn := (Ex4.Ok.width ho.1).1
    obtain ⟨z, hz, e⟩ := C08_xor_table hn x y
    obtain ⟨z', hz', h1, h2⟩ := Lg.xor_ok hn x y
    rw [hz] at hz'; injection hz' with hz'; subst hz'
    refine ⟨z, by rw [Ex4.run, hx, res_bind_ok, hy, res_bind_ok]; exact hz, ⟨?_, fun i hi => ?_⟩, fun _ => ?_⟩
    · refine (Bits.clean_unsigned_iff _).2 fun i hi => ?_
      rw [h2, (Bits.clean_unsigned_iff _).1 rx.1 i hi, (Bits.clean_unsigned_iff _).1 ry.1 i hi]; rfl
    · rw [e i hi, rx.2 i hi, ry.2 i hi]
    · exact (Bits.clean_unsigned_iff _).2 fun i hi => by rw [h1]; simp; omega
  | n, .neg a, ho, r, hv => by
    simp only [Ex4.den, Option.map_eq_some_iff] at hv
    obtain ⟨u, hu, rfl⟩ := hv
    obtain ⟨ha, h64⟩ := ho
    obtain ⟨x, hx, rx, _⟩ := C115_expr4 σ ρ h a ha u hu
    have hn := (Ex4.Ok.width ha).1
    by_cases hk : R4.known n u
    · rw [if_pos hk]
      obtain ⟨z, hz, ez⟩ := (C35_neg_partial hn x.value (by simp) (by simp [IsMin])).1 h64
      refine ⟨⟨z, Bits.zero⟩, ?_, ?_, fun hc => NoSpare.clean hn hc _⟩
      · rw [Ex4.run, hx, res_bind_ok, dif_pos h64, Lg.neg, if_neg (by simp [(rx.known hk).anySet]), hz]; rfl
      · rw [← rx.num hk, ← ez]; exact Rep4.ofKnown z
    · rw [if_neg hk]
      obtain ⟨z, hz, cz, hr⟩ := Rep4.dflt (n := n) hn
      exact ⟨z, by rw [Ex4.run, hx, res_bind_ok, dif_pos h64, Lg.neg, if_pos (rx.anySet h64 hk), hz], hr,
        fun _ => cz⟩
  | n, .add a b, ho, r, hv => by
    simp only [Ex4.den, Option.bind_eq_some_iff, Option.map_eq_some_iff] at hv
    obtain ⟨u, hu, w, hw, rfl⟩ := hv
    obtain ⟨ha, hb, h1, h64⟩ := ho
    obtain ⟨x, hx, rx, _⟩ := C115_expr4 σ ρ h a ha u hu
    obtain ⟨y, hy, ry, _⟩ := C115_expr4 σ ρ h b hb w hw
    obtain ⟨z, hz, rz⟩ := rx.arith (by omega) h64 ry Bits.add (· + ·) (C28_add_partial h1 x.value y.value (by simp))
    exact ⟨z, by rw [Ex4.run, hx, res_bind_ok, hy, res_bind_ok]; exact hz, rz,
      fun hc => NoSpare.clean (by omega) hc _⟩
  | n, .sub a b, ho, r, hv => by
    simp only [Ex4.den, Option.bind_eq_some_iff, Option.map_eq_some_iff] at hv
    obtain ⟨u, hu, w, hw, rfl⟩ := hv
    obtain ⟨ha, hb, h64⟩ := ho
    obtain ⟨x, hx, rx, _⟩ := C115_expr4 σ ρ h a ha u hu
    obtain ⟨y, hy, ry, _⟩ := C115_expr4 σ ρ h b hb w hw
    have hn := (Ex4.Ok.width ha).1
    obtain ⟨z, hz, rz⟩ := rx.arith hn h64 ry Bits.sub (· - ·) (C29_sub_partial hn x.value y.value (by simp))
    exact ⟨z, by rw [Ex4.run, hx, res_bind_ok, hy, res_bind_ok]; exact hz, rz,
      fun hc => NoSpare.clean hn hc _⟩
  | n, .mul a b, ho, r, hv => by
    simp only [Ex4.den, Option.bind_eq_some_iff, Option.map_eq_some_iff] at hv
    obtain ⟨u, hu, w, hw, rfl⟩ := hv
    obtain ⟨ha, hb, hs⟩ := ho
    obtain ⟨x, hx, rx, _⟩ := C115_expr4 σ ρ h a ha u hu
    obtain ⟨y, hy, ry, _⟩ := C115_expr4 σ ρ h b hb w hw
    have hn := (Ex4.Ok.width ha).1
    obtain ⟨z, hz, rz⟩ := rx.arith hn (by omega) ry Bits.mul (· * ·)
      (C30_mul_partial hn x.value y.value (fun _ _ h1 h2 => by omega) (by simp) (fun h1 => by omega))
    exact ⟨z, by rw [Ex4.run, hx, res_bind_ok, hy, res_bind_ok]; exact hz, rz,
      fun hc => NoSpare.clean hn hc _⟩
  | n, .div a b, ho, r, hv => by
    simp only [Ex4.den, Option.bind_eq_some_iff, Option.map_eq_some_iff] at hv
    obtain ⟨u, hu, w, hw, rfl⟩ := hv
    obtain ⟨ha, hb, ka, kb, h64⟩ := ho
    obtain ⟨x, hx, rx, cx⟩ := C115_expr4 σ ρ h a ha u hu
    obtain ⟨y, hy, ry, cy⟩ := C115_expr4 σ ρ h b hb w hw
    have hn := (Ex4.Ok.width ha).1
    obtain ⟨z, hz, cz, rz⟩ := rx.div hn h64 ry (cy kb) Bits.div (· / ·) (fun h0 => by
      obtain ⟨⟨q, hq, cq, eq⟩, -⟩ := Bits.div_native h64 hn (cx ka) (cy kb) h0
      exact ⟨q, hq, cq, BitVec.eq_of_toNat_eq (by rw [eq, BitVec.toNat_udiv])⟩)
    exact ⟨z, by rw [Ex4.run, hx, res_bind_ok, hy, res_bind_ok]; exact hz, rz, fun _ => cz⟩
  | n, .mod a b, ho, r, hv => by
    simp only [Ex4.den, Option.bind_eq_some_iff, Option.map_eq_some_iff] at hv
    obtain ⟨u, hu, w, hw, rfl⟩ := hv
    obtain ⟨ha, hb, ka, kb, h64⟩ := ho
    obtain ⟨x, hx, rx, cx⟩ := C115_expr4 σ ρ h a ha u hu
    obtain ⟨y, hy, ry, cy⟩ := C115_expr4 σ ρ h b hb w hw
    have hn := (Ex4.Ok.width ha).1
    obtain ⟨z, hz, cz, rz⟩ := rx.div hn h64 ry (cy kb) Bits.mod (· % ·) (fun h0 => by
      obtain ⟨-, ⟨q, hq, cq, eq⟩⟩ := Bits.div_native h64 hn (cx ka) (cy kb) h0
      exact ⟨q, hq, cq, BitVec.eq_of_toNat_eq (by rw [eq, BitVec.toNat_umod])⟩)
    exact ⟨z, by rw [Ex4.run, hx, res_bind_ok, hy, res_bind_ok]; exact hz, rz, fun _ => cz⟩
  | n, .shr (m := m) a k, ho, r, hv => by
    simp only [Ex4.den, Option.bind_eq_some_iff] at hv
    obtain ⟨u, hu, w, hw, hv⟩ := hv
    obtain ⟨ha, hb, kb, h64, hm⟩ := ho
    obtain ⟨x, hx, rx, cx⟩ := C115_expr4 σ ρ h a ha u hu
    obtain ⟨y, hy, ry, cy⟩ := C115_expr4 σ ρ h k hb w hw
    have hn := (Ex4.Ok.width ha).1
    obtain ⟨hX, hK⟩ := rx.shift hn h64 hm ry Bits.shr
    by_cases hk : R4.known n u ∧ R4.known m w
    · rw [if_pos hk] at hv
      split_ifs at hv with h0
      simp only [Option.some.injEq] at hv
      rw [← ry.num hk.2] at h0 hv
      rw [← rx.num hk.1] at hv
      have hy0 := Bits.amount_native hm (cy kb) (by simp [numOf] : numOf false y.value.bv = (y.value.bv.toNat : Nat))
      obtain ⟨v, e1, r1⟩ := Bits.shr_native h64 hn hm x.value y.value hy0 (by omega)
      obtain ⟨p, e2, r2⟩ := Bits.shr_native h64 hn hm x.xz y.value hy0 (by omega)
      have hbv : Bits.bv v = x.value.bv >>> y.value.bv.toNat := by
        apply BitVec.eq_of_getLsbD_eq
        intro i hi
        rw [Bits.getLsbD_bv v, r1, BitVec.getLsbD_ushiftRight, Bits.getLsbD_bv]
        simp [hi, Nat.add_comm]
      obtain ⟨hz, rz⟩ := hK hk v p e1 e2 (fun i => by rw [r2, (rx.known hk.1).raw]; simp)
      refine ⟨⟨v, p⟩, by rw [Ex4.run, hx, res_bind_ok, hy, res_bind_ok]; exact hz, ?_, fun _ => ?_⟩
      · rw [← hv, ← hbv]; exact rz
      · refine (Bits.clean_unsigned_iff v).2 fun i hi => ?_
        rw [r1]; simp; omega
    · rw [if_neg hk] at hv
      simp only [Option.some.injEq] at hv
      obtain ⟨z, hz, cz, rz⟩ := hX hk
      exact ⟨z, by rw [Ex4.run, hx, res_bind_ok, hy, res_bind_ok]; exact hz, hv ▸ rz, fun _ => cz⟩
  | n, .shl (m := m) a k, ho, r, hv => by
    simp only [Ex4.den, Option.bind_eq_some_iff] at hv
    obtain ⟨u, hu, w, hw, hv⟩ := hv
    obtain ⟨ha, hb, kb, h1, h64, hm⟩ := ho
    obtain ⟨x, hx, rx, cx⟩ := C115_expr4 σ ρ h a ha u hu
    obtain ⟨y, hy, ry, cy⟩ := C115_expr4 σ ρ h k hb w hw
    have hn : 0 < n := by omega
    obtain ⟨hX, hK⟩ := rx.shift hn h64 hm ry Bits.shl
    by_cases hk : R4.known n u ∧ R4.known m w
    · rw [if_pos hk] at hv
      rw [← ry.num hk.2, ← rx.num hk.1] at hv
      by_cases h0 : (if n ≤ 32 then 32 else 64) ≤ y.value.bv.toNat
      · rw [if_pos h0] at hv; exact absurd hv (by simp)
      rw [if_neg h0] at hv
      simp only [Option.some.injEq] at hv
      have hy0 := Bits.amount_native hm (cy kb) (by simp [numOf] : numOf false y.value.bv = (y.value.bv.toNat : Nat))
      have hlt : y.value.bv.toNat < max 32 (Verif.hw n) := by
        have : n ≤ Verif.hw n := le_hw h64
        have hc := hw_cases n
        by_cases h32 : n ≤ 32
        · rw [if_pos h32] at h0; omega
        · rw [if_neg h32] at h0; omega
      obtain ⟨v, e1, b1⟩ := Bits.shl_native h64 h1 hm x.value y.value hy0 hlt
      obtain ⟨p, e2, r2⟩ := Bits.shl_zero_raw h64 h1 hm x.xz (fun i => (rx.known hk.1).raw i) y.value hy0 hlt
      obtain ⟨hz, rz⟩ := hK hk v p e1 e2 r2
      refine ⟨⟨v, p⟩, by rw [Ex4.run, hx, res_bind_ok, hy, res_bind_ok]; exact hz, ?_,
        fun hc => NoSpare.clean hn hc _⟩
      rw [← hv, ← b1]; exact rz
    · rw [if_neg hk] at hv
      simp only [Option.some.injEq] at hv
      obtain ⟨z, hz, cz, rz⟩ := hX hk
      exact ⟨z, by rw [Ex4.run, hx, res_bind_ok, hy, res_bind_ok]; exact hz, hv ▸ rz, fun _ => cz⟩
  | _, .ext m a, ho, r, hv => by
    simp only [Ex4.den, Option.map_eq_some_iff] at hv
    obtain ⟨u, hu, rfl⟩ := hv
    obtain ⟨ha, ka, hm, -⟩ := ho
    obtain ⟨x, hx, rx, cx⟩ := C115_expr4 σ ρ h a ha u hu
    obtain ⟨h1, h2⟩ := C47_zero_extend_logic_partial (Ex4.Ok.width ha).1 hm x ⟨cx ka, rx.1⟩
    refine ⟨x.extend m, by rw [Ex4.run, hx]; rfl, ⟨h1.2, fun i hi => ?_⟩, fun _ => h1.1⟩
    rw [h2 i hi]
    beta_reduce
    split_ifs with hi2
    · exact rx.2 i hi2
    · rfl
  | _, .slice i j a, ho, r, hv => by
    simp only [Ex4.den, Option.map_eq_some_iff] at hv
    obtain ⟨u, hu, rfl⟩ := hv
    obtain ⟨ha, hi, hj, hd⟩ := ho
    obtain ⟨x, hx, rx, cx⟩ := C115_expr4 σ ρ h a ha u hu
    obtain ⟨z, hz, cz, ez⟩ := C49_slice_logic x i j hi hj hd
    refine ⟨z, by rw [Ex4.run, hx, res_bind_ok, hz], ⟨cz.2, fun k hk => ?_⟩, fun _ => cz.1⟩
    rw [ez k (by omega), rx.2 _ (by omega)]
  | _, .cat a b, ho, r, hv => by
    simp only [Ex4.den, Option.bind_eq_some_iff, Option.map_eq_some_iff] at hv
    obtain ⟨u, hu, w, hw, rfl⟩ := hv
    obtain ⟨ha, hb, ka, kb, h64, hs⟩ := ho
    obtain ⟨x, hx, rx, cx⟩ := C115_expr4 σ ρ h a ha u hu
    obtain ⟨y, hy, ry, cy⟩ := C115_expr4 σ ρ h b hb w hw
    obtain ⟨z, hz, cz, ez⟩ := C52_concat_logic_partial (Ex4.Ok.width ha).1 (Ex4.Ok.width hb).1 h64 hs x y
      ⟨cx ka, rx.1⟩ ⟨cy kb, ry.1⟩
    refine ⟨z, by rw [Ex4.run, hx, res_bind_ok, hy, res_bind_ok, dif_pos h64, hz], ⟨cz.2, fun i hi => ?_⟩,
      fun _ => cz.1⟩
    rw [ez i hi]
    beta_reduce
    split_ifs with hi2
    · exact ry.2 i hi2
    · exact rx.2 _ (by omega)
  | _, .eq a b, ho, r, hv => by
    simp only [Ex4.den, Option.bind_eq_some_iff, Option.map_eq_some_iff] at hv
    obtain ⟨u, hu, w, hw, rfl⟩ := hv
    obtain ⟨ha, hb, ka, kb, h64⟩ := ho
    obtain ⟨x, hx, rx, cx⟩ := C115_expr4 σ ρ h a ha u hu
    obtain ⟨y, hy, ry, cy⟩ := C115_expr4 σ ρ h b hb w hw
    obtain ⟨z, hz, rz⟩ := rx.rel h64 ry (fun a b => .ok (a.eq b)) (fun p q => decide (p = q)) (by
      rw [Bits.eq_clean (Ex4.Ok.width ha).1 (by simp) (cx ka) (cy kb)]; simp)
    exact ⟨z, by rw [Ex4.run, hx, res_bind_ok, hy, res_bind_ok]; exact hz, rz,
      fun _ => Bits.clean_one (by decide) (by decide) _⟩
  | _, .lt a b, ho, r, hv => by
    simp only [Ex4.den, Option.bind_eq_some_iff, Option.map_eq_some_iff] at hv
    obtain ⟨u, hu, w, hw, rfl⟩ := hv
    obtain ⟨ha, hb, ka, kb, h64⟩ := ho
    obtain ⟨x, hx, rx, cx⟩ := C115_expr4 σ ρ h a ha u hu
    obtain ⟨y, hy, ry, cy⟩ := C115_expr4 σ ρ h b hb w hw
    obtain ⟨z, hz, rz⟩ := rx.rel h64 ry Bits.lt (fun p q => decide (p < q))
      ((C40_gt_lt Iff.rfl x.value y.value (cx ka) (cy kb)).2)
    exact ⟨z, by rw [Ex4.run, hx, res_bind_ok, hy, res_bind_ok]; exact hz, rz,
      fun _ => Bits.clean_one (by decide) (by decide) _⟩
  | _, .le a b, ho, r, hv => by
    simp only [Ex4.den, Option.bind_eq_some_iff, Option.map_eq_some_iff] at hv
    obtain ⟨u, hu, w, hw, rfl⟩ := hv
    obtain ⟨ha, hb, ka, kb, h64⟩ := ho
    obtain ⟨x, hx, rx, cx⟩ := C115_expr4 σ ρ h a ha u hu
    obtain ⟨y, hy, ry, cy⟩ := C115_expr4 σ ρ h b hb w hw
    obtain ⟨z, hz, rz⟩ := rx.rel h64 ry Bits.le (fun p q => decide (p ≤ q))
      ((C40_ge_le_partial Iff.rfl x.value y.value (cx ka) (cy kb) (fun _ => Or.inl rfl)).2)
    exact ⟨z, by rw [Ex4.run, hx, res_bind_ok, hy, res_bind_ok]; exact hz, rz,
      fun _ => Bits.clean_one (by decide) (by decide) _⟩
  | _, .same (n := n) a b, ho, r, hv => by
    simp only [Ex4.den, Option.bind_eq_some_iff, Option.map_eq_some_iff] at hv
    obtain ⟨u, hu, w, hw, rfl⟩ := hv
    obtain ⟨ha, hb, ka, kb⟩ := ho
    obtain ⟨x, hx, rx, cx⟩ := C115_expr4 σ ρ h a ha u hu
    obtain ⟨y, hy, ry, cy⟩ := C115_expr4 σ ρ h b hb w hw
    have hm := (C44_match_partial (Ex4.Ok.width ha).1 (by simp) x y ⟨cx ka, rx.1⟩ ⟨cy kb, ry.1⟩).1
    have he : x.matches' y = decide (∀ i, i < n → u i = w i) := by
      rw [hm, decide_eq_decide]
      constructor
      · rintro ⟨h1, -⟩ i hi
        rw [← rx.2 i hi, ← ry.2 i hi]; exact h1 i hi
      · intro h1
        exact ⟨fun i hi => by rw [rx.2 i hi, ry.2 i hi]; exact h1 i hi, Or.inl rfl⟩
    refine ⟨_, by rw [Ex4.run, hx, res_bind_ok, hy]; rfl, Rep4.one _ rfl _ ?_,
      fun _ => Bits.clean_one (by decide) (by decide) _⟩
    beta_reduce
    rw [he]
    cases decide (∀ i, i < n → u i = w i) <;> decide +kernel
  | _, .lnot (n := n) a, ho, r, hv => by
    simp only [Ex4.den, Option.map_eq_some_iff] at hv
    obtain ⟨u, hu, rfl⟩ := hv
    obtain ⟨ha, ka, h64⟩ := ho
    obtain ⟨x, hx, rx, cx⟩ := C115_expr4 σ ρ h a ha u hu
    obtain ⟨h1, h2, h3⟩ := C23_not_native h64 x ⟨cx ka, rx.1⟩
    refine ⟨x.lnot, by rw [Ex4.run, hx]; rfl, Rep4.one _ rfl _ ?_, fun _ => Bits.clean_one (by decide) (by decide) _⟩
    by_cases hk : R4.known n u
    · rw [if_pos hk]
      by_cases h0 : ∀ i, i < n → u i = .b0
      · rw [h3 (fun i hi => by rw [rx.2 i hi]; exact h0 i hi), decide_eq_true h0]; rfl
      · rw [h2 (fun i hi => by rw [rx.2 i hi]; exact hk i hi) ?_]
        · rw [decide_eq_false h0]; rfl
        · push Not at h0
          obtain ⟨i, hi, hne⟩ := h0
          refine ⟨i, hi, ?_⟩
          have := hk i hi
          rw [rx.2 i hi]
          revert this hne
          cases u i <;> decide
    · rw [if_neg hk, h1]
      unfold R4.known at hk
      push Not at hk
      obtain ⟨i, hi, hf⟩ := hk
      exact ⟨i, hi, by rw [rx.2 i hi]; simpa using hf⟩
  | _, .cond c a b, ho, r, hv => by
    simp only [Ex4.den, Option.bind_eq_some_iff] at hv
    obtain ⟨t, ht, hv⟩ := hv
    obtain ⟨hc, ha, hb⟩ := ho
    obtain ⟨x, hx, rx, -⟩ := C115_expr4 σ ρ h c hc t ht
    have hb1 : x.toBool = true ↔ t 0 = .b1 := rx.toBool
    by_cases h1 : t 0 = .b1
    · rw [if_pos h1] at hv
      obtain ⟨y, hy, ry, cy⟩ := C115_expr4 σ ρ h a ha r hv
      exact ⟨y, by rw [Ex4.run, hx, res_bind_ok, if_pos (hb1.2 h1), hy], ry, fun k => cy k.1⟩
    · rw [if_neg h1] at hv
      obtain ⟨y, hy, ry, cy⟩ := C115_expr4 σ ρ h b hb r hv
      exact ⟨y, by rw [Ex4.run, hx, res_bind_ok, if_neg (fun q => h1 (hb1.1 q)), hy], ry, fun k => cy k.2⟩

/-- every state of the objects with canonical planes agrees with exactly the reference
state of its bits -/
theorem Agree4.of_clean (σ : Objs4) (h : ∀ n i, (σ n i).Clean) : Agree4 σ fun n i => (σ n i).at :=
  fun n i => ⟨(h n i).1, (h n i).2, fun _ _ => rfl⟩

/-- every reference state is held by some objects -/
theorem Agree4.exists (ρ : Vals4) : ∃ σ, Agree4 σ ρ := by
  refine ⟨fun n i => (Lg.exists_clean n false (ρ n i)).choose, fun n i => ?_⟩
  have := (Lg.exists_clean n false (ρ n i)).choose_spec
  exact ⟨this.1.1, this.1.2, this.2⟩

/-! ### statements -/

/-- `ρ` with variable `i` of width `n` replaced -/
def Vals4.put (ρ : Vals4) (n i : Nat) (v : R4) : Vals4 := fun m j =>
  if m = n ∧ j = i then v else ρ m j

namespace St4

/-- **Reference semantics of statements** on 4-state bits; `none` when the fuel is used
up, `some none` when an expression is undefined. The positions of a part-select past the end of
the assigned value get 0. A condition holds when it is 1; x and z count as false. -/
def den : Nat → St4 → Vals4 → Option (Option Vals4)
  | 0, _, _ => none
  | _ + 1, .skip, ρ => some (some ρ)
  | _ + 1, .assign n i e, ρ => some ((e.den ρ).map fun v => ρ.put n i v)
  | _ + 1, .setBit n i p c, ρ => some ((c.den ρ).map fun v =>
      ρ.put n i fun j => if j = p then v 0 else ρ n i j)
  | _ + 1, .part n i (m := m) hi lo e, ρ => some ((e.den ρ).map fun v =>
      ρ.put n i fun j => if min hi lo ≤ j ∧ j ≤ max hi lo then
        (if j - min hi lo < m then v (j - min hi lo) else .b0) else ρ n i j)
  | f + 1, .seq a b, ρ =>
      match den f a ρ with
      | none => none
      | some none => some none
      | some (some ρ') => den f b ρ'
  | f + 1, .ite c a b, ρ =>
      match c.den ρ with
      | none => some none
      | some v => if v 0 = .b1 then den f a ρ else den f b ρ
  | f + 1, .loop c a, ρ =>
      match c.den ρ with
      | none => some none
      | some v =>
        if v 0 = .b1 then
          match den f a ρ with
          | none => none
          | some none => some none
          | some (some ρ') => den f (.loop c a) ρ'
        else some (some ρ)

/-- Well-formed programs: every expression is well-formed, assigned expressions are
canonical, indices are in range, a value assigned to a part has at most 64 bits (the
x and z bits of a wider one from position 64 on can be lost, C55). -/
def Ok : St4 → Prop
  | .skip => True
  | .assign _ _ e => e.Ok ∧ e.Canon
  | .setBit n _ p c => n ≤ 2 ^ 31 ∧ p < n ∧ c.Ok
  | .part n _ (m := m) hi lo e => n ≤ 2 ^ 31 ∧ hi < n ∧ lo < n ∧ e.Ok ∧ m ≤ 64
  | .seq a b => Ok a ∧ Ok b
  | .ite c a b => c.Ok ∧ Ok a ∧ Ok b
  | .loop c a => c.Ok ∧ Ok a

end St4

theorem Agree4.put {σ : Objs4} {ρ : Vals4} (h : Agree4 σ ρ) (n i : Nat) {x : Lg n false} {v : R4}
    (hc : x.value.Clean) (e : Rep4 x v) : Agree4 (σ.put n i x) (ρ.put n i v) := by
  intro m j
  by_cases hm : m = n
  · subst hm
    by_cases hj : j = i
    · subst hj
      simp only [Objs4.put, Vals4.put, dif_pos, if_true, and_self]
      exact ⟨hc, e⟩
    · simp only [Objs4.put, Vals4.put, dif_pos, if_neg hj, hj, and_false, if_false]
      exact h m j
  · simp only [Objs4.put, Vals4.put, dif_neg hm, hm, false_and, if_false]
    exact h m j

/-- **C117.** A well-formed 4-state program, run for any number of steps from
canonical objects: whenever its reference execution ends with nothing undefined, the
library execution ends without a fault and every variable is canonical and holds the
reference bits, x and z included. -/
theorem C117_program4 : (fuel : Nat) → (p : St4) → (σ : Objs4) → (ρ ρ' : Vals4) → Agree4 σ ρ → p.Ok →
    p.den fuel ρ = some (some ρ') → ∃ σ', p.run fuel σ = some (.ok σ') ∧ Agree4 σ' ρ'
  | 0, _, _, _, _, _, _, hd => by simp [St4.den] at hd
  | _ + 1, .skip, σ, ρ, ρ', h, _, hd => by
    simp only [St4.den, Option.some.injEq] at hd
    exact ⟨σ, rfl, hd ▸ h⟩
  | _ + 1, .assign n i e, σ, ρ, ρ', h, ho, hd => by
    simp only [St4.den, Option.some.injEq, Option.map_eq_some_iff] at hd
    obtain ⟨v, hv, rfl⟩ := hd
    obtain ⟨x, hx, ex, cx⟩ := C115_expr4 σ ρ h e ho.1 v hv
    exact ⟨σ.put n i x, by rw [St4.run, hx]; rfl, h.put n i (cx ho.2) ex⟩
  | _ + 1, .setBit n i p c, σ, ρ, ρ', h, ho, hd => by
    simp only [St4.den, Option.some.injEq, Option.map_eq_some_iff] at hd
    obtain ⟨v, hv, rfl⟩ := hd
    obtain ⟨hN, hp, hc⟩ := ho
    obtain ⟨x, hx, ex, -⟩ := C115_expr4 σ ρ h c hc v hv
    have hn : 0 < n := by omega
    obtain ⟨y, hy, h1, h2⟩ := Lg.setL_phys (Rng.down n) (σ n i) p p
      (by rw [Bits.physIdx_down hn p, Rng.lo_down hn]; omega) hp (by omega) x
    have hcl := h n i
    refine ⟨σ.put n i y, by rw [St4.run, hx, res_bind_ok, hy]; rfl, h.put n i ?_ ⟨?_, ?_⟩⟩
    · refine (Bits.clean_unsigned_iff _).2 fun j hj => ?_
      rw [h1, if_neg (by omega)]; exact (Bits.clean_unsigned_iff _).1 hcl.1 j hj
    · refine (Bits.clean_unsigned_iff _).2 fun j hj => ?_
      rw [h2, if_neg (by omega)]; exact (Bits.clean_unsigned_iff _).1 hcl.2.1 j hj
    · intro j hj
      have e0 := ex.2 0 (by decide)
      rw [Lg.at_lt _ (by decide)] at e0
      have ej := hcl.2.2 j hj
      rw [Lg.at_lt _ hj] at ej
      rw [Lg.at_lt _ hj, h1, h2]
      beta_reduce
      by_cases e : j = p
      · rw [if_pos e, if_pos e, if_pos e, Lg.hold1_eq, Lg.hold1_eq, e0]
      · rw [if_neg e, if_neg e, if_neg e, ej]
  | _ + 1, .part n i (m := m) hi lo e, σ, ρ, ρ', h, ho, hd => by
    simp only [St4.den, Option.some.injEq, Option.map_eq_some_iff] at hd
    obtain ⟨v, hv, rfl⟩ := hd
    obtain ⟨hN, hhi, hlo, he, hm⟩ := ho
    obtain ⟨x, hx, ex, -⟩ := C115_expr4 σ ρ h e he v hv
    have hw := Ex4.Ok.width he
    obtain ⟨y, hy, ey, cy⟩ := C55_update_partial (by omega) hw.1 hN hw.2 (σ n i) x hi lo hhi hlo
      (fun k _ h1 h2 => by omega)
    have hcl := h n i
    have hcy := cy rfl ⟨hcl.1, hcl.2.1⟩
    refine ⟨σ.put n i y, by rw [St4.run, hx, res_bind_ok, C56_update_rt, hy]; rfl,
      h.put n i hcy.1 ⟨hcy.2, fun j hj => ?_⟩⟩
    rw [ey j hj]
    beta_reduce
    split_ifs with c1 c2
    · exact ex.2 _ c2
    · rfl
    · exact hcl.2.2 j hj
  | f + 1, .seq a b, σ, ρ, ρ', h, ho, hd => by
    simp only [St4.den] at hd
    match hr : St4.den f a ρ with
    | none => rw [hr] at hd; simp at hd
    | some none => rw [hr] at hd; simp at hd
    | some (some ρ1) =>
      rw [hr] at hd
      obtain ⟨σ1, h1, a1⟩ := C117_program4 f a σ ρ ρ1 h ho.1 hr
      obtain ⟨σ2, h2, a2⟩ := C117_program4 f b σ1 ρ1 ρ' a1 ho.2 hd
      exact ⟨σ2, by rw [St4.run, h1]; exact h2, a2⟩
  | f + 1, .ite c a b, σ, ρ, ρ', h, ho, hd => by
    simp only [St4.den] at hd
    match hr : c.den ρ with
    | none => rw [hr] at hd; simp at hd
    | some v =>
      rw [hr] at hd
      obtain ⟨x, hx, ex, -⟩ := C115_expr4 σ ρ h c ho.1 v hr
      have hb : x.toBool = true ↔ v 0 = .b1 := ex.toBool
      by_cases h1 : v 0 = .b1
      · simp only [if_pos h1] at hd
        obtain ⟨σ2, h2, a2⟩ := C117_program4 f a σ ρ ρ' h ho.2.1 hd
        exact ⟨σ2, by rw [St4.run, hx]; simp only [hb.2 h1, if_true]; exact h2, a2⟩
      · simp only [if_neg h1] at hd
        obtain ⟨σ2, h2, a2⟩ := C117_program4 f b σ ρ ρ' h ho.2.2 hd
        exact ⟨σ2, by rw [St4.run, hx]; simp only [if_neg (fun q => h1 (hb.1 q))]; exact h2, a2⟩
  | f + 1, .loop c a, σ, ρ, ρ', h, ho, hd => by
    simp only [St4.den] at hd
    match hr : c.den ρ with
    | none => rw [hr] at hd; simp at hd
    | some v =>
      rw [hr] at hd
      obtain ⟨x, hx, ex, -⟩ := C115_expr4 σ ρ h c ho.1 v hr
      have hb : x.toBool = true ↔ v 0 = .b1 := ex.toBool
      by_cases h1 : v 0 = .b1
      · simp only [if_pos h1] at hd
        match hr1 : St4.den f a ρ with
        | none => rw [hr1] at hd; simp at hd
        | some none => rw [hr1] at hd; simp at hd
        | some (some ρ1) =>
          rw [hr1] at hd
          obtain ⟨σ1, e1, a1⟩ := C117_program4 f a σ ρ ρ1 h ho.2 hr1
          obtain ⟨σ2, h2, a2⟩ := C117_program4 f (.loop c a) σ1 ρ1 ρ' a1 ho hd
          exact ⟨σ2, by rw [St4.run, hx]; simp only [hb.2 h1, if_true, e1]; exact h2, a2⟩
      · simp only [if_neg h1, Option.some.injEq] at hd
        exact ⟨σ, by rw [St4.run, hx]; simp only [if_neg (fun q => h1 (hb.1 q))], hd ▸ h⟩

/-! ### a client: bit reversal -/

/-- the first `k` steps of `for (j = 0; j < n; j++) b.update(n-1-j, n-1-j, a.slice<j, j>());`
(unrolled, as the bounds of `slice` are template arguments) -/
def revProgram (n : Nat) : Nat → St4
  | 0 => .skip
  | k + 1 => .seq (revProgram n k) (.part n 1 (n - 1 - k) (n - 1 - k) (.slice k k (.var n 0)))

theorem revProgram_ok (h0 : 0 < n) (hN : n ≤ 2 ^ 31) : ∀ k, k ≤ n → (revProgram n k).Ok
  | 0, _ => trivial
  | k + 1, h => by
    refine ⟨revProgram_ok h0 hN k (by omega), hN, by omega, by omega, ⟨⟨h0, hN⟩, by omega, by omega, by simp⟩, by simp⟩

theorem revProgram_den (ρ : Vals4) : ∀ k, k ≤ n → ∃ ρ', (revProgram n k).den (k + 1) ρ = some (some ρ') ∧
    ρ' n 0 = ρ n 0 ∧ ∀ j, j < n → n - k ≤ j → ρ' n 1 j = ρ n 0 (n - 1 - j)
  | 0, _ => ⟨ρ, rfl, rfl, fun j h1 h2 => by omega⟩
  | k + 1, h => by
    obtain ⟨ρ1, hd, e0, e1⟩ := revProgram_den ρ k (by omega)
    refine ⟨ρ1.put n 1 fun j => if min (n - 1 - k) (n - 1 - k) ≤ j ∧ j ≤ max (n - 1 - k) (n - 1 - k) then
        (if j - min (n - 1 - k) (n - 1 - k) < max k k - min k k + 1 then
          ρ1 n 0 (min k k + (j - min (n - 1 - k) (n - 1 - k))) else .b0) else ρ1 n 1 j, ?_, ?_, ?_⟩
    · rw [revProgram, St4.den, hd]
      simp only [St4.den, Ex4.den, Option.map_some]
    · simp [Vals4.put, e0]
    · intro j hj hk
      simp only [Vals4.put, and_self, if_true, Nat.max_self, Nat.min_self]
      split_ifs with c1 c2
      · rw [e0]; congr 1; omega
      · omega
      · exact e1 j hj (by omega)

/-- **C117 used:** the client's bit reversal, at every width, on every canonical
4-state object: bit `j` of the result is bit `n-1-j` of the operand, x and z
included. -/
theorem C117_reverse (h0 : 0 < n) (hN : n ≤ 2 ^ 31) (σ : Objs4) (hc : ∀ n i, (σ n i).Clean) :
    ∃ σ', (revProgram n n).run (n + 1) σ = some (.ok σ') ∧
      ∀ j, j < n → (σ' n 1).at j = (σ n 0).at (n - 1 - j) := by
  obtain ⟨ρ', hd, -, e⟩ := revProgram_den (n := n) (fun m j => (σ m j).at) n (le_refl _)
  obtain ⟨σ', hr, ha⟩ := C117_program4 (n + 1) (revProgram n n) σ _ ρ' (Agree4.of_clean σ hc)
    (revProgram_ok h0 hN n (le_refl _)) hd
  exact ⟨σ', hr, fun j hj => by rw [(ha n 1).2.2 j hj, e j hj (by omega)]⟩

/-- the objects of the examples: variable 0 of width 6 is `01xz10`, everything else 0 -/
def objs6 : Objs4 := fun n i => if h : n = 6 then h ▸ (if i = 0 then
    ⟨.nat (by decide) 0b010110#8, .nat (by decide) 0b001100#8⟩ else ⟨Bits.zero, Bits.zero⟩) else ⟨Bits.zero, Bits.zero⟩

-- reversing 01xz10
example : ((revProgram 6 6).run 7 objs6).map (fun r => r.map fun σ => (List.range 6).map (σ 6 1).at) =
    some (.ok [.b0, .b1, .x, .z, .b1, .b0]) := by decide +kernel
example : (List.range 6).map (objs6 6 0).at = [.b0, .b1, .z, .x, .b1, .b0] := by decide +kernel

/-- `(a === a) ? ~a : a + a`, nested operators over an operand with x and z -/
def exprDemo : Ex4 6 := .cond (.same (.var 6 0) (.var 6 0)) (.not (.var 6 0)) (.add (.var 6 0) (.var 6 0))
example : exprDemo.Ok := by simp [exprDemo, Ex4.Ok, Ex4.Canon]
example : (exprDemo.run objs6).map (fun x => (List.range 6).map x.at) =
    .ok [.b1, .b0, .x, .x, .b0, .b1] := by decide +kernel
-- `a + a` alone is all x
example : ((Ex4.add (.var 6 0) (.var 6 0)).run objs6).map (fun x => (List.range 6).map x.at) =
    .ok [.x, .x, .x, .x, .x, .x] := by decide +kernel

end Verif
