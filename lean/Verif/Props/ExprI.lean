import Verif.Model.ExprI
import Verif.Props.Expr
import Verif.Props.ArithExact
import Verif.Props.ShiftExact
import Verif.Props.Compare
import Verif.Props.Convert
import Verif.Props.Assign
import Verif.Props.RefuteAll

/-!
# Client programs over the integer types (C125, C126)

Unlike C114 to C117 the theorems of this file are exact: the library evaluation faults
if and only if the reference value is undefined.
-/

namespace Verif

variable {n m : Nat} {s t : Bool}

/-- reference values of the variables -/
abbrev ValsI := (n : Nat) → Bool → Nat → BitVec n

/-! ## Reference operators

The SystemVerilog value, or `none` where C++ leaves the operation undefined: signed
overflow of `int` and `longint`, 16-bit unsigned products from `2^31` up (multiplied as
`int`), division by zero, the most negative number divided by -1, shift amounts outside
the machine's range. -/
namespace RefI

/-- the number is representable in `n` signed bits, or `n` is promoted to a larger type -/
def fits (n : Nat) (v : Int) : Prop := n < 32 ∨ (-2 ^ (n - 1) ≤ v ∧ v < 2 ^ (n - 1))

instance (n : Nat) (v : Int) : Decidable (fits n v) := by unfold fits; infer_instance

def add (s t : Bool) (x y : BitVec n) : Option (BitVec n) :=
  if (s && t) = true ∧ ¬ fits n (x.toInt + y.toInt) then none else some (x + y)
def sub (s t : Bool) (x y : BitVec n) : Option (BitVec n) :=
  if (s && t) = true ∧ ¬ fits n (x.toInt - y.toInt) then none else some (x - y)
def mul (s t : Bool) (x y : BitVec n) : Option (BitVec n) :=
  if (s && t) = true ∧ ¬ fits n (x.toInt * y.toInt) then none
  else if (s || t) = false ∧ n = 16 ∧ 2 ^ 31 ≤ x.toNat * y.toNat then none
  else some (x * y)
def neg (s : Bool) (x : BitVec n) : Option (BitVec n) :=
  if s = true ∧ ¬ fits n (-x.toInt) then none else some (-x)
def div (s : Bool) (x y : BitVec n) : Option (BitVec n) :=
  if y = 0 then none
  else if s then (if fits n (x.toInt.tdiv y.toInt) then some (x.sdiv y) else none)
  else some (x / y)
def mod (s : Bool) (x y : BitVec n) : Option (BitVec n) :=
  if y = 0 then none
  else if s then (if fits n (x.toInt.tdiv y.toInt) then some (x.srem y) else none)
  else some (x % y)
def shr (x : BitVec n) (k : Int) : Option (BitVec n) :=
  if 0 ≤ k ∧ k < n then some (x >>> k.toNat) else none
def shl (x : BitVec n) (k : Int) : Option (BitVec n) :=
  if 0 ≤ k ∧ k < max 32 n then some (x <<< k.toNat) else none
def ashr (s : Bool) (x : BitVec n) (k : Int) : Option (BitVec n) :=
  if 0 ≤ k ∧ k < max 32 n then some (if s then x.sshiftRight k.toNat else x >>> k.toNat) else none

end RefI

namespace ExI

/-- **Reference semantics**, on bit vectors. -/
def den (ρ : ValsI) : {n : Nat} → {s : Bool} → ExI n s → Option (BitVec n)
  | _, _, .var n s i => some (ρ n s i)
  | n, _, .lit _ _ k => some (BitVec.ofInt n k)
  | _, _, .not a => (den ρ a).map (~~~ ·)
  | _, _, .and a b => (den ρ a).bind fun x => (den ρ b).map fun y => x &&& y
  | _, _, .or a b => (den ρ a).bind fun x => (den ρ b).map fun y => x ||| y
  | _, _, .xor a b => (den ρ a).bind fun x => (den ρ b).map fun y => x ^^^ y
  | _, s, .neg a => (den ρ a).bind fun x => RefI.neg s x
  | _, _, .add (s := s) (t := t) a b => (den ρ a).bind fun x => (den ρ b).bind fun y => RefI.add s t x y
  | _, _, .sub (s := s) (t := t) a b => (den ρ a).bind fun x => (den ρ b).bind fun y => RefI.sub s t x y
  | _, _, .mul (s := s) (t := t) a b => (den ρ a).bind fun x => (den ρ b).bind fun y => RefI.mul s t x y
  | _, _, .div (s := s) (t := t) a b => (den ρ a).bind fun x => (den ρ b).bind fun y => RefI.div (s && t) x y
  | _, _, .mod (s := s) (t := t) a b => (den ρ a).bind fun x => (den ρ b).bind fun y => RefI.mod (s && t) x y
  | _, _, .shr (t := t) a k => (den ρ a).bind fun x => (den ρ k).bind fun y => RefI.shr x (numOf t y)
  | _, _, .shl (t := t) a k => (den ρ a).bind fun x => (den ρ k).bind fun y => RefI.shl x (numOf t y)
  | _, _, .ashr (s := s) (t := t) a k => (den ρ a).bind fun x => (den ρ k).bind fun y =>
      RefI.ashr s x (numOf t y)
  | _, s, .ext m a => (den ρ a).map fun x => BitVec.ofInt m (numOf s x)
  | _, _, .cast _ a => den ρ a
  | _, _, .eq a b => (den ρ a).bind fun x => (den ρ b).map fun y => BitVec.ofBool (decide (x = y))
  | _, _, .lt (s := s) (t := t) a b => (den ρ a).bind fun x => (den ρ b).map fun y =>
      BitVec.ofBool (decide (numOf (s && t) x < numOf (s && t) y))
  | _, _, .le (s := s) (t := t) a b => (den ρ a).bind fun x => (den ρ b).map fun y =>
      BitVec.ofBool (decide (numOf (s && t) x ≤ numOf (s && t) y))
  | _, _, .cond c a b => (den ρ c).bind fun x => if x = 1 then den ρ a else den ρ b

/-- the widths of the integer types -/
def W (n : Nat) : Prop := n = 8 ∨ n = 16 ∨ n = 32 ∨ n = 64

instance (n : Nat) : Decidable (W n) := by unfold W; infer_instance

/-- **Well-formed expressions**: arithmetic and shifts are on the integer types, one bit
values are unsigned and come from comparisons; `/ %` are between operands of the same
signedness or of 32 or 64 bits, `< <=` between operands of the same signedness or of 64 bits (at
the other widths the code is wrong, C123); the type of a shift amount is not wider than that of the
shifted value (C25). -/
def Ok : {n : Nat} → {s : Bool} → ExI n s → Prop
  | n, s, .var _ _ _ => W n ∨ n = 1 ∧ s = false
  | n, _, .lit _ _ _ => W n
  | _, _, .not a => Ok a
  | _, _, .and a b | _, _, .or a b | _, _, .xor a b => Ok a ∧ Ok b
  | n, _, .neg a => Ok a ∧ W n
  | n, _, .add a b | n, _, .sub a b | n, _, .mul a b => Ok a ∧ Ok b ∧ W n
  | n, _, .div (s := s) (t := t) a b | n, _, .mod (s := s) (t := t) a b => Ok a ∧ Ok b ∧ W n ∧ (s = t ∨ n = 32 ∨ n = 64)
  | n, _, .shr (m := m) a k | n, _, .shl (m := m) a k | n, _, .ashr (m := m) a k => Ok a ∧ Ok k ∧ W n ∧ m ≤ n
  | _, _, .ext (n := n) m a => Ok a ∧ W m ∧ n ≤ m
  | n, _, .cast _ a => Ok a ∧ W n
  | _, _, .eq a b => Ok a ∧ Ok b
  | _, _, .lt (n := n) (m := m) (s := s) (t := t) a b | _, _, .le (n := n) (m := m) (s := s) (t := t) a b =>
      Ok a ∧ Ok b ∧ (s = t ∨ n = 64 ∧ m = 64)
  | _, _, .cond c a b => Ok c ∧ Ok a ∧ Ok b

theorem Ok.width : {n : Nat} → {s : Bool} → {e : ExI n s} → e.Ok → W n ∨ n = 1
  | _, _, .var _ _ _, h => h.imp id And.left
  | _, _, .lit _ _ _, h => Or.inl h
  | _, _, .not a, h => Ok.width (e := a) h
  | _, _, .and a _, h | _, _, .or a _, h | _, _, .xor a _, h | _, _, .neg a, h | _, _, .add a _, h
  | _, _, .sub a _, h | _, _, .mul a _, h | _, _, .div a _, h | _, _, .mod a _, h | _, _, .shr a _, h
  | _, _, .shl a _, h | _, _, .ashr a _, h | _, _, .cast _ a, h => Ok.width (e := a) h.1
  | _, _, .ext _ _, h => Or.inl h.2.1
  | _, _, .eq _ _, _ | _, _, .lt _ _, _ | _, _, .le _ _, _ => Or.inr rfl
  | _, _, .cond _ a _, h => Ok.width (e := a) h.2.1

end ExI

/-- the outcome of the library is the reference value, or a fault if that is undefined -/
def Sem (r : Res (Bits n s)) (o : Option (BitVec n)) : Prop :=
  match o with
  | some v => ∃ x, r = .ok x ∧ x.bv = v
  | none => ∃ f, r = .error f

namespace Sem

theorem bind {k : Nat} {u : Bool} {r : Res (Bits n s)} {o : Option (BitVec n)} (h : Sem r o)
    {f : Bits n s → Res (Bits k u)} {g : BitVec n → Option (BitVec k)} (hf : ∀ x, Sem (f x) (g x.bv)) :
    Sem (r.bind f) (o.bind g) := by
  cases o with
  | none => obtain ⟨e, rfl⟩ := h; exact ⟨e, rfl⟩
  | some v => obtain ⟨x, rfl, rfl⟩ := h; exact hf x

theorem map {k : Nat} {u : Bool} {r : Res (Bits n s)} {o : Option (BitVec n)} (h : Sem r o)
    {f : Bits n s → Bits k u} {g : BitVec n → BitVec k} (hf : ∀ x, (f x).bv = g x.bv) :
    Sem (r.map f) (o.map g) := by
  cases o with
  | none => obtain ⟨e, rfl⟩ := h; exact ⟨e, rfl⟩
  | some v => obtain ⟨x, rfl, rfl⟩ := h; exact ⟨_, rfl, hf x⟩

theorem bindMap {k : Nat} {u : Bool} {r : Res (Bits n s)} {o : Option (BitVec n)} (h : Sem r o)
    {f : Bits n s → Res (Bits k u)} {g : BitVec n → BitVec k} (hf : ∀ x, ∃ y, f x = .ok y ∧ y.bv = g x.bv) :
    Sem (r.bind f) (o.map g) := by
  cases o with
  | none => obtain ⟨e, rfl⟩ := h; exact ⟨e, rfl⟩
  | some v => obtain ⟨x, rfl, rfl⟩ := h; exact hf x

end Sem

theorem ExI.W.pos (h : ExI.W n) : 1 < n ∧ n ≤ 64 := by rcases h with rfl | rfl | rfl | rfl <;> omega

theorem ExI.W.clean (h : ExI.W n ∨ n = 1) (x : Bits n s) : x.Clean := by
  refine (C16_full_widths (by rcases h with (rfl | rfl | rfl | rfl) | rfl <;> omega) (Or.inl ?_) x x).1
  rw [Full]; rcases h with (h | h | h | h) | h <;> simp [h]

theorem ExI.W.num (h : ExI.W n) (b : BitVec n) : numOf true b = b.toInt := by
  have := h.pos
  rw [numOf, if_pos (by simp; omega)]

theorem numOf_false (b : BitVec n) : numOf false b = b.toNat := by simp [numOf]

theorem Bits.div_zero_signed (h : n ≤ 64) (h1 : 1 < n) (x y : Bits n true) (hy : y.Clean) (hy0 : y.bv = 0) :
    x.div y = .error .divZero ∧ x.mod y = .error .divZero := by
  have e : y.nv.v = 0 := by
    obtain ⟨e, -, -⟩ := Bits.clean_signed_bounds h h1 hy
    rw [e, hy0]; simp
  have c : ∀ T : CTy, T.conv y.nv.v = 0 := by
    intro T; rw [e]; cases T with
    | bool => rfl
    | int w sg => cases sg <;> simp [CTy.conv]
  constructor
  · rw [Bits.div, dif_pos h]; simp only [TV.div, c, if_true]; rfl
  · rw [Bits.mod, dif_pos h]; simp only [TV.mod, c, if_true]; rfl

theorem Bits.div_zero_any (h : n ≤ 64) (x : Bits n s) (y : Bits n t) (hy : y.Clean) (hy0 : y.bv = 0) :
    x.div y = .error .divZero ∧ x.mod y = .error .divZero := by
  have e : y.nv.v = 0 := by
    rw [(Bits.clean_native h y).1 hy, hy0, numOf]; split_ifs <;> simp
  have c : ∀ T : CTy, T.conv y.nv.v = 0 := by
    intro T; rw [e]; cases T with
    | bool => rfl
    | int w sg => cases sg <;> simp [CTy.conv]
  constructor
  · rw [Bits.div, dif_pos h]; simp only [TV.div, c, if_true]; rfl
  · rw [Bits.mod, dif_pos h]; simp only [TV.mod, c, if_true]; rfl

/-- a quotient is representable unless it is the most negative number divided by -1 -/
theorem Bits.tdiv_bounds (hn : 0 < n) (x y : BitVec n) (hm : ¬ (x.toInt = -2 ^ (n - 1) ∧ y.toInt = -1)) :
    -2 ^ (n - 1) ≤ x.toInt.tdiv y.toInt ∧ x.toInt.tdiv y.toInt < 2 ^ (n - 1) := by
  have b0 := BitVec.le_toInt x
  have b1 := BitVec.toInt_lt (x := x)
  have hab := Int.natAbs_tdiv x.toInt y.toInt
  have hle : (x.toInt.tdiv y.toInt).natAbs ≤ x.toInt.natAbs := by
    rw [hab]; exact Nat.div_le_self _ _
  refine ⟨by omega, ?_⟩
  by_contra hc
  have hx : x.toInt = -2 ^ (n - 1) := by omega
  refine hm ⟨hx, ?_⟩
  have hq : x.toInt.tdiv y.toInt = 2 ^ (n - 1) := by omega
  have hp : (0 : Int) < 2 ^ (n - 1) := by positivity
  have h1 : x.toInt.natAbs / y.toInt.natAbs = x.toInt.natAbs := by
    have : (x.toInt.tdiv y.toInt).natAbs = x.toInt.natAbs / y.toInt.natAbs := hab
    rw [← this, hq, hx]; omega
  have hx0 : 0 < x.toInt.natAbs := by omega
  have hy1 : y.toInt.natAbs = 1 := by
    rcases Nat.lt_trichotomy y.toInt.natAbs 1 with h | h | h
    · have : y.toInt.natAbs = 0 := by omega
      rw [this, Nat.div_zero] at h1
      omega
    · exact h
    · have := Nat.div_lt_self hx0 h
      omega
  rcases Int.natAbs_eq y.toInt with h | h
  · rw [hy1] at h
    rw [h] at hq
    simp at hq
    omega
  · rw [hy1] at h; exact h

section ops
open ExI

variable (h : W n)
include h

theorem RefI.fits_iff (v : Int) : RefI.fits n v ↔ (16 < n → -2 ^ (n - 1) ≤ v ∧ v < 2 ^ (n - 1)) := by
  rw [RefI.fits]; rcases h with rfl | rfl | rfl | rfl <;> omega

theorem W.limit : (if n ≤ 32 then 31 else 63) = n - 1 ∨ n ≤ 16 := by
  rcases h with rfl | rfl | rfl | rfl <;> simp

theorem sem_add (x : Bits n s) (y : Bits n t) : Sem (x.add y) (RefI.add s t x.bv y.bv) := by
  have cx := W.clean (Or.inl h) x
  have cy := W.clean (Or.inl h) y
  rw [RefI.add]
  split_ifs with hc
  · obtain ⟨hst, hf⟩ := hc
    rw [Bool.and_eq_true] at hst
    obtain ⟨rfl, rfl⟩ := hst
    rw [RefI.fits] at hf
    exact ⟨_, C28_signed_overflow (by rcases h with rfl | rfl | rfl | rfl <;> omega) x y cx cy (by omega)⟩
  · refine C28_add_partial h.pos.1 x y fun hs ht h16 _ => ⟨cx, cy, fun _ => ?_⟩
    by_contra hn
    refine hc ⟨by rw [hs, ht]; rfl, fun hf => hn ((RefI.fits_iff h _).1 hf h16)⟩

theorem sem_sub (x : Bits n s) (y : Bits n t) : Sem (x.sub y) (RefI.sub s t x.bv y.bv) := by
  have cx := W.clean (Or.inl h) x
  have cy := W.clean (Or.inl h) y
  rw [RefI.sub]
  split_ifs with hc
  · obtain ⟨hst, hf⟩ := hc
    rw [Bool.and_eq_true] at hst
    obtain ⟨rfl, rfl⟩ := hst
    rw [RefI.fits] at hf
    exact ⟨_, C29_signed_overflow (by rcases h with rfl | rfl | rfl | rfl <;> omega) x y cx cy (by omega)⟩
  · refine C29_sub_partial (by have := h.pos; omega) x y fun hs ht h16 _ => ⟨cx, cy, fun _ => ?_⟩
    by_contra hn
    refine hc ⟨by rw [hs, ht]; rfl, fun hf => hn ((RefI.fits_iff h _).1 hf h16)⟩

theorem sem_mul (x : Bits n s) (y : Bits n t) : Sem (x.mul y) (RefI.mul s t x.bv y.bv) := by
  have cx := W.clean (Or.inl h) x
  have cy := W.clean (Or.inl h) y
  have hp := h.pos
  rw [RefI.mul]
  split_ifs with hc hu
  · obtain ⟨hst, hf⟩ := hc
    rw [Bool.and_eq_true] at hst
    obtain ⟨rfl, rfl⟩ := hst
    have h32 : 32 ≤ n := by rw [RefI.fits] at hf; omega
    have hl : (if n ≤ 32 then 31 else 63) = n - 1 := by
      rcases W.limit h with e | e
      · exact e
      · omega
    rw [RefI.fits] at hf
    refine ⟨_, C30_signed_overflow (by omega) hp.2 x y cx cy ?_⟩
    rw [hl]; omega
  · obtain ⟨hst, rfl, hf⟩ := hu
    rw [Bool.or_eq_false_iff] at hst
    obtain ⟨rfl, rfl⟩ := hst
    exact ⟨_, C30_u16_overflow (by omega) (by omega) x y cx cy hf⟩
  · refine C30_mul_partial (by omega) x y (fun hs ht h8 h16 => ⟨cx, cy, ?_⟩) (fun hs ht h16 _ => ⟨cx, cy, ?_⟩)
      (fun h64 => by omega)
    · by_contra hn
      exact hu ⟨by rw [hs, ht]; rfl, by rcases h with rfl | rfl | rfl | rfl <;> omega, by omega⟩
    · have hl : (if n ≤ 32 then 31 else 63) = n - 1 := by
        rcases W.limit h with e | e
        · exact e
        · omega
      rw [hl]
      by_contra hn
      exact hc ⟨by rw [hs, ht]; rfl, fun hf => hn ((RefI.fits_iff h _).1 hf h16)⟩

theorem sem_neg (x : Bits n s) (h64 : n ≤ 64) : Sem (x.neg h64) (RefI.neg s x.bv) := by
  have cx := W.clean (Or.inl h) x
  have hp := h.pos
  have b0 := BitVec.le_toInt x.bv
  have b1 := BitVec.toInt_lt (x := x.bv)
  rw [RefI.neg]
  split_ifs with hc
  · obtain ⟨rfl, hf⟩ := hc
    rw [RefI.fits] at hf
    refine ⟨_, C35_min_overflow h64 (by rcases h with rfl | rfl | rfl | rfl <;> omega) x cx (by omega)⟩
  · refine (C35_neg_partial (by omega) x (fun _ _ _ => cx) ?_).1 h64
    rintro ⟨hs, hn, hm⟩
    refine hc ⟨hs, ?_⟩
    rw [RefI.fits, hm]
    omega

theorem sem_div_mod (x y : Bits n s) :
    Sem (x.div y) (RefI.div s x.bv y.bv) ∧ Sem (x.mod y) (RefI.mod s x.bv y.bv) := by
  have cx := W.clean (Or.inl h) x
  have cy := W.clean (Or.inl h) y
  have hp := h.pos
  rw [RefI.div, RefI.mod]
  by_cases h0 : y.bv = 0
  · rw [if_pos h0, if_pos h0]
    cases s with
    | false =>
      obtain ⟨h1, h2⟩ := C32_div_zero_native hp.2 x y cy h0
      exact ⟨⟨_, h1⟩, ⟨_, h2⟩⟩
    | true =>
      obtain ⟨h1, h2⟩ := Bits.div_zero_signed hp.2 hp.1 x y cy h0
      exact ⟨⟨_, h1⟩, ⟨_, h2⟩⟩
  rw [if_neg h0, if_neg h0]
  cases s with
  | false =>
    obtain ⟨⟨q, hq, -, eq⟩, ⟨r, hr, -, er⟩⟩ := Bits.div_native hp.2 (by omega) cx cy h0
    refine ⟨⟨q, hq, ?_⟩, ⟨r, hr, ?_⟩⟩
    · apply BitVec.eq_of_toNat_eq; rw [eq, BitVec.toNat_udiv]
    · apply BitVec.eq_of_toNat_eq; rw [er, BitVec.toNat_umod]
  | true =>
    have b0 := BitVec.le_toInt x.bv
    have b1 := BitVec.toInt_lt (x := x.bv)
    by_cases hm : x.bv.toInt = -2 ^ (n - 1) ∧ y.bv.toInt = -1 ∧ (n = 32 ∨ n = 64)
    · obtain ⟨h1, h2⟩ := C34_min_overflow hm.2.2 x y cx cy hm.1 hm.2.1
      have hf : ¬ RefI.fits n (x.bv.toInt.tdiv y.bv.toInt) := by
        rw [RefI.fits, hm.1, hm.2.1, Int.tdiv_neg, Int.tdiv_one]
        omega
      simp only [if_true, if_neg hf]
      exact ⟨⟨_, h1⟩, ⟨_, h2⟩⟩
    · obtain ⟨⟨q, hq, eq, -⟩, ⟨r, hr, er⟩⟩ := C34_div_partial hp.2 hp.1 x y cx cy h0 hm
      have hf : RefI.fits n (x.bv.toInt.tdiv y.bv.toInt) := by
        rw [RefI.fits_iff h]
        intro h16
        exact Bits.tdiv_bounds (by omega) x.bv y.bv fun ⟨e1, e2⟩ =>
          hm ⟨e1, e2, by rcases h with rfl | rfl | rfl | rfl <;> omega⟩
      simp only [if_true, if_pos hf]
      refine ⟨⟨q, hq, ?_⟩, ⟨r, hr, ?_⟩⟩
      · rw [eq]
        apply BitVec.eq_of_toInt_eq
        rw [BitVec.toInt_ofInt, BitVec.toInt_sdiv]
      · apply BitVec.eq_of_toInt_eq
        rw [er, BitVec.toInt_srem]

/-- the same, or, at 32 and 64 bits, of operands of different signedness -/
theorem sem_div_mod_mix (hok : s = t ∨ n = 32 ∨ n = 64) (x : Bits n s) (y : Bits n t) :
    Sem (x.div y) (RefI.div (s && t) x.bv y.bv) ∧ Sem (x.mod y) (RefI.mod (s && t) x.bv y.bv) := by
  by_cases hst : s = t
  · subst hst
    have := sem_div_mod h x y
    cases s <;> exact this
  · have hf : (s && t) = false := by cases s <;> cases t <;> simp_all
    have hok' : n = 32 ∨ n = 64 := hok.resolve_left hst
    have cy := W.clean (Or.inl h) y
    suffices Sem (x.div y) (RefI.div false x.bv y.bv) ∧ Sem (x.mod y) (RefI.mod false x.bv y.bv) by
      have e1 : RefI.div (s && t) x.bv y.bv = RefI.div false x.bv y.bv := by rw [hf]
      have e2 : RefI.mod (s && t) x.bv y.bv = RefI.mod false x.bv y.bv := by rw [hf]
      rw [e1, e2]; exact this
    rw [RefI.div, RefI.mod]
    by_cases h0 : y.bv = 0
    · rw [if_pos h0, if_pos h0]
      obtain ⟨h1, h2⟩ := Bits.div_zero_any h.pos.2 x y cy h0
      exact ⟨⟨_, h1⟩, ⟨_, h2⟩⟩
    · obtain ⟨⟨q, hq, eq⟩, r, hr, er⟩ := C123_div_partial h.pos.1 h.pos.2 hst x y (W.clean (Or.inl h) x) cy h0
        (by tauto)
      rw [if_neg h0, if_neg h0]
      exact ⟨⟨q, hq, eq⟩, ⟨r, hr, er⟩⟩

theorem sem_shr (hm : m ≤ n) (x : Bits n s) (y : Bits m t) (cy : y.Clean) :
    Sem (x.shr y) (RefI.shr x.bv (numOf t y.bv)) := by
  have hp := h.pos
  have hiff := C24_native_iff hp.2 hp.1 (by omega) x y cy
  rw [RefI.shr]
  split_ifs with hk
  · obtain ⟨z, hz, ez⟩ := C24_shr_partial (by omega) (by omega) x y cy (numOf t y.bv).toNat (by omega)
      (fun _ => ⟨by omega, by omega⟩)
    exact ⟨z, hz, ez⟩
  · cases hr : x.shr y with
    | ok z => exact absurd (hiff.1 ⟨z, hr⟩) hk
    | error e => exact ⟨e, rfl⟩

/-- an amount of a type that is not wider than the value is converted without loss, as far
as the machine's shift can tell -/
theorem held_amount (hm : m ≤ n) (hm0 : 0 < m) (b : BitVec m) :
    ((∃ k : Nat, heldAmount n s (numOf t b) = k ∧ k < (if n ≤ 32 then 32 else 64)) ↔
      0 ≤ numOf t b ∧ numOf t b < max 32 n) ∧
    (0 ≤ numOf t b → numOf t b < max 32 n → heldAmount n s (numOf t b) = numOf t b) := by
  have hb : -2 ^ (n - 1) ≤ numOf t b ∧ numOf t b < 2 ^ n := by
    have p1 : (2 : Int) ^ m ≤ 2 ^ n := by exact_mod_cast Nat.pow_le_pow_right (by decide) hm
    have p2 : (2 : Int) ^ (m - 1) ≤ 2 ^ (n - 1) := by exact_mod_cast Nat.pow_le_pow_right (by decide) (by omega)
    have p3 : (2 : Int) ^ (m - 1) ≤ 2 ^ m := by exact_mod_cast Nat.pow_le_pow_right (by decide) (by omega)
    have p4 : (0 : Int) < 2 ^ (n - 1) := by positivity
    rw [numOf]
    split_ifs
    · have := BitVec.le_toInt b
      have := BitVec.toInt_lt (x := b)
      omega
    · have := b.isLt
      have : (b.toNat : Int) < 2 ^ m := by exact_mod_cast this
      omega
  generalize numOf t b = v at *
  clear hm hm0 b
  rw [heldAmount]
  rcases h with rfl | rfl | rfl | rfl <;> cases s <;> simp only [Int.bmod] <;> norm_num at hb ⊢ <;>
    refine ⟨⟨fun ⟨k, h1, h2⟩ => ?_, fun ⟨h1, h2⟩ => ⟨v.toNat, ?_, ?_⟩⟩, fun h1 h2 => ?_⟩ <;> omega

theorem sem_shl (hm : m ≤ n) (hm0 : 0 < m) (x : Bits n s) (y : Bits m t) (cy : y.Clean) :
    Sem (x.shl y) (RefI.shl x.bv (numOf t y.bv)) := by
  have hp := h.pos
  obtain ⟨e1, e2⟩ := C25_native_exact hp.2 hp.1 (by omega) x y cy
  obtain ⟨h1, h2⟩ := held_amount (s := s) (t := t) h hm hm0 y.bv
  have hl : ((if n ≤ 32 then 32 else 64 : Nat) : Int) = max 32 n := by rcases h with rfl | rfl | rfl | rfl <;> rfl
  have hl2 : (if n ≤ 32 then 32 else 64 : Int) = max 32 n := by rcases h with rfl | rfl | rfl | rfl <;> rfl
  rw [RefI.shl]
  split_ifs with hk
  · obtain ⟨z, hz, ez⟩ := e1 (numOf t y.bv).toNat (by rw [h2 hk.1 hk.2]; omega) (by omega)
    exact ⟨z, hz, ez⟩
  · refine ⟨_, e2 ?_⟩
    by_contra hc
    rw [hl2] at hc
    refine hk (h1.1 ⟨(heldAmount n s (numOf t y.bv)).toNat, ?_, ?_⟩) <;> push Not at hc <;> omega

theorem sem_ashr (hm : m ≤ n) (hm0 : 0 < m) (x : Bits n s) (y : Bits m t) (cy : y.Clean) :
    Sem (x.ashr y) (RefI.ashr s x.bv (numOf t y.bv)) := by
  have hp := h.pos
  obtain ⟨e1, e2⟩ := C26_native_exact hp.2 hp.1 (by omega) x y (W.clean (Or.inl h) x) cy
  obtain ⟨h1, h2⟩ := held_amount (s := s) (t := t) h hm hm0 y.bv
  have hl : ((if n ≤ 32 then 32 else 64 : Nat) : Int) = max 32 n := by rcases h with rfl | rfl | rfl | rfl <;> rfl
  have hl2 : (if n ≤ 32 then 32 else 64 : Int) = max 32 n := by rcases h with rfl | rfl | rfl | rfl <;> rfl
  rw [RefI.ashr]
  split_ifs with hk hs
  · obtain ⟨z, hz, ez⟩ := e1 (numOf t y.bv).toNat (by rw [h2 hk.1 hk.2]; omega) (by omega)
    exact ⟨z, hz, by rw [ez, ashrSpec, if_pos hs]⟩
  · obtain ⟨z, hz, ez⟩ := e1 (numOf t y.bv).toNat (by rw [h2 hk.1 hk.2]; omega) (by omega)
    exact ⟨z, hz, by rw [ez, ashrSpec, if_neg hs]⟩
  · refine ⟨_, e2 ?_⟩
    by_contra hc
    rw [hl2] at hc
    refine hk (h1.1 ⟨(heldAmount n s (numOf t y.bv)).toNat, ?_, ?_⟩) <;> push Not at hc <;> omega

end ops

/-- the order of operands of the same signedness, or of 64 bits -/
theorem Bits.lt_le_mix (ha : ExI.W n ∨ n = 1) (hb : ExI.W m ∨ m = 1) (hok : s = t ∨ n = 64 ∧ m = 64) (x : Bits n s) (y : Bits m t) :
    x.lt y = .ok (decide (numOf (s && t) x.bv < numOf (s && t) y.bv)) ∧
    x.le y = .ok (decide (numOf (s && t) x.bv ≤ numOf (s && t) y.bv)) := by
  have cx := ExI.W.clean ha x
  have cy := ExI.W.clean hb y
  have h1 : n ≤ 64 := by rcases ha with (h | h | h | h) | h <;> omega
  have h2 : m ≤ 64 := by rcases hb with (h | h | h | h) | h <;> omega
  by_cases hst : s = t
  · subst hst
    cases s with
    | false =>
      rw [(C40_gt_lt (by rcases ha with (h | h | h | h) | h <;> omega) x y cx cy).2,
        (C40_ge_le_partial (by rcases ha with (h | h | h | h) | h <;> omega) x y cx cy (by omega)).2]
      simp only [Bool.and_self, numOf_false, Nat.cast_lt, Nat.cast_le, and_self]
    | true => exact ⟨(C41_signed_order h1 h2 x y cx cy).2.1, (C41_signed_order h1 h2 x y cx cy).2.2.2⟩
  · obtain ⟨rfl, rfl⟩ := hok.resolve_left hst
    have hf : (s && t) = false := by cases s <;> cases t <;> simp_all
    have hm : ∀ {u : Bool} (b : BitVec 64), numOf u b % 2 ^ 64 = b.toNat := by
      intro u b
      have := b.isLt
      cases u
      · rw [numOf_false]; omega
      · rw [ExI.W.num (by decide)]
        have := BitVec.toInt_eq_toNat_bmod b
        rw [this]; simp only [Int.bmod]; omega
    rw [(C123_order_exact h1 h2 hst x y cx cy).2.1, (C123_order_exact h1 h2 hst x y cx cy).2.2.2, hm, hm, hf, numOf_false,
      numOf_false]
    exact ⟨rfl, rfl⟩

/-- **C125, partial.** A well-formed expression over the integer types, of any size and nesting, over
any objects: the library evaluation gives the reference value if that is defined, and
faults if and only if it is not. Missing: mixed signedness in `/ %` below 32 bits and in `< <=` below
64 bits, and shift amounts of a wider type (`C125_refuted`). -/
theorem C125_expr_partial (σ : ObjsI) : {n : Nat} → {s : Bool} → (e : ExI n s) → e.Ok →
    Sem (e.run σ) (e.den fun n s i => (σ n s i).bv)
  | _, _, .var n s i, _ => ⟨_, rfl, rfl⟩
  | _, _, .lit n s k, ho => ⟨_, rfl, C60_bits (ExI.W.pos ho).1 (ExI.W.pos ho).2 k⟩
  | n, _, .not a, ho => by
    have hn : 0 < n := by rcases ExI.Ok.width (e := a) ho with (h | h | h | h) | h <;> omega
    exact (C125_expr_partial σ a ho).map fun x => (C14_bitwise hn x x).2.2.2.1
  | n, _, .and a b, ho => by
    have hn : 0 < n := by rcases ExI.Ok.width ho.1 with (h | h | h | h) | h <;> omega
    exact (C125_expr_partial σ a ho.1).bind fun x => (C125_expr_partial σ b ho.2).map fun y => (C14_bitwise hn x y).1
  | n, _, .or a b, ho => by
    have hn : 0 < n := by rcases ExI.Ok.width ho.1 with (h | h | h | h) | h <;> omega
    exact (C125_expr_partial σ a ho.1).bind fun x => (C125_expr_partial σ b ho.2).map fun y => (C14_bitwise hn x y).2.1
  | n, _, .xor a b, ho => by
    have hn : 0 < n := by rcases ExI.Ok.width ho.1 with (h | h | h | h) | h <;> omega
    exact (C125_expr_partial σ a ho.1).bind fun x => (C125_expr_partial σ b ho.2).map fun y => (C14_bitwise hn x y).2.2.1
  | n, _, .neg a, ho => (C125_expr_partial σ a ho.1).bind fun x => by
    have h64 := (ExI.W.pos ho.2).2
    rw [dif_pos h64]
    exact sem_neg ho.2 x h64
  | _, _, .add a b, ho => (C125_expr_partial σ a ho.1).bind fun x => (C125_expr_partial σ b ho.2.1).bind fun y => sem_add ho.2.2 x y
  | _, _, .sub a b, ho => (C125_expr_partial σ a ho.1).bind fun x => (C125_expr_partial σ b ho.2.1).bind fun y => sem_sub ho.2.2 x y
  | _, _, .mul a b, ho => (C125_expr_partial σ a ho.1).bind fun x => (C125_expr_partial σ b ho.2.1).bind fun y => sem_mul ho.2.2 x y
  | _, _, .div a b, ho => (C125_expr_partial σ a ho.1).bind fun x => (C125_expr_partial σ b ho.2.1).bind fun y =>
    (sem_div_mod_mix ho.2.2.1 ho.2.2.2 x y).1
  | _, _, .mod a b, ho => (C125_expr_partial σ a ho.1).bind fun x => (C125_expr_partial σ b ho.2.1).bind fun y =>
    (sem_div_mod_mix ho.2.2.1 ho.2.2.2 x y).2
  | _, _, .shr a k, ho => (C125_expr_partial σ a ho.1).bind fun x => (C125_expr_partial σ k ho.2.1).bind fun y =>
    sem_shr ho.2.2.1 ho.2.2.2 x y (ExI.W.clean (ExI.Ok.width ho.2.1) y)
  | _, _, .shl (m := m) a k, ho => (C125_expr_partial σ a ho.1).bind fun x => (C125_expr_partial σ k ho.2.1).bind fun y =>
    sem_shl ho.2.2.1 ho.2.2.2 (by rcases ExI.Ok.width ho.2.1 with (h | h | h | h) | h <;> omega) x y
      (ExI.W.clean (ExI.Ok.width ho.2.1) y)
  | _, _, .ashr (m := m) a k, ho => (C125_expr_partial σ a ho.1).bind fun x => (C125_expr_partial σ k ho.2.1).bind fun y =>
    sem_ashr ho.2.2.1 ho.2.2.2 (by rcases ExI.Ok.width ho.2.1 with (h | h | h | h) | h <;> omega) x y
      (ExI.W.clean (ExI.Ok.width ho.2.1) y)
  | _, s, .ext (n := n) m a, ho => (C125_expr_partial σ a ho.1).map fun x => by
    have hw := ExI.Ok.width ho.1
    have h1 := (C48_sign_extend_partial (by rcases hw with (h | h | h | h) | h <;> omega)
      (by rcases hw with (h | h | h | h) | h <;> omega) ho.2.2 x (ExI.W.clean hw x)).2
    show (x.extend m).bv = BitVec.ofInt m (numOf s x.bv)
    rw [← h1, ofInt_numOf]
  | _, _, .cast true a, ho => by
    have := (C125_expr_partial σ a ho.1).map (f := fun x => x.toSigned) (g := id) fun x => (C58_bits x).1
    rw [Option.map_id_fun, id] at this
    exact this
  | _, _, .cast false a, ho => by
    have := (C125_expr_partial σ a ho.1).map (f := fun x => x.toUnsigned) (g := id) fun x => (C58_bits x).2.1
    rw [Option.map_id_fun, id] at this
    exact this
  | _, _, .eq (n := n) (s := s) (t := t) a b, ho =>
    (C125_expr_partial σ a ho.1).bind fun x => (C125_expr_partial σ b ho.2).map fun y => by
    have hw := ExI.Ok.width ho.1
    have hf : Full n := by rw [Full]; rcases hw with (h | h | h | h) | h <;> simp [h]
    show (Bits.ofInt (x.eq y).toNat : Bits 1 false).bv = _
    rw [(Bits.ofInt_bool (x.eq y)).2, (C38_eq_partial (by rcases hw with (h | h | h | h) | h <;> omega)
      (by rcases hw with (h | h | h | h) | h <;> omega) x y (ExI.W.clean hw x)
      (ExI.W.clean hw y)).1]
    simp [hf]
  | _, _, .lt a b, ho => (C125_expr_partial σ a ho.1).bind fun x => (C125_expr_partial σ b ho.2.1).bindMap fun y => by
    rw [(Bits.lt_le_mix (ExI.Ok.width ho.1) (ExI.Ok.width ho.2.1) ho.2.2 x y).1]
    exact ⟨_, rfl, (Bits.ofInt_bool _).2⟩
  | _, _, .le a b, ho => (C125_expr_partial σ a ho.1).bind fun x => (C125_expr_partial σ b ho.2.1).bindMap fun y => by
    rw [(Bits.lt_le_mix (ExI.Ok.width ho.1) (ExI.Ok.width ho.2.1) ho.2.2 x y).2]
    exact ⟨_, rfl, (Bits.ofInt_bool _).2⟩
  | _, _, .cond c a b, ho => (C125_expr_partial σ c ho.1).bind fun x => by
    rw [Bits.toBool_one]
    by_cases h1 : x.bv = 1
    · simp only [h1, decide_true, if_true]; exact C125_expr_partial σ a ho.2.1
    · simp only [h1, decide_false, if_false, Bool.false_eq_true]; exact C125_expr_partial σ b ho.2.2

/-! ## Programs -/

/-- the reference values with one variable replaced -/
def ValsI.put (ρ : ValsI) (n : Nat) (s : Bool) (i : Nat) (v : BitVec n) : ValsI := fun m t j =>
  if h : m = n ∧ t = s then (if j = i then h.1 ▸ v else ρ m t j) else ρ m t j

namespace StI

/-- **Reference semantics** of programs: `none` when the fuel is used up, `some none` when an
operation is undefined. An assignment extends by the sign of its source type and truncates. -/
def den : Nat → StI → ValsI → Option (Option ValsI)
  | 0, _, _ => none
  | _ + 1, .skip, ρ => some (some ρ)
  | _ + 1, .assign n s i (t := t) e, ρ => some ((e.den ρ).map fun v => ρ.put n s i (BitVec.ofInt n (numOf t v)))
  | _ + 1, .inc n s i, ρ => some (some (ρ.put n s i (ρ n s i + 1)))
  | _ + 1, .dec n s i, ρ => some (some (ρ.put n s i (ρ n s i - 1)))
  | f + 1, .seq a b, ρ =>
      match den f a ρ with
      | none => none
      | some none => some none
      | some (some ρ') => den f b ρ'
  | f + 1, .ite c a b, ρ =>
      match c.den ρ with
      | none => some none
      | some v => if v = 1 then den f a ρ else den f b ρ
  | f + 1, .loop c a, ρ =>
      match c.den ρ with
      | none => some none
      | some v =>
        if v = 1 then
          match den f a ρ with
          | none => none
          | some none => some none
          | some (some ρ') => den f (.loop c a) ρ'
        else some (some ρ)

/-- **Well-formed programs**: the expressions are, the targets are integer types or, for one bit
sources, `bit<0>`. -/
def Ok : StI → Prop
  | .skip => True
  | .assign n s _ (m := m) e => e.Ok ∧ (ExI.W n ∨ n = 1 ∧ s = false ∧ m = 1)
  | .inc n _ _ | .dec n _ _ => ExI.W n
  | .seq a b => Ok a ∧ Ok b
  | .ite c a b => c.Ok ∧ Ok a ∧ Ok b
  | .loop c a => c.Ok ∧ Ok a

/-- more fuel does not change the outcome -/
theorem den_mono : (f : Nat) → (p : StI) → (ρ : ValsI) → (o : Option ValsI) → p.den f ρ = some o →
    (k : Nat) → p.den (f + k) ρ = some o
  | 0, _, _, _, h, _ => absurd h (by simp [den])
  | f + 1, p, ρ, o, h, k => by
    rw [Nat.add_right_comm]
    cases p with
    | skip => exact h
    | assign n s i e => exact h
    | inc n s i => exact h
    | dec n s i => exact h
    | seq a b =>
      rw [den] at h ⊢
      cases ha : a.den f ρ with
      | none => rw [ha] at h; exact absurd h (by simp)
      | some r =>
        rw [ha] at h
        rw [den_mono f a ρ r ha k]
        cases r with
        | none => exact h
        | some ρ' => exact den_mono f b ρ' o h k
    | ite c a b =>
      rw [den] at h ⊢
      cases hc : c.den ρ with
      | none => rw [hc] at h; exact h
      | some v =>
        rw [hc] at h
        simp only at h ⊢
        split_ifs at h ⊢
        · exact den_mono f a ρ o h k
        · exact den_mono f b ρ o h k
    | loop c a =>
      rw [den] at h ⊢
      cases hc : c.den ρ with
      | none => rw [hc] at h; exact h
      | some v =>
        rw [hc] at h
        simp only at h ⊢
        split_ifs at h ⊢
        · cases ha : a.den f ρ with
          | none => rw [ha] at h; exact absurd h (by simp)
          | some r =>
            rw [ha] at h
            rw [den_mono f a ρ r ha k]
            cases r with
            | none => exact h
            | some ρ' => exact den_mono f (.loop c a) ρ' o h k
        · exact h

end StI

/-- the values the objects hold -/
def ObjsI.vals (σ : ObjsI) : ValsI := fun n s i => (σ n s i).bv

theorem ObjsI.vals_put (σ : ObjsI) (n : Nat) (s : Bool) (i : Nat) (x : Bits n s) :
    (σ.put n s i x).vals = σ.vals.put n s i x.bv := by
  funext m t j
  simp only [vals, put, ValsI.put]
  by_cases h : m = n ∧ t = s
  · obtain ⟨rfl, rfl⟩ := h
    simp only [and_self, dif_pos]
    split_ifs <;> rfl
  · rw [dif_neg h, dif_neg h]

/-- the execution of the library is the reference execution: it ends in the same number of
steps, with the same values or with a fault where that is undefined -/
def SemP (r : Option (Res ObjsI)) (o : Option (Option ValsI)) : Prop :=
  match o with
  | none => r = none
  | some none => ∃ e, r = some (.error e)
  | some (some ρ) => ∃ σ, r = some (.ok σ) ∧ σ.vals = ρ

theorem ExI.Ok.le {e : ExI m t} (h : e.Ok) : 0 < m ∧ m ≤ 64 := by
  rcases ExI.Ok.width h with (h | h | h | h) | h <;> omega

theorem Bits.assign_bv {e : ExI m t} (he : e.Ok) (hn : n ≤ 64) (h : ExI.W n ∨ n = 1 ∧ s = false ∧ m = 1)
    (x : Bits m t) : (x.assignNat hn : Bits n s).bv = BitVec.ofInt n (numOf t x.bv) := by
  have cx := ExI.W.clean (ExI.Ok.width he) x
  rcases h with h | ⟨rfl, rfl, rfl⟩
  · exact (C93_assign_partial he.le.2 hn h.pos.1 x cx).1
  · rw [C93_one_bit (by decide) x cx, ofInt_numOf]
    generalize x.bv = b
    revert b; decide

/-- **C126, partial.** Every well-formed program, every number of steps, every initial objects: the
execution of the library and the reference execution agree, faults included. Missing: programs with expressions that are not well-formed (`C125_refuted`). -/
theorem C126_program_partial : (f : Nat) → (p : StI) → p.Ok → (σ : ObjsI) → SemP (p.run f σ) (p.den f σ.vals)
  | 0, _, _, _ => rfl
  | _ + 1, .skip, _, σ => ⟨σ, rfl, rfl⟩
  | _ + 1, .assign n s i (m := m) (t := t) e, ho, σ => by
    have hn : n ≤ 64 := by rcases ho.2 with (h | h | h | h) | h <;> omega
    have he := C125_expr_partial σ e ho.1
    rw [StI.run, StI.den, dif_pos hn]
    change Sem _ (e.den σ.vals) at he
    cases hd : e.den σ.vals with
    | none => rw [hd] at he; obtain ⟨x, hx⟩ := he; exact ⟨x, by rw [hx]; rfl⟩
    | some v =>
      rw [hd] at he
      obtain ⟨x, hx, rfl⟩ := he
      refine ⟨_, by rw [hx]; rfl, ?_⟩
      rw [ObjsI.vals_put, Bits.assign_bv ho.1 hn ho.2]
  | _ + 1, .inc n s i, ho, σ => by
    obtain ⟨z, hz, ez, -⟩ := C36_inc_partial (ExI.W.pos ho).1 (σ n s i)
    exact ⟨_, by rw [StI.run, hz]; rfl, by rw [ObjsI.vals_put, ez]; rfl⟩
  | _ + 1, .dec n s i, ho, σ => by
    obtain ⟨z, hz, ez, -⟩ := C36_dec (by have := (ExI.W.pos ho).1; omega) (σ n s i)
    exact ⟨_, by rw [StI.run, hz]; rfl, by rw [ObjsI.vals_put, ez]; rfl⟩
  | f + 1, .seq a b, ho, σ => by
    have ha := C126_program_partial f a ho.1 σ
    rw [StI.run, StI.den]
    cases hd : a.den f σ.vals with
    | none => rw [hd] at ha; rw [show a.run f σ = none from ha]; rfl
    | some o =>
      rw [hd] at ha
      cases o with
      | none => obtain ⟨e, h⟩ := ha; rw [h]; exact ⟨e, rfl⟩
      | some ρ =>
        obtain ⟨σ', h, rfl⟩ := ha
        rw [h]
        exact C126_program_partial f b ho.2 σ'
  | f + 1, .ite c a b, ho, σ => by
    have hc := C125_expr_partial σ c ho.1
    change Sem _ (c.den σ.vals) at hc
    rw [StI.run, StI.den]
    cases hd : c.den σ.vals with
    | none => rw [hd] at hc; obtain ⟨e, h⟩ := hc; rw [h]; exact ⟨e, rfl⟩
    | some v =>
      rw [hd] at hc
      obtain ⟨x, h, rfl⟩ := hc
      rw [h]
      simp only [Bits.toBool_one]
      by_cases h1 : x.bv = 1
      · simp only [h1, decide_true, if_true]; exact C126_program_partial f a ho.2.1 σ
      · simp only [h1, decide_false, if_false, Bool.false_eq_true]; exact C126_program_partial f b ho.2.2 σ
  | f + 1, .loop c a, ho, σ => by
    have hc := C125_expr_partial σ c ho.1
    change Sem _ (c.den σ.vals) at hc
    rw [StI.run, StI.den]
    cases hd : c.den σ.vals with
    | none => rw [hd] at hc; obtain ⟨e, h⟩ := hc; rw [h]; exact ⟨e, rfl⟩
    | some v =>
      rw [hd] at hc
      obtain ⟨x, h, rfl⟩ := hc
      rw [h]
      simp only [Bits.toBool_one]
      by_cases h1 : x.bv = 1
      · simp only [h1, decide_true, if_true]
        have ha := C126_program_partial f a ho.2 σ
        cases hda : a.den f σ.vals with
        | none => rw [hda] at ha; rw [show a.run f σ = none from ha]; rfl
        | some o =>
          rw [hda] at ha
          cases o with
          | none => obtain ⟨e, h⟩ := ha; rw [h]; exact ⟨e, rfl⟩
          | some ρ =>
            obtain ⟨σ', h, rfl⟩ := ha
            rw [h]
            exact C126_program_partial f (.loop c a) ho σ'
      · simp only [h1, decide_false, if_false, Bool.false_eq_true]; exact ⟨σ, rfl, rfl⟩

/-! ## A program: Euclid's algorithm -/

/-- `while (bit<n-1, 0>(0) < b) { t = a % b; a = b; b = t; }` on unsigned integers -/
def euclid (n : Nat) : StI :=
  .loop (.lt (.lit n false 0) (.var n false 1))
    (.seq (.assign n false 2 (.mod (.var n false 0) (.var n false 1)))
      (.seq (.assign n false 0 (.var n false 1)) (.assign n false 1 (.var n false 2))))

theorem euclid_den {n : Nat} : ∀ (b : Nat) (ρ : ValsI), (ρ n false 1).toNat = b →
    ∃ f ρ', (euclid n).den f ρ = some (some ρ') ∧
      (ρ' n false 0).toNat = Nat.gcd (ρ n false 0).toNat b ∧
      ∀ m t i, ¬ (m = n ∧ t = false ∧ i < 3) → ρ' m t i = ρ m t i := by
  intro b
  induction b using Nat.strongRecOn with
  | _ b ih =>
    intro ρ hb
    have hlt : numOf false (BitVec.ofInt n 0) < numOf false (ρ n false 1) ↔ 0 < b := by
      rw [numOf_false, numOf_false, hb]; simp
    by_cases h0 : b = 0
    · subst h0
      refine ⟨1, ρ, ?_, by simp, fun _ _ _ _ => rfl⟩
      have hc : (ExI.lt (.lit n false 0) (.var n false 1) : ExI 1 false).den ρ = some 0 := by
        simp only [ExI.den, Option.bind_some, Option.map_some, Bool.and_self]
        rw [decide_eq_false (fun h => absurd (hlt.1 h) (by omega))]; rfl
      rw [euclid, StI.den, hc]
      rfl
    · have hne : ρ n false 1 ≠ 0 := by
        intro e; rw [e] at hb; simp at hb; omega
      have hc : (ExI.lt (.lit n false 0) (.var n false 1) : ExI 1 false).den ρ = some 1 := by
        simp only [ExI.den, Option.bind_some, Option.map_some, Bool.and_self]
        rw [decide_eq_true (hlt.2 (by omega))]; rfl
      have num : ∀ v : BitVec n, BitVec.ofInt n (numOf false v) = v := fun v => ofInt_numOf v
      let ρ1 := ρ.put n false 2 (ρ n false 0 % ρ n false 1)
      let ρ2 := ρ1.put n false 0 (ρ1 n false 1)
      let ρ3 := ρ2.put n false 1 (ρ2 n false 2)
      have g : ∀ (ρ : ValsI) (i j : Nat) (v : BitVec n), (ρ.put n false i v) n false j = if j = i then v else ρ n false j := by
        intro ρ i j v; simp [ValsI.put]
      have e1 : ρ3 n false 1 = ρ n false 0 % ρ n false 1 := by
        simp only [ρ3, ρ2, ρ1, g]; simp
      have e0 : ρ3 n false 0 = ρ n false 1 := by
        simp only [ρ3, ρ2, ρ1, g]; simp
      have hbody : ∀ f, (StI.seq (.assign n false 2 (.mod (.var n false 0) (.var n false 1)))
          (.seq (.assign n false 0 (.var n false 1)) (.assign n false 1 (.var n false 2)))).den (f + 3) ρ
          = some (some ρ3) := by
        intro f
        have hmod : (ExI.mod (.var n false 0) (.var n false 1) : ExI n (false && false)).den ρ =
            some (ρ n false 0 % ρ n false 1) := by
          simp only [ExI.den, Option.bind_some, RefI.mod, if_neg hne, Bool.and_self, Bool.false_eq_true, if_false]
        simp only [StI.den, hmod, Option.map_some]
        simp only [ExI.den, Option.map_some, Bool.and_self, num]
        rfl
      have hb3 : (ρ3 n false 1).toNat = (ρ n false 0).toNat % b := by
        rw [e1, BitVec.toNat_umod, hb]
      obtain ⟨f, ρ', hf, hg, hk⟩ := ih ((ρ n false 0).toNat % b) (Nat.mod_lt _ (by omega)) ρ3 hb3
      have hmono : ∃ f3, (euclid n).den (f3 + 3) ρ3 = some (some ρ') := ⟨f, StI.den_mono _ _ _ _ hf 3⟩
      obtain ⟨f3, hf3⟩ := hmono
      refine ⟨f3 + 3 + 1, ρ', ?_, ?_, fun m t i hm => ?_⟩
      · conv_lhs => rw [euclid, StI.den]
        rw [hc]
        simp only [if_true]
        rw [hbody f3]
        exact hf3
      · rw [hg, e0, hb, Nat.gcd_comm, ← Nat.gcd_rec, Nat.gcd_comm]
      · rw [hk m t i hm]
        simp only [ρ3, ρ2, ρ1, ValsI.put]
        by_cases h : m = n ∧ t = false
        · obtain ⟨rfl, rfl⟩ := h
          have : 3 ≤ i := Nat.not_lt.1 fun h => hm ⟨rfl, rfl, h⟩
          simp only [and_self, dif_pos]
          rw [if_neg (by omega), if_neg (by omega), if_neg (by omega)]
        · simp only [dif_neg h]

/-- **C126, an application.** Euclid's algorithm, written against the library at any of the
unsigned integer types, terminates without undefined behaviour on all inputs, leaves the
greatest common divisor in its first variable and touches only its three variables. -/
theorem C126_euclid (h : ExI.W n) (σ : ObjsI) :
    ∃ f σ', (euclid n).run f σ = some (.ok σ') ∧
      (σ' n false 0).bv.toNat = Nat.gcd (σ n false 0).bv.toNat (σ n false 1).bv.toNat ∧
      ∀ m t i, ¬ (m = n ∧ t = false ∧ i < 3) → (σ' m t i).bv = (σ m t i).bv := by
  obtain ⟨f, ρ', hf, hg, hk⟩ := euclid_den (n := n) _ σ.vals rfl
  have hok : (euclid n).Ok := by
    simp [euclid, StI.Ok, ExI.Ok, h]
  have := C126_program_partial f (euclid n) hok σ
  rw [hf] at this
  obtain ⟨σ', h1, rfl⟩ := this
  exact ⟨f, σ', h1, hg, hk⟩

/-- `int x = 2147483647; x = x + 1` is undefined, `++x` is not -/
example : (StI.assign 32 true 0 (.add (.var 32 true 0) (.lit 32 true 1))).Ok ∧ (StI.inc 32 true 0).Ok ∧
    RefI.add true true (2147483647#32) 1#32 = none ∧ RefI.add true true (5#32) 1#32 = some 6#32 := by
  refine ⟨by simp [StI.Ok, ExI.Ok, ExI.W], by simp [StI.Ok, ExI.W], by decide, by decide⟩

/-- a nested expression with signed and unsigned operands, division, arithmetic shift and
comparison -/
example : (ExI.cond (.lt (.var 32 true 0) (.lit 32 true 0))
    (.div (.neg (.var 32 true 0)) (.ext 32 (.var 8 true 1)))
    (.cast true (.ashr (.var 32 true 0) (.cast false (.var 16 true 2)))) : ExI 32 true).Ok := by
  simp [ExI.Ok, ExI.W]

/-- **C125 is false of the code** outside the well-formed expressions: with a signed and an unsigned
byte `-1 <= 255` is false and `-1 / 2` is 0 (255 and 127 in unsigned arithmetic), and a byte shifted
left by the 16-bit number 257 is shifted by 1. -/
theorem C125_refuted (σ : ObjsI) (ρ : ValsI) :
    (ExI.le (.lit 8 true (-1)) (.lit 8 false 255)).run σ = .ok (Bits.ofInt 0) ∧
    (ExI.le (.lit 8 true (-1)) (.lit 8 false 255)).den ρ = some 1 ∧
    ((ExI.div (.lit 8 true (-1)) (.lit 8 false 2)).run σ).map (·.bv) = .ok 0 ∧
    (ExI.div (.lit 8 true (-1)) (.lit 8 false 2)).den ρ = some 127#8 ∧
    ((ExI.shl (.lit 8 false 3) (.lit 16 false 257)).run σ).map (·.bv) = .ok 6 ∧
    (ExI.shl (.lit 8 false 3) (.lit 16 false 257)).den ρ = none := by
  refine ⟨?_, rfl, ?_, rfl, ?_, rfl⟩ <;> simp only [ExI.run, res_bind_ok] <;> decide +kernel

end Verif
