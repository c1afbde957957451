import Verif.Model.Expr
import Verif.Props.Canonical
import Verif.Props.Shift
import Verif.Props.Arith
import Verif.Props.Bitwise
import Verif.Props.Extend
import Verif.Props.Slice
import Verif.Props.Concat
import Verif.Props.Update
import Verif.Show
import Mathlib.Data.BitVec
import Mathlib.Tactic.Ring

/-!
# Client programs (C114, C116)

The properties of single operations are composed: an expression of any size, and a
program with assignments, bit and part-select writes, branches and loops, computes
on library objects what its reference semantics computes on bit vectors.
-/

namespace Verif

variable {n m : Nat}

/-- reference values of the variables -/
abbrev Vals := (n : Nat) → Nat → BitVec n

/-- widths whose storage has no spare bits -/
def NoSpare (n : Nat) : Prop := n = 1 ∨ n = 8 ∨ n = 16 ∨ n = 32 ∨ n % 64 = 0

instance (n : Nat) : Decidable (NoSpare n) := by unfold NoSpare; infer_instance

namespace Ex

/-- **Reference semantics**: the SystemVerilog value of the expression on bit
vectors. It is undefined on a division by zero and on a shift of a value of at most
64 bits by an amount the machine shift does not take. -/
def den (ρ : Vals) : {n : Nat} → Ex n → Option (BitVec n)
  | _, .var n i => some (ρ n i)
  | _, .lit v => some v
  | _, .not a => (den ρ a).map (~~~ ·)
  | _, .and a b => (den ρ a).bind fun x => (den ρ b).map fun y => x &&& y
  | _, .or a b => (den ρ a).bind fun x => (den ρ b).map fun y => x ||| y
  | _, .xor a b => (den ρ a).bind fun x => (den ρ b).map fun y => x ^^^ y
  | _, .neg a => (den ρ a).map (- ·)
  | _, .add a b => (den ρ a).bind fun x => (den ρ b).map fun y => x + y
  | _, .sub a b => (den ρ a).bind fun x => (den ρ b).map fun y => x - y
  | _, .mul a b => (den ρ a).bind fun x => (den ρ b).map fun y => x * y
  | _, .div a b => (den ρ a).bind fun x => (den ρ b).bind fun y => if y = 0 then none else some (x / y)
  | _, .mod a b => (den ρ a).bind fun x => (den ρ b).bind fun y => if y = 0 then none else some (x % y)
  | n, .shr a k => (den ρ a).bind fun x => (den ρ k).bind fun y =>
      if n ≤ 64 ∧ n ≤ y.toNat then none else some (x >>> y.toNat)
  | n, .shl a k => (den ρ a).bind fun x => (den ρ k).bind fun y =>
      if n ≤ 64 ∧ (if n ≤ 32 then 32 else 64) ≤ y.toNat then none else some (x <<< y.toNat)
  | _, .ext m a => (den ρ a).map (·.setWidth m)
  | _, .slice i j a => (den ρ a).map fun x => x.extractLsb' (min i j) (max i j - min i j + 1)
  | _, .cat a b => (den ρ a).bind fun x => (den ρ b).map fun y => x ++ y
  | _, .eq a b => (den ρ a).bind fun x => (den ρ b).map fun y => BitVec.ofBool (decide (x = y))
  | _, .lt a b => (den ρ a).bind fun x => (den ρ b).map fun y => BitVec.ofBool (decide (x < y))
  | _, .le a b => (den ρ a).bind fun x => (den ρ b).map fun y => BitVec.ofBool (decide (x ≤ y))
  | _, .cond c a b => (den ρ c).bind fun x => if x = 1 then den ρ a else den ρ b

/-- The result of the expression is in canonical form, decided from its syntax:
complement, negation, `+ - *` and native `<<` leave spare storage bits set. -/
def Canon : {n : Nat} → Ex n → Prop
  | n, .not _ | n, .neg _ | n, .add _ _ | n, .sub _ _ | n, .mul _ _ => NoSpare n
  | n, .shl _ _ => 64 < n ∨ NoSpare n
  | n, .and a b => Canon a ∨ Canon b ∨ 64 < n
  | n, .or a b | n, .xor a b => (Canon a ∧ Canon b) ∨ NoSpare n
  | _, .cond _ a b => Canon a ∧ Canon b
  | _, .var _ _ | _, .lit _ | _, .div _ _ | _, .mod _ _ | _, .shr _ _ | _, .ext _ _ | _, .slice _ _ _
  | _, .cat _ _ | _, .eq _ _ | _, .lt _ _ | _, .le _ _ => True

/-- **Well-formed expressions**, decided from the syntax: the bounds are in range,
the instantiation compiles, division, shift amounts, comparison, widening and
concatenation get canonical operands, and the widths at which an operation is known
to go wrong are left out (1-bit `+` and `<<`, 9 to 16-bit and wide `*`, wide `/ %`,
`concat` of a narrow high part into more than 32 bits, 65-bit slices). -/
def Ok : {n : Nat} → Ex n → Prop
  | _, .var n _ => 0 < n ∧ n ≤ 2 ^ 31
  | n, .lit _ => 0 < n ∧ n ≤ 64
  | _, .not a => Ok a
  | _, .and a b | _, .or a b | _, .xor a b => Ok a ∧ Ok b
  | n, .neg a => Ok a ∧ n ≤ 64
  | n, .add a b => Ok a ∧ Ok b ∧ 1 < n
  | _, .sub a b => Ok a ∧ Ok b
  | n, .mul a b => Ok a ∧ Ok b ∧ (n ≤ 8 ∨ 16 < n ∧ n ≤ 64)
  | n, .div a b | n, .mod a b => Ok a ∧ Ok b ∧ Canon a ∧ Canon b ∧ n ≤ 64
  | n, .shr (m := m) a k => Ok a ∧ Ok k ∧ Canon k ∧ (n ≤ 64 → m ≤ 64)
  | n, .shl (m := m) a k => Ok a ∧ Ok k ∧ Canon k ∧ (n ≤ 64 → m ≤ 64 ∧ 1 < n)
  | _, .ext (n := n) m a => Ok a ∧ Canon a ∧ n ≤ m ∧ m ≤ 2 ^ 31
  | _, .slice (n := n) i j a => Ok a ∧ i < n ∧ j < n ∧ max i j - min i j ≠ 64
  | _, .cat (n := n) (m := m) a b => Ok a ∧ Ok b ∧ Canon a ∧ Canon b ∧ n + m < 64 ∧ (n + m ≤ 32 ∨ 32 < n)
  | _, .eq a b | _, .lt a b | _, .le a b => Ok a ∧ Ok b ∧ Canon a ∧ Canon b
  | _, .cond c a b => Ok c ∧ Ok a ∧ Ok b

theorem Ok.width : {n : Nat} → {e : Ex n} → e.Ok → 0 < n ∧ n ≤ 2 ^ 31
  | _, .var _ _, h => h
  | _, .lit _, h => ⟨h.1, by have := h.2; omega⟩
  | _, .not a, h => Ok.width (e := a) h
  | _, .and a _, h | _, .or a _, h | _, .xor a _, h | _, .neg a, h | _, .add a _, h | _, .sub a _, h
  | _, .mul a _, h | _, .div a _, h | _, .mod a _, h | _, .shr a _, h | _, .shl a _, h => Ok.width (e := a) h.1
  | _, .ext _ a, h => ⟨by have := Ok.width (e := a) h.1; have := h.2.2.1; omega, h.2.2.2⟩
  | _, .slice _ _ a, h => by
    have := Ok.width (e := a) h.1
    obtain ⟨_, h1, h2, _⟩ := h
    omega
  | _, .cat a b, h => by
    have := Ok.width (e := a) h.1
    obtain ⟨_, _, _, _, h1, h2⟩ := h
    omega
  | _, .eq _ _, _ | _, .lt _ _, _ | _, .le _ _, _ => by decide
  | _, .cond _ a _, h => Ok.width (e := a) h.2.1

end Ex

/-- the objects hold the reference values, in canonical form -/
def Agree (σ : Objs) (ρ : Vals) : Prop := ∀ n i, (σ n i).Clean ∧ (σ n i).bv = ρ n i

theorem NoSpare.clean (hn : 0 < n) (h : NoSpare n) (x : Bits n false) : x.Clean := by
  refine (C16_full_widths hn ?_ x x).1
  rcases h with h | h | h | h | h
  · exact Or.inl (Or.inl h)
  · exact Or.inl (Or.inr (Or.inl h))
  · exact Or.inl (Or.inr (Or.inr (Or.inl h)))
  · exact Or.inl (Or.inr (Or.inr (Or.inr (Or.inl h))))
  · exact Or.inr h

theorem Bits.clean_and_of (hn : 0 < n) (x y : Bits n false) (h : x.Clean ∨ y.Clean ∨ 64 < n) :
    (x.and y).Clean := by
  rw [Bits.clean_unsigned_iff]
  intro i hi
  by_cases h64 : n ≤ 64
  · have e := Bits.raw_and_native h64 x y i
    rcases h with h | h | h
    · rw [(Bits.clean_unsigned_iff _).1 h i hi] at e; exact e
    · rw [(Bits.clean_unsigned_iff _).1 h i hi] at e; exact e.trans (Bool.and_false _)
    · omega
  · have : ((x.and y : Bits n false).bg h64) = (x.bg h64).and (y.bg h64) := by rw [Bits.and, dif_neg h64]; rfl
    rw [Bits.raw_big h64, this]
    exact (Big.clean_iff _).1 (Big.clean_and hn _ _) i hi

theorem Bits.clean_or_xor_of (x y : Bits n false) (hx : x.Clean) (hy : y.Clean) :
    (x.or y).Clean ∧ (x.xor y).Clean := by
  rw [Bits.clean_unsigned_iff] at hx hy
  constructor
  · refine (Bits.clean_unsigned_iff (x.or y)).2 fun i hi => ?_
    have := Bits.raw_or x y i
    rw [hx i hi, hy i hi] at this
    exact this
  · refine (Bits.clean_unsigned_iff (x.xor y)).2 fun i hi => ?_
    have := Bits.raw_xor x y i
    rw [hx i hi, hy i hi] at this
    exact this

theorem Bits.ofInt_native (h : n ≤ 64) (v : BitVec n) :
    (Bits.ofInt v.toNat : Bits n false).Clean ∧ (Bits.ofInt v.toNat : Bits n false).bv = v := by
  obtain ⟨x, hc, e⟩ := Bits.exists_clean (s := false) v
  have hv : (v.toNat : Int) = x.nv.v := by rw [Bits.clean_unsigned_num h hc, e]
  have : (Bits.ofInt v.toNat : Bits n false) = x := by
    rw [Bits.ofInt, dif_pos h, hv, Bits.nv_conv h, Bits.mkN]
    exact Bits.mkN_nv h x
  rw [this]
  exact ⟨hc, e⟩

theorem Bits.ofInt_bool (c : Bool) :
    (Bits.ofInt c.toNat : Bits 1 false).Clean ∧ (Bits.ofInt c.toNat : Bits 1 false).bv = BitVec.ofBool c := by
  cases c <;> decide +kernel

theorem Bits.toBool_one (x : Bits 1 false) : x.toBool = decide (x.bv = 1) := by
  rw [Bits.toBool, Bits.anySet_native (by decide) (Bits.clean_one (by decide) (by decide) x)]
  generalize x.bv = b
  revert b; decide

/-- **C114.** A well-formed expression over canonical objects, of any size and nesting:
whenever its reference value is defined, the library evaluation does not fault and
its result reads as the reference value; the result is canonical when the syntax says so. -/
theorem C114_expr (σ : Objs) (ρ : Vals) (h : Agree σ ρ) : {n : Nat} → (e : Ex n) → e.Ok →
    (v : BitVec n) → e.den ρ = some v → ∃ x, e.run σ = .ok x ∧ x.bv = v ∧ (e.Canon → x.Clean)
  | _, .var n i, _, v, hv => by
    simp only [Ex.den, Option.some.injEq] at hv
    exact ⟨_, rfl, by rw [← hv]; exact (h n i).2, fun _ => (h n i).1⟩
  | _, .lit w, ho, v, hv => by
    simp only [Ex.den, Option.some.injEq] at hv
    obtain ⟨h1, h2⟩ := Bits.ofInt_native ho.2 w
    exact ⟨_, rfl, by rw [← hv]; exact h2, fun _ => h1⟩
  | _, .not a, ho, v, hv => by
    simp only [Ex.den, Option.map_eq_some_iff] at hv
    obtain ⟨u, hu, rfl⟩ := hv
    obtain ⟨x, hx, e, _⟩ := C114_expr σ ρ h a ho u hu
    have hw := Ex.Ok.width (e := a) ho
    refine ⟨x.not, by rw [Ex.run, hx]; rfl, ?_, fun hc => NoSpare.clean hw.1 hc _⟩
    rw [(C14_bitwise hw.1 x x).2.2.2.1, e]
  | _, .and a b, ho, v, hv => by
    simp only [Ex.den, Option.bind_eq_some_iff, Option.map_eq_some_iff] at hv
    obtain ⟨u, hu, w, hw, rfl⟩ := hv
    obtain ⟨x, hx, ex, cx⟩ := C114_expr σ ρ h a ho.1 u hu
    obtain ⟨y, hy, ey, cy⟩ := C114_expr σ ρ h b ho.2 w hw
    have hn := (Ex.Ok.width ho.1).1
    refine ⟨x.and y, by rw [Ex.run, hx, res_bind_ok, hy]; rfl, ?_, fun hc => Bits.clean_and_of hn x y ?_⟩
    · rw [← ex, ← ey]; exact (C14_bitwise hn x y).1
    · rcases hc with hc | hc | hc
      · exact Or.inl (cx hc)
      · exact Or.inr (Or.inl (cy hc))
      · exact Or.inr (Or.inr hc)
  | _, .or a b, ho, v, hv => by
    simp only [Ex.den, Option.bind_eq_some_iff, Option.map_eq_some_iff] at hv
    obtain ⟨u, hu, w, hw, rfl⟩ := hv
    obtain ⟨x, hx, ex, cx⟩ := C114_expr σ ρ h a ho.1 u hu
    obtain ⟨y, hy, ey, cy⟩ := C114_expr σ ρ h b ho.2 w hw
    have hn := (Ex.Ok.width ho.1).1
    refine ⟨x.or y, by rw [Ex.run, hx, res_bind_ok, hy]; rfl, ?_, fun hc => ?_⟩
    · rw [← ex, ← ey]; exact (C14_bitwise hn x y).2.1
    · rcases hc with hc | hc
      · exact (Bits.clean_or_xor_of x y (cx hc.1) (cy hc.2)).1
      · exact NoSpare.clean hn hc _
  | _, .xor a b, ho, v, hv => by
    simp only [Ex.den, Option.bind_eq_some_iff, Option.map_eq_some_iff] at hv
    obtain ⟨u, hu, w, hw, rfl⟩ := hv
    obtain ⟨x, hx, ex, cx⟩ := C114_expr σ ρ h a ho.1 u hu
    obtain ⟨y, hy, ey, cy⟩ := C114_expr σ ρ h b ho.2 w hw
    have hn := (Ex.Ok.width ho.1).1
    refine ⟨x.xor y, by rw [Ex.run, hx, res_bind_ok, hy]; rfl, ?_, fun hc => ?_⟩
    · rw [← ex, ← ey]; exact (C14_bitwise hn x y).2.2.1
    · rcases hc with hc | hc
      · exact (Bits.clean_or_xor_of x y (cx hc.1) (cy hc.2)).2
      · exact NoSpare.clean hn hc _
  | _, .neg a, ho, v, hv => by
    simp only [Ex.den, Option.map_eq_some_iff] at hv
    obtain ⟨u, hu, rfl⟩ := hv
    obtain ⟨x, hx, e, _⟩ := C114_expr σ ρ h a ho.1 u hu
    have hw := Ex.Ok.width ho.1
    obtain ⟨z, hz, ez⟩ := (C35_neg_partial hw.1 x (by simp) (by simp [IsMin])).1 ho.2
    exact ⟨z, by rw [Ex.run, hx, res_bind_ok, dif_pos ho.2, hz], by rw [ez, e], fun hc => NoSpare.clean hw.1 hc _⟩
  | _, .add a b, ho, v, hv => by
    simp only [Ex.den, Option.bind_eq_some_iff, Option.map_eq_some_iff] at hv
    obtain ⟨u, hu, w, hw, rfl⟩ := hv
    obtain ⟨x, hx, ex, cx⟩ := C114_expr σ ρ h a ho.1 u hu
    obtain ⟨y, hy, ey, cy⟩ := C114_expr σ ρ h b ho.2.1 w hw
    have hn := (Ex.Ok.width ho.1).1
    obtain ⟨z, hz, ez⟩ := C28_add_partial ho.2.2 x y (by simp)
    exact ⟨z, by rw [Ex.run, hx, res_bind_ok, hy, res_bind_ok]; exact hz, by rw [ez, ex, ey], fun hc => NoSpare.clean hn hc _⟩
  | _, .sub a b, ho, v, hv => by
    simp only [Ex.den, Option.bind_eq_some_iff, Option.map_eq_some_iff] at hv
    obtain ⟨u, hu, w, hw, rfl⟩ := hv
    obtain ⟨x, hx, ex, cx⟩ := C114_expr σ ρ h a ho.1 u hu
    obtain ⟨y, hy, ey, cy⟩ := C114_expr σ ρ h b ho.2 w hw
    have hn := (Ex.Ok.width ho.1).1
    obtain ⟨z, hz, ez⟩ := C29_sub_partial hn x y (by simp)
    exact ⟨z, by rw [Ex.run, hx, res_bind_ok, hy, res_bind_ok]; exact hz, by rw [ez, ex, ey], fun hc => NoSpare.clean hn hc _⟩
  | n, .mul a b, ho, v, hv => by
    simp only [Ex.den, Option.bind_eq_some_iff, Option.map_eq_some_iff] at hv
    obtain ⟨u, hu, w, hw, rfl⟩ := hv
    obtain ⟨ha, hb, hs⟩ := ho
    obtain ⟨x, hx, ex, cx⟩ := C114_expr σ ρ h a ha u hu
    obtain ⟨y, hy, ey, cy⟩ := C114_expr σ ρ h b hb w hw
    have hn := (Ex.Ok.width ha).1
    obtain ⟨z, hz, ez⟩ := C30_mul_partial hn x y (fun _ _ h1 h2 => by omega) (by simp) (fun h1 => by omega)
    exact ⟨z, by rw [Ex.run, hx, res_bind_ok, hy, res_bind_ok]; exact hz, by rw [ez, ex, ey], fun hc => NoSpare.clean hn hc _⟩
  | n, .div a b, ho, v, hv => by
    simp only [Ex.den, Option.bind_eq_some_iff] at hv
    obtain ⟨u, hu, w, hw, hv⟩ := hv
    obtain ⟨ha, hb, ka, kb, hs⟩ := ho
    obtain ⟨x, hx, ex, cx⟩ := C114_expr σ ρ h a ha u hu
    obtain ⟨y, hy, ey, cy⟩ := C114_expr σ ρ h b hb w hw
    have hn := (Ex.Ok.width ha).1
    split_ifs at hv with h0
    simp only [Option.some.injEq] at hv
    obtain ⟨⟨q, hq, cq, eq⟩, -⟩ := Bits.div_native hs hn (cx ka) (cy kb) (by rw [ey]; exact h0)
    refine ⟨q, by rw [Ex.run, hx, res_bind_ok, hy, res_bind_ok]; exact hq, ?_, fun _ => cq⟩
    apply BitVec.eq_of_toNat_eq
    rw [← hv, BitVec.toNat_udiv, ← ex, ← ey, eq]
  | n, .mod a b, ho, v, hv => by
    simp only [Ex.den, Option.bind_eq_some_iff] at hv
    obtain ⟨u, hu, w, hw, hv⟩ := hv
    obtain ⟨ha, hb, ka, kb, hs⟩ := ho
    obtain ⟨x, hx, ex, cx⟩ := C114_expr σ ρ h a ha u hu
    obtain ⟨y, hy, ey, cy⟩ := C114_expr σ ρ h b hb w hw
    have hn := (Ex.Ok.width ha).1
    split_ifs at hv with h0
    simp only [Option.some.injEq] at hv
    obtain ⟨-, ⟨q, hq, cq, eq⟩⟩ := Bits.div_native hs hn (cx ka) (cy kb) (by rw [ey]; exact h0)
    refine ⟨q, by rw [Ex.run, hx, res_bind_ok, hy, res_bind_ok]; exact hq, ?_, fun _ => cq⟩
    apply BitVec.eq_of_toNat_eq
    rw [← hv, BitVec.toNat_umod, ← ex, ← ey, eq]
  | n, .shr (m := m) a k, ho, v, hv => by
    simp only [Ex.den, Option.bind_eq_some_iff] at hv
    obtain ⟨u, hu, w, hw, hv⟩ := hv
    obtain ⟨ha, hb, kb, hs⟩ := ho
    obtain ⟨x, hx, ex, cx⟩ := C114_expr σ ρ h a ha u hu
    obtain ⟨y, hy, ey, cy⟩ := C114_expr σ ρ h k hb w hw
    have hn := Ex.Ok.width ha
    split_ifs at hv with h0
    simp only [Option.some.injEq] at hv
    have hk : numOf false y.bv = (y.bv.toNat : Nat) := by simp [numOf]
    rw [← ey] at h0 hv
    have hr : n ≤ 64 → m ≤ 64 ∧ y.bv.toNat < n := fun h64 => ⟨hs h64, by omega⟩
    obtain ⟨z, hz, ez⟩ := C24_shr_partial hn.1 (by omega) x y (cy kb) y.bv.toNat hk hr
    refine ⟨z, by rw [Ex.run, hx, res_bind_ok, hy, res_bind_ok]; exact hz, by rw [ez, ← hv, ex], fun _ => ?_⟩
    by_cases h64 : n ≤ 64
    · obtain ⟨hm, hk2⟩ := hr h64
      obtain ⟨z', hz', hraw⟩ := Bits.shr_native h64 hn.1 hm x y (Bits.amount_native hm (cy kb) hk) hk2
      rw [hz] at hz'
      injection hz' with hz'
      subst hz'
      refine (Bits.clean_unsigned_iff z).2 fun i hi => ?_
      rw [hraw]; simp; omega
    · obtain ⟨z', hz', hc, _⟩ := Bits.shr_wide h64 (by omega) x (cy kb) hk
      rw [hz] at hz'
      injection hz' with hz'
      subst hz'
      exact hc
  | n, .shl (m := m) a k, ho, v, hv => by
    simp only [Ex.den, Option.bind_eq_some_iff] at hv
    obtain ⟨u, hu, w, hw, hv⟩ := hv
    obtain ⟨ha, hb, kb, hs⟩ := ho
    obtain ⟨x, hx, ex, cx⟩ := C114_expr σ ρ h a ha u hu
    obtain ⟨y, hy, ey, cy⟩ := C114_expr σ ρ h k hb w hw
    have hn := Ex.Ok.width ha
    rw [← ey] at hv
    have hk : numOf false y.bv = (y.bv.toNat : Nat) := by simp [numOf]
    by_cases h0 : n ≤ 64 ∧ (if n ≤ 32 then 32 else 64) ≤ y.bv.toNat
    · rw [if_pos h0] at hv; exact absurd hv (by simp)
    rw [if_neg h0] at hv
    simp only [Option.some.injEq] at hv
    obtain ⟨z, hz, ez⟩ := C25_shl_partial (by omega) x y (cy kb) y.bv.toNat hk
      (fun h64 => ⟨(hs h64).1, (hs h64).2, by rw [not_and, not_le] at h0; exact h0 h64⟩)
    refine ⟨z, by rw [Ex.run, hx, res_bind_ok, hy, res_bind_ok]; exact hz, by rw [ez, ← hv, ex], fun hc => ?_⟩
    rcases hc with hc | hc
    · obtain ⟨z', hz', hcl, _⟩ := Bits.shl_wide (by omega) (by omega) x (cy kb) hk
      rw [hz] at hz'
      injection hz' with hz'
      subst hz'
      exact hcl
    · exact NoSpare.clean hn.1 hc _
  | _, .ext m a, ho, v, hv => by
    simp only [Ex.den, Option.map_eq_some_iff] at hv
    obtain ⟨u, hu, rfl⟩ := hv
    obtain ⟨ha, ka, hm, -⟩ := ho
    obtain ⟨x, hx, e, cx⟩ := C114_expr σ ρ h a ha u hu
    obtain ⟨h1, h2, h3⟩ := C47_zero_extend_partial (Ex.Ok.width ha).1 hm x (cx ka)
    refine ⟨x.extend m, by rw [Ex.run, hx]; rfl, ?_, fun _ => h1⟩
    apply BitVec.eq_of_toNat_eq
    rw [h2, BitVec.toNat_setWidth_of_le hm, e]
  | _, .slice i j a, ho, v, hv => by
    simp only [Ex.den, Option.map_eq_some_iff] at hv
    obtain ⟨u, hu, rfl⟩ := hv
    obtain ⟨ha, hi, hj, hd⟩ := ho
    obtain ⟨x, hx, e, cx⟩ := C114_expr σ ρ h a ha u hu
    obtain ⟨z, hz, cz, ez⟩ := C49_slice x i j hi hj hd
    refine ⟨z, by rw [Ex.run, hx, res_bind_ok, hz], ?_, fun _ => cz⟩
    apply BitVec.eq_of_getLsbD_eq
    intro k hk
    rw [ez k (by omega), BitVec.getLsbD_extractLsb', e]
    simp [hk]
  | _, .cat a b, ho, v, hv => by
    simp only [Ex.den, Option.bind_eq_some_iff, Option.map_eq_some_iff] at hv
    obtain ⟨u, hu, w, hw, rfl⟩ := hv
    obtain ⟨ha, hb, ka, kb, h64, hs⟩ := ho
    obtain ⟨x, hx, ex, cx⟩ := C114_expr σ ρ h a ha u hu
    obtain ⟨y, hy, ey, cy⟩ := C114_expr σ ρ h b hb w hw
    obtain ⟨z, hz, cz, ez⟩ := C52_concat_partial (Ex.Ok.width ha).1 (Ex.Ok.width hb).1 h64 hs x y (cx ka) (cy kb)
    exact ⟨z, by rw [Ex.run, hx, res_bind_ok, hy, res_bind_ok, dif_pos h64, hz], by rw [ez, ex, ey], fun _ => cz⟩
  | _, .eq a b, ho, v, hv => by
    simp only [Ex.den, Option.bind_eq_some_iff, Option.map_eq_some_iff] at hv
    obtain ⟨u, hu, w, hw, rfl⟩ := hv
    obtain ⟨ha, hb, ka, kb⟩ := ho
    obtain ⟨x, hx, ex, cx⟩ := C114_expr σ ρ h a ha u hu
    obtain ⟨y, hy, ey, cy⟩ := C114_expr σ ρ h b hb w hw
    obtain ⟨h1, h2⟩ := Bits.ofInt_bool (x.eq y)
    refine ⟨_, by rw [Ex.run, hx, res_bind_ok, hy]; rfl, ?_, fun _ => h1⟩
    rw [h2, Bits.eq_clean (Ex.Ok.width ha).1 (by simp) (cx ka) (cy kb), ex, ey]
    simp
  | _, .lt a b, ho, v, hv => by
    simp only [Ex.den, Option.bind_eq_some_iff, Option.map_eq_some_iff] at hv
    obtain ⟨u, hu, w, hw, rfl⟩ := hv
    obtain ⟨ha, hb, ka, kb⟩ := ho
    obtain ⟨x, hx, ex, cx⟩ := C114_expr σ ρ h a ha u hu
    obtain ⟨y, hy, ey, cy⟩ := C114_expr σ ρ h b hb w hw
    obtain ⟨h1, h2⟩ := Bits.ofInt_bool (decide (x.bv.toNat < y.bv.toNat))
    refine ⟨_, by rw [Ex.run, hx, res_bind_ok, hy, res_bind_ok, (C40_gt_lt Iff.rfl x y (cx ka) (cy kb)).2]; rfl, ?_, fun _ => h1⟩
    rw [h2, ex, ey]; rfl
  | _, .le a b, ho, v, hv => by
    simp only [Ex.den, Option.bind_eq_some_iff, Option.map_eq_some_iff] at hv
    obtain ⟨u, hu, w, hw, rfl⟩ := hv
    obtain ⟨ha, hb, ka, kb⟩ := ho
    obtain ⟨x, hx, ex, cx⟩ := C114_expr σ ρ h a ha u hu
    obtain ⟨y, hy, ey, cy⟩ := C114_expr σ ρ h b hb w hw
    obtain ⟨h1, h2⟩ := Bits.ofInt_bool (decide (x.bv.toNat ≤ y.bv.toNat))
    refine ⟨_, by rw [Ex.run, hx, res_bind_ok, hy, res_bind_ok,
      (C40_ge_le_partial Iff.rfl x y (cx ka) (cy kb) (fun _ => Or.inl rfl)).2]; rfl, ?_, fun _ => h1⟩
    rw [h2, ex, ey]; rfl
  | _, .cond c a b, ho, v, hv => by
    simp only [Ex.den, Option.bind_eq_some_iff] at hv
    obtain ⟨t, ht, hv⟩ := hv
    obtain ⟨hc, ha, hb⟩ := ho
    obtain ⟨x, hx, ex, -⟩ := C114_expr σ ρ h c hc t ht
    have hb1 : x.toBool = decide (t = 1) := by rw [Bits.toBool_one, ex]
    by_cases h1 : t = 1
    · rw [if_pos h1] at hv
      obtain ⟨y, hy, ey, cy⟩ := C114_expr σ ρ h a ha v hv
      exact ⟨y, by rw [Ex.run, hx, res_bind_ok, hb1, if_pos (by simpa using h1), hy], ey, fun k => cy k.1⟩
    · rw [if_neg h1] at hv
      obtain ⟨y, hy, ey, cy⟩ := C114_expr σ ρ h b hb v hv
      exact ⟨y, by rw [Ex.run, hx, res_bind_ok, hb1, if_neg (by simpa using h1), hy], ey, fun k => cy k.2⟩

/-- the hypotheses of C114 and C116 are met by every choice of reference values -/
theorem Agree.exists (ρ : Vals) : ∃ σ, Agree σ ρ :=
  ⟨fun n i => Classical.choose (Bits.exists_clean (s := false) (ρ n i)),
    fun n i => Classical.choose_spec (Bits.exists_clean (s := false) (ρ n i))⟩

-- `(((~a + b) * 3).slice<19, 4>() >> c).concat(a < b)`, 20-bit `a` and `b`, 4-bit `c`
example : ∃ (e : Ex 17) (ρ : Vals) (v : BitVec 17), e.Ok ∧ e.Canon ∧ e.den ρ = some v ∧ v.toNat = 383 := by
  refine ⟨.cat (.shr (.slice 19 4 (.mul (.add (.not (.var 20 0)) (.var 20 1)) (.lit 3))) (.var 4 0))
    (.lt (.var 20 0) (.var 20 1)), fun n i => if n = 4 then BitVec.ofNat n 2 else if i = 0 then BitVec.ofNat n 0x5ffff else
    BitVec.ofNat n 0x60fff, _, by simp only [Ex.Ok, Ex.Canon]; decide, trivial, rfl, by decide +kernel⟩

/-! ## C116: statements -/

/-- `ρ` with variable `i` of width `n` replaced -/
def Vals.put (ρ : Vals) (n i : Nat) (v : BitVec n) : Vals := fun m j =>
  if h : m = n then (if j = i then h ▸ v else ρ m j) else ρ m j

/-- `x` with its `w` bits from `lo` on replaced by the low bits of `v` -/
def splice (x : BitVec n) (lo w : Nat) (v : BitVec m) : BitVec n :=
  (x &&& ~~~ ((BitVec.allOnes w).setWidth n <<< lo)) ||| ((v.setWidth w).setWidth n <<< lo)

theorem getLsbD_splice (x : BitVec n) (lo w : Nat) (v : BitVec m) (j : Nat) (hj : j < n) :
    (splice x lo w v).getLsbD j = if lo ≤ j ∧ j < lo + w then v.getLsbD (j - lo) else x.getLsbD j := by
  rw [splice, BitVec.getLsbD_or, BitVec.getLsbD_and, BitVec.getLsbD_not, BitVec.getLsbD_shiftLeft,
    BitVec.getLsbD_shiftLeft, BitVec.getLsbD_setWidth, BitVec.getLsbD_setWidth, BitVec.getLsbD_setWidth,
    BitVec.getLsbD_allOnes]
  by_cases h1 : lo ≤ j
  · by_cases h2 : j < lo + w
    · have e1 : j - lo < w := by omega
      have e2 : j - lo < n := by omega
      have e3 : ¬ j < lo := by omega
      simp [h1, h2, hj, e1, e2, e3]
    · have e1 : ¬ j - lo < w := by omega
      simp [h2, hj, e1]
  · have e3 : j < lo := by omega
    simp [h1, hj, e3]

namespace St

/-- **Reference semantics of statements** on bit vectors, for at most `fuel` nested
steps: `none` when the fuel is used up, `some none` when an expression is undefined. -/
def den : Nat → St → Vals → Option (Option Vals)
  | 0, _, _ => none
  | _ + 1, .skip, ρ => some (some ρ)
  | _ + 1, .assign n i e, ρ => some ((e.den ρ).map fun v => ρ.put n i v)
  | _ + 1, .setBit n i p c, ρ => some ((c.den ρ).map fun v =>
      ρ.put n i (splice (ρ n i) p 1 v))
  | _ + 1, .part n i hi lo e, ρ => some ((e.den ρ).map fun v =>
      ρ.put n i (splice (ρ n i) (min hi lo) (max hi lo - min hi lo + 1) v))
  | f + 1, .seq a b, ρ =>
      match den f a ρ with
      | none => none
      | some none => some none
      | some (some ρ') => den f b ρ'
  | f + 1, .ite c a b, ρ =>
      match c.den ρ with
      | none => some none
      | some v => if v = 1 then den f a ρ else den f b ρ
  | f + 1, .loop c a, ρ =>
      match c.den ρ with
      | none => some none
      | some v =>
        if v = 1 then
          match den f a ρ with
          | none => none
          | some none => some none
          | some (some ρ') => den f (.loop c a) ρ'
        else some (some ρ)

/-- Well-formed programs: every expression is well-formed, assigned expressions are
canonical, indices are in range, a part-select gets a value at least as wide (or a
wide one). -/
def Ok : St → Prop
  | .skip => True
  | .assign _ _ e => e.Ok ∧ e.Canon
  | .setBit n _ p c => n ≤ 2 ^ 31 ∧ p < n ∧ c.Ok
  | .part n _ (m := m) hi lo e => n ≤ 2 ^ 31 ∧ hi < n ∧ lo < n ∧ e.Ok ∧ (max hi lo - min hi lo < m ∨ 64 < m)
  | .seq a b => Ok a ∧ Ok b
  | .ite c a b => c.Ok ∧ Ok a ∧ Ok b
  | .loop c a => c.Ok ∧ Ok a

end St

theorem Agree.put {σ : Objs} {ρ : Vals} (h : Agree σ ρ) (n i : Nat) {x : Bits n false} {v : BitVec n}
    (hc : x.Clean) (e : x.bv = v) : Agree (σ.put n i x) (ρ.put n i v) := by
  intro m j
  by_cases hm : m = n
  · subst hm
    by_cases hj : j = i
    · subst hj
      simp only [Objs.put, Vals.put, dif_pos, if_true]
      exact ⟨hc, e⟩
    · simp only [Objs.put, Vals.put, dif_pos, if_neg hj]
      exact h m j
  · simp only [Objs.put, Vals.put, dif_neg hm]
    exact h m j

theorem one_toBool {x : Bits 1 false} {v : BitVec 1} (e : x.bv = v) : x.toBool = true ↔ v = 1 := by
  rw [Bits.toBool_one, e]; simp

/-- **C116.** A well-formed program, run for any number of steps from canonical
objects: whenever its reference execution on bit vectors ends (with nothing
undefined), the library execution ends as well without a fault, in the
same number of steps, and every variable of the final state is canonical and holds
the reference value. -/
theorem C116_program : (fuel : Nat) → (p : St) → (σ : Objs) → (ρ ρ' : Vals) → Agree σ ρ → p.Ok →
    p.den fuel ρ = some (some ρ') → ∃ σ', p.run fuel σ = some (.ok σ') ∧ Agree σ' ρ'
  | 0, _, _, _, _, _, _, hd => by simp [St.den] at hd
  | _ + 1, .skip, σ, ρ, ρ', h, _, hd => by
    simp only [St.den, Option.some.injEq] at hd
    exact ⟨σ, rfl, hd ▸ h⟩
  | _ + 1, .assign n i e, σ, ρ, ρ', h, ho, hd => by
    simp only [St.den, Option.some.injEq, Option.map_eq_some_iff] at hd
    obtain ⟨v, hv, rfl⟩ := hd
    obtain ⟨x, hx, ex, cx⟩ := C114_expr σ ρ h e ho.1 v hv
    exact ⟨σ.put n i x, by rw [St.run, hx]; rfl, h.put n i (cx ho.2) ex⟩
  | _ + 1, .setBit n i p c, σ, ρ, ρ', h, ho, hd => by
    simp only [St.den, Option.some.injEq, Option.map_eq_some_iff] at hd
    obtain ⟨v, hv, rfl⟩ := hd
    obtain ⟨hN, hp, hc⟩ := ho
    obtain ⟨x, hx, ex, -⟩ := C114_expr σ ρ h c hc v hv
    have hn : 0 < n := by omega
    obtain ⟨y, hy, hr⟩ := Bits.setBit_phys (Rng.down n) (σ n i) p p (Bits.physIdx_down hn p) (Rng.lo_down hn) hp
      (by omega) x.toBool
    refine ⟨σ.put n i y, by rw [St.run, hx, res_bind_ok, hy]; rfl, h.put n i ?_ ?_⟩
    · have hcl := (Bits.clean_unsigned_iff _).1 (h n i).1
      refine (Bits.clean_unsigned_iff _).2 fun j hj => ?_
      rw [hr, if_neg (by omega)]; exact hcl j hj
    · apply BitVec.eq_of_getLsbD_eq
      intro j hj
      rw [getLsbD_splice _ _ _ _ _ hj, ← (h n i).2, Bits.getLsbD_bv, Bits.getLsbD_bv, hr]
      by_cases e : j = p
      · subst e
        rw [if_pos rfl, if_pos (by omega), Bits.toBool_one, ex]
        simp only [hj, Nat.sub_self]
        exact (by decide : ∀ v : BitVec 1, (decide True && decide (v = 1)) = v.getLsbD 0) v
      · rw [if_neg e, if_neg (by omega)]
  | _ + 1, .part n i (m := m) hi lo e, σ, ρ, ρ', h, ho, hd => by
    simp only [St.den, Option.some.injEq, Option.map_eq_some_iff] at hd
    obtain ⟨v, hv, rfl⟩ := hd
    obtain ⟨hN, hhi, hlo, he, hk⟩ := ho
    obtain ⟨x, hx, ex, -⟩ := C114_expr σ ρ h e he v hv
    have hw := Ex.Ok.width he
    obtain ⟨y, hy, ey, cy⟩ := C57_update_rt_partial (by omega) hw.1 hN hw.2 (σ n i) x hi lo hhi hlo hk
    refine ⟨σ.put n i y, by rw [St.run, hx, res_bind_ok, hy]; rfl, h.put n i (cy rfl (h n i).1) ?_⟩
    apply BitVec.eq_of_getLsbD_eq
    intro j hj
    rw [ey j hj, getLsbD_splice _ _ _ _ _ hj, ex, (h n i).2]
    congr 1
    simp only [eq_iff_iff]
    omega
  | f + 1, .seq a b, σ, ρ, ρ', h, ho, hd => by
    simp only [St.den] at hd
    match hr : St.den f a ρ with
    | none => rw [hr] at hd; simp at hd
    | some none => rw [hr] at hd; simp at hd
    | some (some ρ1) =>
      rw [hr] at hd
      obtain ⟨σ1, h1, a1⟩ := C116_program f a σ ρ ρ1 h ho.1 hr
      obtain ⟨σ2, h2, a2⟩ := C116_program f b σ1 ρ1 ρ' a1 ho.2 hd
      exact ⟨σ2, by rw [St.run, h1]; exact h2, a2⟩
  | f + 1, .ite c a b, σ, ρ, ρ', h, ho, hd => by
    simp only [St.den] at hd
    match hr : c.den ρ with
    | none => rw [hr] at hd; simp at hd
    | some v =>
      rw [hr] at hd
      obtain ⟨x, hx, ex, -⟩ := C114_expr σ ρ h c ho.1 v hr
      have hb := one_toBool ex
      by_cases h1 : v = 1
      · simp only [if_pos h1] at hd
        obtain ⟨σ2, h2, a2⟩ := C116_program f a σ ρ ρ' h ho.2.1 hd
        exact ⟨σ2, by rw [St.run, hx]; simp only [hb.2 h1, if_true]; exact h2, a2⟩
      · simp only [if_neg h1] at hd
        obtain ⟨σ2, h2, a2⟩ := C116_program f b σ ρ ρ' h ho.2.2 hd
        exact ⟨σ2, by rw [St.run, hx]; simp only [if_neg (fun q => h1 (hb.1 q))]; exact h2, a2⟩
  | f + 1, .loop c a, σ, ρ, ρ', h, ho, hd => by
    simp only [St.den] at hd
    match hr : c.den ρ with
    | none => rw [hr] at hd; simp at hd
    | some v =>
      rw [hr] at hd
      obtain ⟨x, hx, ex, -⟩ := C114_expr σ ρ h c ho.1 v hr
      have hb := one_toBool ex
      by_cases h1 : v = 1
      · simp only [if_pos h1] at hd
        match hr1 : St.den f a ρ with
        | none => rw [hr1] at hd; simp at hd
        | some none => rw [hr1] at hd; simp at hd
        | some (some ρ1) =>
          rw [hr1] at hd
          obtain ⟨σ1, e1, a1⟩ := C116_program f a σ ρ ρ1 h ho.2 hr1
          obtain ⟨σ2, h2, a2⟩ := C116_program f (.loop c a) σ1 ρ1 ρ' a1 ho hd
          exact ⟨σ2, by rw [St.run, hx]; simp only [hb.2 h1, if_true, e1]; exact h2, a2⟩
      · simp only [if_neg h1, Option.some.injEq] at hd
        exact ⟨σ, by rw [St.run, hx]; simp only [if_neg (fun q => h1 (hb.1 q))], hd ▸ h⟩

/-- the body of the loop below -/
def mulBody (n : Nat) : St :=
  .seq (.ite (.slice 0 0 (.var n 1))
    (.assign n 2 (.and (.add (.var n 2) (.var n 0)) (.add (.var n 2) (.var n 0)))) .skip)
  (.seq (.assign n 0 (.shl (.var n 0) (.lit 1#8))) (.assign n 1 (.shr (.var n 1) (.lit 1#8))))

/-- shift-and-add multiplication of two variables into a third:
`while (b > 0) { if (b[0]) acc = (acc + a) & (acc + a); a = a << 1; b = b >> 1; }`;
the `&` brings a wide sum into canonical form -/
def mulProgram (n : Nat) : St := .loop (.lt (.ext n (.lit 0#1)) (.var n 1)) (mulBody n)

theorem mulProgram_ok (h : 64 < n) (hN : n ≤ 2 ^ 31) : (mulProgram n).Ok := by
  simp only [mulProgram, mulBody, St.Ok, Ex.Ok, Ex.Canon]
  refine ⟨?_, ?_, ?_, ?_⟩ <;> simp <;> omega

theorem mul_halves (hn : 1 < n) (a b : BitVec n) :
    (if b.getLsbD 0 = true then a else 0) + (a <<< 1) * (b >>> 1) = a * b := by
  have ha : a <<< 1 = a + a := by
    apply BitVec.eq_of_toNat_eq
    simp [BitVec.toNat_shiftLeft, Nat.shiftLeft_eq]
    congr 1; omega
  have hb : b = (b >>> 1) + (b >>> 1) + (if b.getLsbD 0 = true then 1 else 0) := by
    apply BitVec.eq_of_toNat_eq
    have hl := b.isLt
    have h1 : (1 : Nat) % 2 ^ n = 1 := Nat.mod_eq_of_lt (Nat.one_lt_two_pow (by omega))
    have ht : b.getLsbD 0 = decide (b.toNat % 2 = 1) := by
      rw [BitVec.getLsbD, Nat.testBit_zero]
    rw [ht]
    by_cases hr : b.toNat % 2 = 1
    · simp only [hr, decide_true, if_true]
      simp [Nat.shiftRight_eq_div_pow]
      rw [Nat.mod_eq_of_lt] <;> omega
    · simp only [hr, decide_false]
      simp [Nat.shiftRight_eq_div_pow]
      rw [Nat.mod_eq_of_lt] <;> omega
  conv_rhs => rw [hb]
  rw [ha]
  split_ifs
  · ring
  · ring

theorem bit0_iff (b : BitVec n) : BitVec.extractLsb' 0 (max 0 0 - min 0 0 + 1) b = 1#1 ↔ b.getLsbD 0 = true := by
  constructor
  · intro h
    have := congrArg (fun v : BitVec 1 => v.getLsbD 0) h
    simpa using this
  · intro h
    apply BitVec.eq_of_getLsbD_eq
    intro i hi
    have : i = 0 := by omega
    subst this
    simpa using h

theorem mulBody_den (h : 64 < n) (k : Nat) (ρ ρ1 : Vals)
    (h1 : ρ1 = if (ρ n 1).getLsbD 0 = true then ρ.put n 2 (ρ n 2 + ρ n 0) else ρ) :
    (mulBody n).den (k + 5) ρ =
      some (some ((ρ1.put n 0 (ρ1 n 0 <<< 1)).put n 1 ((ρ1.put n 0 (ρ1 n 0 <<< 1)) n 1 >>> 1))) := by
  have e1 : ¬ n ≤ 64 := by omega
  subst h1
  by_cases hl : (ρ n 1).getLsbD 0 = true
  · have := (bit0_iff _).2 hl
    simp [mulBody, St.den, Ex.den, this, hl, e1]
  · have : ¬ _ := fun e => hl ((bit0_iff _).1 e)
    simp [mulBody, St.den, Ex.den, this, hl, e1]

theorem mulProgram_den (h : 64 < n) : ∀ (k : Nat) (ρ : Vals), (ρ n 1).toNat < 2 ^ k →
    ∃ ρ', (mulProgram n).den (k + 5) ρ = some (some ρ') ∧ ρ' n 2 = ρ n 2 + ρ n 0 * ρ n 1 := by
  intro k
  induction k with
  | zero =>
    intro ρ hb
    have h0 : ρ n 1 = 0 := BitVec.eq_of_toNat_eq (by simp; omega)
    refine ⟨ρ, ?_, by rw [h0]; simp⟩
    simp [mulProgram, St.den, Ex.den, h0]
  | succ k ih =>
    intro ρ hb
    by_cases h0 : ρ n 1 = 0
    · refine ⟨ρ, ?_, by rw [h0]; simp⟩
      simp [mulProgram, St.den, Ex.den, h0]
    have hpos : (0#n < ρ n 1) := by
      rw [BitVec.lt_def]
      have : (ρ n 1).toNat ≠ 0 := fun e => h0 (BitVec.eq_of_toNat_eq (by simpa using e))
      simp; omega
    have hstep : ∀ ρ1 : Vals, ρ1 n 0 = ρ n 0 → ρ1 n 1 = ρ n 1 →
        ρ1 n 2 = ρ n 2 + (if (ρ n 1).getLsbD 0 = true then ρ n 0 else 0) →
        ∃ ρ', (mulProgram n).den (k + 5) ((ρ1.put n 0 (ρ1 n 0 <<< 1)).put n 1 ((ρ1.put n 0 (ρ1 n 0 <<< 1)) n 1 >>> 1)) =
          some (some ρ') ∧ ρ' n 2 = ρ n 2 + ρ n 0 * ρ n 1 := by
      intro ρ1 e0 e1 e2
      obtain ⟨ρ', hd, e⟩ := ih ((ρ1.put n 0 (ρ1 n 0 <<< 1)).put n 1 ((ρ1.put n 0 (ρ1 n 0 <<< 1)) n 1 >>> 1)) (by
        simp only [Vals.put, dif_pos, if_true]
        simp [e1, Nat.shiftRight_eq_div_pow]
        omega)
      refine ⟨ρ', hd, ?_⟩
      rw [e]
      simp only [Vals.put, dif_pos]
      simp [e0, e1, e2]
      rw [add_assoc]
      congr 1
      exact mul_halves (by omega) _ _
    have hloop : ∀ ρ1, (mulBody n).den (k + 5) ρ = some (some ρ1) →
        (mulProgram n).den (k + 1 + 5) ρ = (mulProgram n).den (k + 5) ρ1 := by
      intro ρ1 hb
      rw [mulProgram, show k + 1 + 5 = (k + 5) + 1 from rfl, St.den]
      simp [Ex.den, hpos, hb]
    by_cases hl : (ρ n 1).getLsbD 0 = true
    · obtain ⟨ρ', hd, e⟩ := hstep (ρ.put n 2 (ρ n 2 + ρ n 0)) (by simp [Vals.put]) (by simp [Vals.put])
        (by simp [Vals.put, hl])
      exact ⟨ρ', by rw [hloop _ (mulBody_den h k ρ _ (by rw [if_pos hl])), hd], e⟩
    · obtain ⟨ρ', hd, e⟩ := hstep ρ rfl rfl (by simp [hl])
      exact ⟨ρ', by rw [hloop _ (mulBody_den h k ρ _ (by rw [if_neg hl])), hd], e⟩

/-- **C116 used:** the client's multiplication loop, on library objects of any wide
width, ends after at most `n` iterations with the product modulo `2^n` in `acc`, for all
operands; the library's own wide `*` does not achieve this (`C30_refuted`). -/
theorem C116_multiply (h : 64 < n) (hN : n ≤ 2 ^ 31) (σ : Objs) (hc : ∀ n i, (σ n i).Clean)
    (h0 : (σ n 2).bv = 0) :
    ∃ σ', (mulProgram n).run (n + 5) σ = some (.ok σ') ∧
      (σ' n 2).bv = (σ n 0).bv * (σ n 1).bv ∧
      ∀ i, i < n → (σ' n 2).get (Rng.down n) i = .ok (((σ n 0).bv * (σ n 1).bv).getLsbD i) := by
  obtain ⟨ρ', hd, e⟩ := mulProgram_den h n (fun m j => (σ m j).bv) (by exact BitVec.isLt _)
  obtain ⟨σ', hr, ha⟩ := C116_program (n + 5) (mulProgram n) σ _ ρ' (fun m j => ⟨hc m j, rfl⟩) (mulProgram_ok h hN) hd
  have hv : (σ' n 2).bv = (σ n 0).bv * (σ n 1).bv := by
    rw [(ha n 2).2, e, h0]; exact BitVec.zero_add _
  refine ⟨σ', hr, hv, fun i hi => ?_⟩
  rw [C01_read (by omega) (by omega) _ i hi, hv]

-- 3^40 * 3^20 at 100 bits
example : (((mulProgram 100).run 50 (fun n i => if h : n = 100 then
      h ▸ (if i = 0 then .big (by decide) (Big.ofU64 12157665459056928801) else if i = 1 then
        .big (by decide) (Big.ofU64 3486784401) else Bits.zero) else Bits.zero)).map
    fun r => r.map fun σ => (σ 100 2).bv) = some (.ok (BitVec.ofNat 100 (3 ^ 60))) := by
  decide +kernel

end Verif
