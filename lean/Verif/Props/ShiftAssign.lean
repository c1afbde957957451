import Verif.Props.Shift
import Verif.Model.Static
import Verif.Show

/-!
# Compound shift assignments (C106)
-/

namespace Verif
variable {n m : Nat} {s t : Bool}

/-- one statement `x <<= amount` or `x >>= amount` -/
structure ShiftStmt where
  left : Bool
  m : Nat
  t : Bool
  amount : Bits m t

/-- its effect on a variable -/
def ShiftStmt.run (x : Bits n s) (o : ShiftStmt) : Res (Bits n s) :=
  if o.left then x.shlAssign o.amount else x.shrAssign o.amount

/-- the amount as a number -/
def ShiftStmt.num (o : ShiftStmt) : Int := numOf o.t o.amount.bv

/-- the statement compiles and its amount is in the domain of C24/C25 -/
structure ShiftStmt.Ok (o : ShiftStmt) (n : Nat) (s : Bool) : Prop where
  sign : s = true → o.t = true
  clean : o.amount.Clean
  nonneg : 0 ≤ o.num
  native : n ≤ 64 → o.m ≤ 64 ∧ 1 < n ∧ o.num < if o.left then (if n ≤ 32 then 32 else 64) else n

/-- what the statement means for the bits -/
def ShiftStmt.spec (b : BitVec n) (o : ShiftStmt) : BitVec n :=
  if o.left then b <<< o.num.toNat else b >>> o.num.toNat

theorem ShiftStmt.run_ok (hn : 0 < n) (hN : n ≤ 2 ^ 32) (x : Bits n s) (o : ShiftStmt) (h : o.Ok n s) :
    ∃ z, o.run x = .ok z ∧ z.bv = o.spec x.bv := by
  have hg : (s && !o.t) = false := by
    cases hs : s
    · rfl
    · rw [h.sign hs]; rfl
  have hnum : numOf o.t o.amount.bv = (o.num.toNat : Int) := (Int.toNat_of_nonneg h.nonneg).symm
  rw [run, spec]
  by_cases hl : o.left
  · rw [if_pos hl, if_pos hl]
    obtain ⟨z, hz, hb⟩ := C25_shl_partial hN x o.amount h.clean o.num.toNat hnum (fun h64 => by
      have := h.native h64
      rw [if_pos hl] at this
      refine ⟨this.1, this.2.1, ?_⟩
      have h2 := this.2.2
      split_ifs at h2 ⊢ <;> omega)
    refine ⟨z.toSign s, ?_, by rw [Bits.bv_toSign, hb]⟩
    rw [Bits.shlAssign, hg, hz]; rfl
  · rw [if_neg hl, if_neg hl]
    obtain ⟨z, hz, hb⟩ := C24_shr_partial hn hN x o.amount h.clean o.num.toNat hnum (fun h64 => by
      have := h.native h64
      rw [if_neg hl] at this
      exact ⟨this.1, by omega⟩)
    refine ⟨z.toSign s, ?_, by rw [Bits.bv_toSign, hb]⟩
    rw [Bits.shrAssign, hg, hz]; rfl

/-- **C106, 2-state, partial.** Any sequence of `<<=` and `>>=` on a variable leaves the bits of
the same sequence of shifts. Missing: amounts and widths outside the domain of C24 and C25
(`C106_refuted`). -/
theorem C106_shift_assign_partial (hn : 0 < n) (hN : n ≤ 2 ^ 32) :
    ∀ (os : List ShiftStmt) (x : Bits n s), (∀ o ∈ os, o.Ok n s) →
    ∃ z, os.foldlM ShiftStmt.run x = .ok z ∧ z.bv = os.foldl ShiftStmt.spec x.bv
  | [], x, _ => ⟨x, rfl, rfl⟩
  | o :: os, x, h => by
    obtain ⟨y, hy, hb⟩ := o.run_ok hn hN x (h o (by simp))
    obtain ⟨z, hz, hzb⟩ := C106_shift_assign_partial hn hN os y (fun o' ho => h o' (by simp [ho]))
    refine ⟨z, ?_, by rw [hzb, hb]; rfl⟩
    rw [List.foldlM_cons, hy]
    exact hz

theorem Lg.at_toSign (x : Lg n s) (i : Nat) : (x.toSign t).at i = x.at i := by
  rw [Lg.at, Lg.at]
  show V4.mk ((x.value.toSign t).bv.getLsbD i) (x.xz.bv.getLsbD i) = _
  rw [Bits.bv_toSign]

/-- **C106, 4-state, partial.** `<<=` and `>>=` of a known value by a known amount move the
bits; an x or z in either operand, in a native value or in the lower half of a 64 bit chunk,
makes the variable all x. Missing: as for C24, C25 and C27. -/
theorem C106_shift_assign_logic_partial (hn : 0 < n) (hN : n ≤ 2 ^ 32) (hst : s = true → t = true) (x : Lg n s)
    (y : Lg m t) :
    (x.Known → y.Known → y.value.Clean → ∀ k : Nat, numOf t y.value.bv = k →
      ((n ≤ 64 → m ≤ 64 ∧ k < n) →
        ∃ z, x.shrAssign y = .ok z ∧ ∀ i, i < n → z.at i = if i + k < n then x.at (i + k) else .b0) ∧
      ((n ≤ 64 → m ≤ 64 ∧ 1 < n ∧ k < if n ≤ 32 then 32 else 64) →
        ∃ z, x.shlAssign y = .ok z ∧ ∀ i, i < n → z.at i = if k ≤ i then x.at (i - k) else .b0)) ∧
    (x.SeenXZ ∨ y.SeenXZ →
      (∃ z, x.shrAssign y = .ok z ∧ ∀ i, i < n → z.at i = .x) ∧
      (∃ z, x.shlAssign y = .ok z ∧ ∀ i, i < n → z.at i = .x)) := by
  have hg : (s && !t) = false := by
    cases hs : s
    · rfl
    · rw [hst hs]; rfl
  rw [Lg.shrAssign, Lg.shlAssign, hg]
  simp only [Bool.false_eq_true, if_false]
  refine ⟨fun hx hy hyc k hk => ⟨fun hr => ?_, fun hr => ?_⟩, fun h => ?_⟩
  · obtain ⟨z, hz, hb⟩ := C24_shr_logic_partial hn hN x y hx hy hyc k hk hr
    exact ⟨z.toSign s, by rw [hz]; rfl, fun i hi => by rw [Lg.at_toSign, hb i hi]⟩
  · obtain ⟨z, hz, hb⟩ := C25_shl_logic_partial hn hN x y hx hy hyc k hk hr
    exact ⟨z.toSign s, by rw [hz]; rfl, fun i hi => by rw [Lg.at_toSign, hb i hi]⟩
  · obtain ⟨⟨z, hz, hb⟩, ⟨w, hw, hc⟩, -⟩ := C27_shift_x_partial hn x y h
    exact ⟨⟨z.toSign s, by rw [hz]; rfl, fun i hi => by rw [Lg.at_toSign, hb i hi]⟩,
      ⟨w.toSign s, by rw [hw]; rfl, fun i hi => by rw [Lg.at_toSign, hc i hi]⟩⟩

-- 200 <<= 1; >>= 3 in eight bits
example : ([⟨true, 4, false, Bits.ofInt 1⟩, ⟨false, 3, false, Bits.ofInt 3⟩].foldlM ShiftStmt.run
    (Bits.ofInt 200 : Bits 8 false)).map (·.bv) = .ok 18#8 ∧
    (⟨true, 4, false, Bits.ofInt 1⟩ : ShiftStmt).num = 1 ∧
    (Bits.ofInt 1 : Bits 4 false).Clean := by decide +kernel

/-- **C106 is false as stated**: `x >>= 8` of an eight bit variable is undefined behaviour, and
after `x <<= 1` on a four bit 15 the bits are those of 14 but `x == 14` is false. -/
theorem C106_refuted :
    (Bits.ofInt 200 : Bits 8 false).shrAssign (Bits.ofInt 8 : Bits 8 false) = .error .shift ∧
    ((Bits.ofInt 15 : Bits 4 false).shlAssign (Bits.ofInt 1 : Bits 1 false)).map
      (fun z => (z.bv, z.eq (Bits.ofInt 14 : Bits 4 false))) = .ok (14#4, false) := by
  decide +kernel

end Verif
