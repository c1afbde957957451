import Verif.Props.Extend
import Verif.Props.ConcatMany
import Verif.Props.ConcatExact
import Verif.Props.ShiftAssign
import Verif.Props.ShiftExact
import Verif.Props.Array
import Verif.Props.UpdateExact

/-!
# Exact outcomes and counterexamples for all widths (C47, C80, C82, C94, C106)
-/

namespace Verif
variable {n m w : Nat} {s t : Bool}

/-! ### C47 -/

/-- **C47, exactly.** The extension of an unsigned object is the zero extension of its value
and canonical if and only if the object was canonical. -/
theorem C47_iff (hn : 0 < n) (h : n ≤ m) (x : Bits n false) :
    ((x.extend m).Clean ∧ (x.extend m).bv = x.bv.setWidth m) ↔ x.Clean := by
  constructor
  · rintro ⟨hc, hb⟩
    rw [Bits.clean_unsigned_iff] at *
    intro i hi
    by_cases hm : i < m
    · have := congrArg (fun b => b.getLsbD i) hb
      rw [Bits.getLsbD_bv, Bits.raw_extend_unsigned hn h, BitVec.getLsbD_setWidth,
        BitVec.getLsbD_of_ge _ _ (by omega)] at this
      simpa [hm] using this
    · rw [← Bits.raw_extend_unsigned hn h x i]; exact hc i (by omega)
  · intro hx
    exact ⟨hx.extend_unsigned hn h, Bits.bv_extend_unsigned hn h hx⟩

/-- **C47 is false for every width whose holder has spare bits**: `bit<n-1, 0>(2^n)` is the
zero vector, and its extension to any larger width is not. -/
theorem C47_refuted_all (h1 : 1 < n) (h64 : n < 64) (hf : ¬ Full n) (hm : n < m) :
    (Bits.ofInt (2 ^ n) : Bits n false).bv = 0 ∧
    ((Bits.ofInt (2 ^ n) : Bits n false).extend m).bv.getLsbD n = true := by
  have hr : ∀ i, i ≤ n → (Bits.ofInt (2 ^ n) : Bits n false).raw i = decide (i = n) := by
    intro i hi
    have hlt : n < Verif.hw n := by
      rw [Full] at hf
      simp only [Verif.hw]
      split_ifs <;> omega
    rw [Bits.ofInt, dif_pos (by omega), Bits.raw_mkN (by omega) h1, holderTy_ge (by omega),
      ibit_conv (by omega), if_pos (by omega)]
    rw [decide_eq_true (by omega : i < Verif.hw n), Bool.true_and, ibit]
    congr 1
    rw [eq_iff_iff]
    obtain ⟨d, rfl⟩ : ∃ d, n = i + d := ⟨n - i, by omega⟩
    rw [pow_add, Int.mul_ediv_cancel_left _ (by positivity)]
    cases d with
    | zero => simp
    | succ d => rw [pow_succ]; omega
  constructor
  · apply BitVec.eq_of_getLsbD_eq
    intro i hi
    rw [Bits.getLsbD_bv, hr i (by omega), decide_eq_false (by omega : ¬ i = n)]
    simp
  · rw [Bits.getLsbD_bv, Bits.raw_extend_unsigned (by omega) (by omega), hr n (le_refl n)]
    simp [hm]

example : ¬ Full 12 ∧ ((Bits.ofInt (2 ^ 12) : Bits 12 false).extend 100).bv = 4096 := by decide +kernel

/-! ### C80 -/

theorem Lg.slice_top_signed (h : n = 8 ∨ n = 16 ∨ n = 32 ∨ n = 64) (x : Lg n true) (a b : Nat) (ha : a = n - 1)
    (hb : b < n) : ∃ e, x.slice (Rng.down n) a b = .error e := by
  subst ha
  refine ⟨.shift, ?_⟩
  rw [Lg.slice, C50_refuted.1 n x.value b h hb]
  rfl

/-- **C80 is false for all native signed arrays without spare bits**: a slice that includes
the last element is undefined behaviour, for every array and every value. -/
theorem C80_refuted_all {ra : Rng} (hw0 : 0 < w)
    (h : ra.size * w = 8 ∨ ra.size * w = 16 ∨ ra.size * w = 32 ∨ ra.size * w = 64)
    (x : PArr w true ra) (lo : Int) (hl : ra.lo ≤ lo ∧ lo ≤ ra.hi) :
    ∃ e, x.sliceArray ra.hi lo = .error e := by
  have hs : (ra.size : Int) = ra.hi - ra.lo + 1 := by
    rw [Rng.size, Rng.hi, Rng.lo]; omega
  rw [PArr.sliceArray]
  have e : (max ra.hi lo - ra.lo + 1) = (ra.size : Int) := by rw [hs]; omega
  have e2 : min ra.hi lo = lo := by omega
  have hle : (lo - ra.lo) * w < (ra.size : Int) * w :=
    mul_lt_mul_of_pos_right (by omega) (by exact_mod_cast hw0)
  apply Lg.slice_top_signed h
  · rw [e]; omega
  · rw [e2]
    have : 0 ≤ (lo - ra.lo) * w := mul_nonneg (by omega) (by omega)
    omega

example : (⟨3, 0⟩ : Rng).size * 4 = 16 := by decide

/-! ### C82 -/

/-- a write to a field of a 2-state packed struct -/
structure FieldWrite2 where
  hi : Nat
  lo : Nat
  wid : Nat
  val : Bits wid false

/-- the write is inside an `n`-bit struct, the value is canonical and as wide as the field, and
the field ends below the 32 or 64 bits of the promoted type of the value, unless that is wide -/
structure FieldWrite2.Ok (n : Nat) (f : FieldWrite2) : Prop where
  le : f.lo ≤ f.hi
  lt : f.hi < n
  wid : f.wid = f.hi - f.lo + 1
  clean : f.val.Clean
  range : f.wid ≤ 64 → f.hi < if f.wid ≤ 32 then 32 else 64

/-- the struct after a write -/
def FieldWrite2.run (x : Bits n s) (f : FieldWrite2) : Res (Bits n s) :=
  x.update (Rng.down n) f.hi f.lo (Rng.down f.wid) f.val

/-- the bits of the struct after a list of field writes, `off f` is what is subtracted from the
position of a bit in the struct to obtain its position in the value -/
def fieldBits2 (off : FieldWrite2 → Nat) (init : Nat → Bool) : List FieldWrite2 → Nat → Bool
  | [], i => init i
  | f :: fs, i => fieldBits2 off (fun j => if f.lo ≤ j ∧ j ≤ f.hi then f.val.bv.getLsbD (j - off f) else init j) fs i

theorem fieldBits2_congr {off : FieldWrite2 → Nat} {f g : Nat → Bool} {i : Nat} (ws : List FieldWrite2) (h : f i = g i) :
    fieldBits2 off f ws i = fieldBits2 off g ws i := by
  induction ws generalizing f g with
  | nil => exact h
  | cons w ws ih => apply ih; rw [h]

/-- **C82, 2-state, exactly.** After any history of field writes every bit holds the bit of the
last value written to it at its position in the struct, where it should be its position in the
field. -/
theorem C82_2state_exact (hn : 0 < n) (hN : n ≤ 2 ^ 31) (ws : List FieldWrite2) (hw : ∀ f ∈ ws, f.Ok n) (x : Bits n s) :
    ∃ y, ws.foldlM FieldWrite2.run x = .ok y ∧
      (∀ i, i < n → y.bv.getLsbD i = fieldBits2 (fun _ => 0) x.bv.getLsbD ws i) ∧
      (s = false → x.Clean → y.Clean) := by
  induction ws generalizing x with
  | nil => exact ⟨x, rfl, fun _ _ => rfl, fun _ h => h⟩
  | cons f ws ih =>
    have hf := hw f (by simp)
    have h1 := hf.le
    have h2 := hf.lt
    have h3 := hf.wid
    have key : ∃ y, x.update (Rng.down n) f.hi f.lo (Rng.down f.wid) f.val = .ok y ∧
        (∀ i, i < n → y.bv.getLsbD i =
          if f.lo ≤ i ∧ i ≤ f.hi then f.val.bv.getLsbD i else x.bv.getLsbD i) ∧
        (s = false → x.Clean → y.Clean) := by
      have emn : min f.hi f.lo = f.lo := by omega
      have emx : max f.hi f.lo = f.hi := by omega
      by_cases h64 : f.wid ≤ 64
      · obtain ⟨y, hy, hb, hc⟩ := (C57_native_exact hn (by omega) hN h64 x f.val hf.clean f.hi f.lo h2 (by omega)).1
          (by rw [emx]; exact hf.range h64)
        refine ⟨y, hy, fun i hi => ?_, hc⟩
        rw [hb i hi, emn, emx]
        by_cases hc : f.lo ≤ i ∧ i ≤ f.hi
        · rw [if_pos hc, if_pos hc]
          by_cases him : i < f.wid
          · rw [if_pos him]
          · rw [if_neg him, BitVec.getLsbD_of_ge _ _ (by omega)]; simp
        · rw [if_neg hc, if_neg hc]
      · obtain ⟨y, hy, hb, hc⟩ := C57_update_exact hn (by omega) hN (by omega) x f.val f.hi f.lo h2 (by omega)
          (Or.inr (by omega))
        refine ⟨y, hy, fun i hi => ?_, hc⟩
        rw [hb i hi, emn, emx]
    obtain ⟨y, hy, hya, hyc⟩ := key
    obtain ⟨z, hz, hza, hzc⟩ := ih (fun g hg => hw g (by simp [hg])) y
    refine ⟨z, ?_, fun i hi => ?_, fun hs hx => hzc hs (hyc hs hx)⟩
    · rw [List.foldlM_cons, FieldWrite2.run, hy]; exact hz
    · rw [hza i hi]
      apply fieldBits2_congr
      rw [hya i hi]
      simp

/-- **C82, 2-state, the fields at position 0**: a struct whose fields all start at bit 0 (a
union) holds what was written. Missing: fields at other positions, for which it is false
(`C82_2state_exact`, `C82_refuted_all`). -/
theorem C82_2state_union_partial (hn : 0 < n) (hN : n ≤ 2 ^ 31) (ws : List FieldWrite2)
    (hw : ∀ f ∈ ws, f.Ok n ∧ f.lo = 0) (x : Bits n s) :
    ∃ y, ws.foldlM FieldWrite2.run x = .ok y ∧
      (∀ i, i < n → y.bv.getLsbD i = fieldBits2 (·.lo) x.bv.getLsbD ws i) ∧
      (s = false → x.Clean → y.Clean) := by
  obtain ⟨y, hy, hb, hc⟩ := C82_2state_exact hn hN ws (fun f hf => (hw f hf).1) x
  refine ⟨y, hy, fun i hi => ?_, hc⟩
  rw [hb i hi]
  clear hy hb hc
  generalize x.bv.getLsbD = g
  induction ws generalizing g with
  | nil => rfl
  | cons f ws ih =>
    rw [fieldBits2, fieldBits2, ih (fun g hg => hw g (by simp [hg])), (hw f (by simp)).2]

/-- **C82 is false of every 2-state struct with a field that starts above its own width**: what
is read back from the field is 0, whatever was written. -/
theorem C82_refuted_all (hN : n ≤ 2 ^ 31) (x : Bits n false) (f : FieldWrite2) (hf : f.Ok n)
    (h64 : f.wid ≤ 64) (hlo : f.wid ≤ f.lo) :
    ∃ y z, FieldWrite2.run x f = .ok y ∧ y.slice (Rng.down n) f.hi f.lo = .ok z ∧ z.bv = 0 := by
  have h1 := hf.le
  have h2 := hf.lt
  have h3 := hf.wid
  obtain ⟨y, hy, hb⟩ := C57_native_refuted (by omega) hN h64 x f.val hf.clean f.hi f.lo h1 h2 hlo (hf.range h64)
  obtain ⟨z, hz, -, hzb⟩ := C49_slice y f.hi f.lo (by omega) (by omega) (by omega)
  refine ⟨y, z, hy, hz, ?_⟩
  apply BitVec.eq_of_getLsbD_eq
  intro i hi
  rw [hzb i (by omega), hb _ (by omega), if_pos (by omega)]
  simp

example : (⟨15, 8, 8, Bits.ofInt 255⟩ : FieldWrite2).Ok 24 := ⟨by decide, by decide, by decide, by decide +kernel, by decide⟩

/-! ### C94 -/

theorem Bits.concatAll_append (ys zs : List Bits.Arg) (x : Bits n s) :
    x.concatAll (ys ++ zs) = (x.concatAll ys).bind fun z => z.2.concatAll zs := by
  induction ys generalizing n s with
  | nil => rfl
  | cons y ys ih =>
    obtain ⟨⟨m, t⟩, y⟩ := y
    simp only [List.cons_append, Bits.concatAll]
    by_cases h : n + m < 64
    · rw [dif_pos h, dif_pos h]
      cases x.concat y h with
      | error e => rfl
      | ok z => exact ih z
    · rw [dif_neg h, dif_neg h]; rfl

/-- the arguments before the one at fault: unsigned, canonical, at most 32 bits in all -/
def Before (n : Nat) (ys : List Bits.Arg) : Prop :=
  (∀ y ∈ ys, 0 < y.1.1 ∧ y.1.2 = false ∧ y.2.Clean) ∧ n + widths ys ≤ 32

theorem Before.noCross : ∀ {ys : List Bits.Arg} {n : Nat}, Before n ys → NoCross n (ys.map fun y => y.1.1)
  | [], _, _ => trivial
  | y :: ys, n, h => by
    have hw : widths (y :: ys) = y.1.1 + widths ys := by simp [widths]
    have h2 := h.2
    rw [hw] at h2
    refine ⟨Or.inl (?_ : n + y.1.1 ≤ 32), Before.noCross (n := n + y.1.1) ⟨fun z hz => h.1 z (by simp [hz]), ?_⟩⟩ <;> omega

theorem Before.run {ys : List Bits.Arg} (h : Before n ys) (hn : 0 < n) (x : Bits n false) (hx : x.Clean) :
    ∃ z : Bits (n + widths ys) false, x.concatAll ys = .ok ⟨(n + widths ys, false), z⟩ ∧ z.Clean ∧
      ∀ i, i < n → z.bv.getLsbD (widths ys + i) = x.bv.getLsbD i := by
  have h2 := h.2
  obtain ⟨⟨⟨k, u⟩, z⟩, hz, h1, hc, hb, -⟩ := C94_concat_bits_partial ys n x hn hx h.1 (by omega) h.noCross
  simp only [Prod.mk.injEq] at h1
  obtain ⟨rfl, rfl⟩ := h1
  exact ⟨z, hz, hc, hb⟩

/-- **C94, an undefined case.** If an argument of 32 bits or more follows arguments of at most
32 bits in all, the concatenation is undefined behaviour, whatever the values and the further
arguments. -/
theorem C94_fault (hn : 0 < n) (x : Bits n false) (hx : x.Clean) (ys zs : List Bits.Arg) (h : Before n ys)
    (hm : 32 ≤ m) (h64 : n + widths ys + m < 64) (y : Bits m false) :
    x.concatAll (ys ++ ⟨(m, false), y⟩ :: zs) = .error .shift := by
  obtain ⟨z, hz, -, -⟩ := h.run hn x hx
  rw [Bits.concatAll_append, hz, res_bind_ok, Bits.concatAll, dif_pos h64]
  simp only []
  rw [C52_refuted.1 _ _ h64 z y h.2 hm]
  rfl

/-- **C94 is false whenever the total passes from at most 32 to more than 32 bits** with an
argument below 32 bits: all bits from 32 up are 0. -/
theorem C94_truncated_refuted (hn : 0 < n) (x : Bits n false) (hx : x.Clean) (ys : List Bits.Arg) (h : Before n ys)
    (hm0 : 0 < m) (hm : m < 32) (h32 : 32 < n + widths ys + m) (y : Bits m false) (hy : y.Clean)
    (htop : x.bv.getLsbD (n - 1) = true) :
    ∃ z : Bits (n + widths ys + m) false,
      x.concatAll (ys ++ [⟨(m, false), y⟩]) = .ok ⟨(n + widths ys + m, false), z⟩ ∧
      (∀ i, 32 ≤ i → z.bv.getLsbD i = false) ∧ z.bv.getLsbD (m + widths ys + (n - 1)) ≠ x.bv.getLsbD (n - 1) := by
  have h2 := h.2
  obtain ⟨v, hv, hc, -⟩ := h.run hn x hx
  obtain ⟨z, hz, hb⟩ := C52_truncated_exact hm0 (by omega) h.2 hm h32 v y hc hy
  have hi : ∀ i, 32 ≤ i → z.bv.getLsbD i = false := by
    intro i hi
    by_cases hlt : i < n + widths ys + m
    · rw [hb i hlt, if_neg (by omega), if_neg (by omega)]
      by_cases h16 : m ≤ 16
      · rw [decide_eq_false (by omega : ¬ n + widths ys ≤ 16)]; rfl
      · rw [decide_eq_false h16]; simp
    · exact BitVec.getLsbD_of_ge _ _ (by omega)
  refine ⟨z, ?_, hi, ?_⟩
  · rw [Bits.concatAll_append, hv, res_bind_ok, Bits.concatAll, dif_pos (by omega : n + widths ys + m < 64)]
    simp only []
    rw [hz]; rfl
  · rw [hi _ (by omega), htop]; decide

/-- **C94 is false of every negative signed last argument** after arguments that are not all
ones: all bits above it are ones. -/
theorem C94_signed_refuted (hn : 0 < n) (x : Bits n false) (hx : x.Clean) (ys : List Bits.Arg) (h : Before n ys)
    (hm0 : 1 < m) (h32 : n + widths ys + m ≤ 32) (y : Bits m true) (hy : y.Clean)
    (hneg : y.bv.getLsbD (m - 1) = true) :
    ∃ z : Bits (n + widths ys + m) false,
      x.concatAll (ys ++ [⟨(m, true), y⟩]) = .ok ⟨(n + widths ys + m, false), z⟩ ∧
      ∀ i, i < n + widths ys + m → z.bv.getLsbD i = if i < m then y.bv.getLsbD i else true := by
  obtain ⟨v, hv, hc, -⟩ := h.run hn x hx
  obtain ⟨z, hz, hb⟩ := C52_concat_exact (by omega) (by omega) (by omega) (Or.inl h32) v y hc hy
  refine ⟨z, ?_, fun i hi => ?_⟩
  · rw [Bits.concatAll_append, hv, res_bind_ok, Bits.concatAll, dif_pos (by omega : n + widths ys + m < 64)]
    simp only []
    rw [hz]; rfl
  · rw [hb i hi, hneg, decide_eq_true hm0]
    simp

example : Before 8 [⟨(4, false), Bits.ofInt 3⟩, ⟨(8, false), Bits.ofInt 200⟩] := by
  refine ⟨?_, by decide⟩
  intro y hy
  rcases List.mem_cons.1 hy with rfl | hy
  · exact ⟨by decide, rfl, by decide +kernel⟩
  · rw [List.mem_singleton] at hy
    subst hy
    exact ⟨by decide, rfl, by decide +kernel⟩

/-! ### C106 -/

/-- the amount by which the code shifts a native variable -/
def ShiftStmt.held (o : ShiftStmt) (n : Nat) (s : Bool) : Int :=
  if o.left then heldAmount n s o.num else o.num

/-- that amount is in the range of the machine shift -/
def ShiftStmt.Defined (o : ShiftStmt) (n : Nat) (s : Bool) : Prop :=
  0 ≤ o.held n s ∧ o.held n s < if o.left then (if n ≤ 32 then 32 else 64) else n

instance (o : ShiftStmt) (n : Nat) (s : Bool) : Decidable (o.Defined n s) := by
  unfold ShiftStmt.Defined; infer_instance

theorem ShiftStmt.run_native (h : n ≤ 64) (h1 : 1 < n) (x : Bits n s) (o : ShiftStmt) (hm : o.m ≤ 64)
    (hs : s = true → o.t = true) (hc : o.amount.Clean) :
    (o.Defined n s → ∃ z, o.run x = .ok z ∧
      z.bv = if o.left then x.bv <<< (o.held n s).toNat else x.bv >>> (o.held n s).toNat) ∧
    (¬ o.Defined n s → ∃ e, o.run x = .error e) := by
  have hg : (s && !o.t) = false := by
    cases hs' : s
    · rfl
    · rw [hs hs']; rfl
  rw [run, Defined, held]
  by_cases hl : o.left
  · rw [if_pos hl, if_pos hl, if_pos hl, if_pos hl, Bits.shlAssign, hg]
    obtain ⟨e1, e2⟩ := C25_native_exact h h1 hm x o.amount hc
    have ecast : ((if n ≤ 32 then 32 else 64 : Nat) : Int) = if n ≤ 32 then 32 else 64 := by split_ifs <;> rfl
    constructor
    · rintro ⟨h0, hlt⟩
      obtain ⟨z, hz, hb⟩ := e1 (heldAmount n s o.num).toNat (Int.toNat_of_nonneg h0).symm (by
        split_ifs at hlt ⊢ <;> omega)
      exact ⟨z.toSign s, by rw [hz]; rfl, by rw [Bits.bv_toSign, hb]⟩
    · intro hd
      rw [e2 (by
        change heldAmount n s o.num < 0 ∨ _ ≤ heldAmount n s o.num
        by_cases h0 : 0 ≤ heldAmount n s o.num
        · right
          by_contra hlt
          exact hd ⟨h0, by push Not at hlt; rw [ecast]; exact hlt⟩
        · left; omega)]
      exact ⟨_, rfl⟩
  · rw [if_neg hl, if_neg hl, if_neg hl, if_neg hl, Bits.shrAssign, hg]
    constructor
    · rintro ⟨h0, hlt⟩
      obtain ⟨z, hz, hb⟩ := C24_shr_partial (by omega) (by omega) x o.amount hc o.num.toNat
        (Int.toNat_of_nonneg h0).symm (fun _ => ⟨hm, by omega⟩)
      exact ⟨z.toSign s, by rw [hz]; rfl, by rw [Bits.bv_toSign, hb]⟩
    · intro hd
      have := mt (C24_native_iff h h1 hm x o.amount hc).1 hd
      cases hr : x.shr o.amount with
      | ok z => exact absurd ⟨z, hr⟩ this
      | error e => exact ⟨e, rfl⟩

/-- **C106, native, exactly.** A sequence of `<<=` and `>>=` on a native variable is defined if
and only if every statement's amount is in the range of the machine shift; then the bits are
those of the same shifts. -/
theorem C106_native_exact (h : n ≤ 64) (h1 : 1 < n) :
    ∀ (os : List ShiftStmt) (x : Bits n s),
    (∀ o ∈ os, o.m ≤ 64 ∧ (s = true → o.t = true) ∧ o.amount.Clean) →
    ((∀ o ∈ os, o.Defined n s) → ∃ z, os.foldlM ShiftStmt.run x = .ok z ∧
      z.bv = os.foldl (fun b o => if o.left then b <<< (o.held n s).toNat else b >>> (o.held n s).toNat) x.bv) ∧
    ((∃ o ∈ os, ¬ o.Defined n s) → ∃ e, os.foldlM ShiftStmt.run x = .error e)
  | [], x, _ => ⟨fun _ => ⟨x, rfl, rfl⟩, fun ⟨_, h, _⟩ => absurd h (by simp)⟩
  | o :: os, x, hc => by
    obtain ⟨ho1, ho2, ho3⟩ := hc o (by simp)
    obtain ⟨e1, e2⟩ := ShiftStmt.run_native h h1 x o ho1 ho2 ho3
    by_cases hd : o.Defined n s
    · obtain ⟨z, hz, hb⟩ := e1 hd
      obtain ⟨r1, r2⟩ := C106_native_exact h h1 os z (fun p hp => hc p (by simp [hp]))
      rw [List.foldlM_cons, hz, List.foldl_cons, ← hb]
      refine ⟨fun hall => r1 fun p hp => hall p (by simp [hp]), fun ⟨p, hp, hpd⟩ => r2 ⟨p, ?_, hpd⟩⟩
      rcases List.mem_cons.1 hp with rfl | hp
      · exact absurd hd hpd
      · exact hp
    · obtain ⟨e, he⟩ := e2 hd
      refine ⟨fun hall => absurd (hall o (by simp)) hd, fun _ => ⟨e, ?_⟩⟩
      rw [List.foldlM_cons, he]; rfl

/-- **C106 is false at every native width above one**: `x >>= k` with any amount from the width
up is undefined behaviour. -/
theorem C106_refuted_all (h : n ≤ 64) (h1 : 1 < n) (x : Bits n s) (o : ShiftStmt) (hl : o.left = false)
    (hm : o.m ≤ 64) (hs : s = true → o.t = true) (hc : o.amount.Clean) (hk : (n : Int) ≤ o.num) :
    ∃ e, o.run x = .error e := by
  refine (ShiftStmt.run_native h h1 x o hm hs hc).2 ?_
  rw [ShiftStmt.Defined, ShiftStmt.held, hl]
  rintro ⟨-, h⟩
  simp at h
  omega

example : (⟨true, 4, false, Bits.ofInt 3⟩ : ShiftStmt).Defined 8 false ∧
    ¬ (⟨false, 4, false, Bits.ofInt 8⟩ : ShiftStmt).Defined 8 false := by decide +kernel

end Verif
