import Verif.Props.ExprL
import Verif.Props.ShiftAssign
import Verif.Props.Array
import Verif.Lemmas.ArithExact
import Verif.Model.BigMixed

/-!
# 4-state compound assignment and the remaining members (C131, C132)
-/

namespace Verif

variable {n m : Nat} {s t : Bool}

/-! ## C131 -/

/-- a statement `x &= y`, `x |= y` or `x ^= y` -/
inductive BitAsg (n : Nat)
  | and (t : Bool) (y : Lg n t)
  | or (t : Bool) (y : Lg n t)
  | xor (t : Bool) (y : Lg n t)

namespace BitAsg

/-- execution of the statement on an unsigned vector (between two signed ones it does not compile) -/
def run (x : Lg n false) : BitAsg n → Res (Lg n false)
  | and _ y => x.andAssign y
  | or _ y => x.orAssign y
  | xor _ y => x.xorAssign y

/-- what it does to bit `i` -/
def step (i : Nat) (p : V4) : BitAsg n → V4
  | and _ y => RefL.and p (y.at i)
  | or _ y => RefL.or p (y.at i)
  | xor _ y => V4.xor p (y.at i)

/-- the same by IEEE 1800 tables 11-11 to 11-13 -/
def ieee (i : Nat) (p : V4) : BitAsg n → V4
  | and _ y => V4.and p (y.at i)
  | or _ y => V4.or p (y.at i)
  | xor _ y => V4.xor p (y.at i)

/-- the operand is canonical -/
def Clean : BitAsg n → Prop
  | and _ y => y.Clean
  | or _ y => y.Clean
  | xor _ y => y.Clean

end BitAsg

/-- one statement -/
theorem BitAsg.run_ok (hn : 0 < n) (x : Lg n false) (hx : x.Clean) (a : BitAsg n) (ha : a.Clean) :
    ∃ z, a.run x = .ok z ∧ z.Clean ∧ ∀ i, i < n → z.at i = a.step i (x.at i) := by
  have cl : ∀ {z : Lg n false}, (∀ i, n ≤ i → z.value.raw i = false) → (∀ i, n ≤ i → z.xz.raw i = false) →
      (z.toSign false).Clean := fun {z} h1 h2 =>
    ⟨(Bits.clean_unsigned_iff _).2 fun i hi => by
      show (z.value.toSign false).raw i = _; rw [Bits.raw_toSign]; exact h1 i hi, (Bits.clean_unsigned_iff _).2 h2⟩
  cases a with
  | and t y =>
    obtain ⟨z, hz, hv, hk⟩ := Lg.and_ok hn x y
    obtain ⟨z', hz', hb⟩ := C10_and_table_partial hn x y
    obtain rfl : z = z' := by rw [hz] at hz'; injection hz'
    refine ⟨z.toSign false, by rw [BitAsg.run, Lg.andAssign, hz, res_map_ok],
      cl (fun i hi => by rw [hv]; simp; omega) (fun i hi => by rw [hk]; simp; omega), fun i hi => ?_⟩
    rw [Lg.at_toSign, hb i hi, andDeviation_eq]; rfl
  | or t y =>
    obtain ⟨z, hz, hv, hk⟩ := Lg.or_ok hn x y
    obtain ⟨z', hz', hb⟩ := C11_or_table_partial hn x y
    obtain rfl : z = z' := by rw [hz] at hz'; injection hz'
    refine ⟨z.toSign false, by rw [BitAsg.run, Lg.orAssign, hz, res_map_ok],
      cl (fun i hi => by rw [hv]; simp; omega) (fun i hi => by rw [hk]; simp; omega), fun i hi => ?_⟩
    rw [Lg.at_toSign, hb i hi, orDeviation_eq]; rfl
  | xor t y =>
    obtain ⟨z, hz, hv, hk⟩ := Lg.xor_ok hn x y
    obtain ⟨z', hz', hb⟩ := C08_xor_table hn x y
    obtain rfl : z = z' := by rw [hz] at hz'; injection hz'
    refine ⟨z.toSign false, by rw [BitAsg.run, Lg.xorAssign, hz, res_map_ok],
      cl (fun i hi => by rw [hv]; simp; omega) (fun i hi => by
        rw [hk, (Bits.clean_unsigned_iff _).1 hx.2 i hi, (Bits.clean_unsigned_iff _).1 (show y.xz.Clean from ha.2) i hi]
        rfl), fun i hi => ?_⟩
    rw [Lg.at_toSign, hb i hi]; rfl

/-- **C131, exact.** Any sequence of `&= |= ^=` on an unsigned 4-state vector never faults, keeps it
canonical, and folds the truth tables of the library over every bit. -/
theorem C131_history_exact (hn : 0 < n) (as : List (BitAsg n)) (ha : ∀ a ∈ as, a.Clean) (x : Lg n false) (hx : x.Clean) :
    ∃ z, as.foldlM BitAsg.run x = .ok z ∧ z.Clean ∧ ∀ i, i < n → z.at i = as.foldl (BitAsg.step i) (x.at i) := by
  induction as generalizing x with
  | nil => exact ⟨x, rfl, hx, fun _ _ => rfl⟩
  | cons a as ih =>
    obtain ⟨y, hy, cy, hb⟩ := BitAsg.run_ok hn x hx a (ha a List.mem_cons_self)
    obtain ⟨z, hz, cz, hzb⟩ := ih (fun b hb => ha b (List.mem_cons_of_mem _ hb)) y cy
    refine ⟨z, ?_, cz, fun i hi => ?_⟩
    · rw [List.foldlM_cons]
      show (a.run x).bind _ = _
      rw [hy, res_bind_ok, hz]
    · rw [hzb i hi, List.foldl_cons, hb i hi]

/-- the operand of a statement -/
def BitAsg.bit (i : Nat) : BitAsg n → V4
  | and _ y => y.at i
  | or _ y => y.at i
  | xor _ y => y.at i

/-- **C131, partial.** If the vector and all operands are free of x and z, the sequence gives the
IEEE 1800 result. Missing: x and z (`C131_refuted`). -/
theorem C131_history_partial (hn : 0 < n) (as : List (BitAsg n)) (ha : ∀ a ∈ as, a.Clean) (x : Lg n false) (hx : x.Clean)
    (hk : ∀ i, i < n → (x.at i).isKnown = true) (hka : ∀ a ∈ as, ∀ i, i < n → (a.bit i).isKnown = true) :
    ∃ z, as.foldlM BitAsg.run x = .ok z ∧ z.Clean ∧ ∀ i, i < n → z.at i = as.foldl (BitAsg.ieee i) (x.at i) := by
  obtain ⟨z, hz, cz, hb⟩ := C131_history_exact hn as ha x hx
  refine ⟨z, hz, cz, fun i hi => ?_⟩
  rw [hb i hi]
  have key : ∀ (as : List (BitAsg n)) (p : V4), p.isKnown = true → (∀ a ∈ as, (a.bit i).isKnown = true) →
      as.foldl (BitAsg.step i) p = as.foldl (BitAsg.ieee i) p := by
    intro as
    induction as with
    | nil => intro p _ _; rfl
    | cons a as ih =>
      intro p hp h
      have h1 := h a List.mem_cons_self
      have : a.step i p = a.ieee i p ∧ (a.ieee i p).isKnown = true := by
        cases a with
        | and t y =>
          simp only [BitAsg.step, BitAsg.ieee, BitAsg.bit] at h1 ⊢
          revert h1 hp
          cases p <;> cases y.at i <;> decide
        | or t y =>
          simp only [BitAsg.step, BitAsg.ieee, BitAsg.bit] at h1 ⊢
          revert h1 hp
          cases p <;> cases y.at i <;> decide
        | xor t y =>
          simp only [BitAsg.step, BitAsg.ieee, BitAsg.bit] at h1 ⊢
          revert h1 hp
          cases p <;> cases y.at i <;> decide
      rw [List.foldl_cons, List.foldl_cons, this.1]
      exact ih _ this.2 fun b hb => h b (List.mem_cons_of_mem _ hb)
  exact key as _ (hk i hi) fun a ha => hka a ha i hi

/-- **C131 is false of the code** at every width: `x &= 0` on the default value leaves no 0. -/
theorem C131_refuted (hn : 0 < n) :
    ∃ (x y z : Lg n false), x.Clean ∧ y.Clean ∧ x.andAssign y = .ok z ∧ ∀ i, i < n → y.at i = .b0 ∧ z.at i ≠ .b0 := by
  obtain ⟨x, -, hx1, hx2⟩ := Lg.dflt_ok (n := n) (s := false) hn
  have hx : x.Clean := ⟨(Bits.clean_unsigned_iff _).2 fun i hi => by rw [hx1],
    (Bits.clean_unsigned_iff _).2 fun i hi => by rw [hx2]; simp; omega⟩
  have hy : (⟨Bits.zero, Bits.zero⟩ : Lg n false).Clean := ⟨Bits.clean_zero, Bits.clean_zero⟩
  obtain ⟨z, hz, -, hb⟩ := BitAsg.run_ok hn x hx (.and false ⟨Bits.zero, Bits.zero⟩) hy
  refine ⟨x, _, z, hx, hy, hz, fun i hi => ?_⟩
  have h2 : (⟨Bits.zero, Bits.zero⟩ : Lg n false).at i = .b0 := by
    rw [Lg.at_lt _ hi]; simp only; rw [Bits.raw_zero]; rfl
  have h1 : x.at i = .x := by rw [Lg.at_lt x hi, hx1, hx2]; simp [hi, V4.mk]
  refine ⟨h2, ?_⟩
  rw [hb i hi, BitAsg.step, h1, h2]; decide

-- 4'b1x0z &= 4'b11z1, then ^= 4'b0101
example : ∃ x y w : Lg 4 false, x.Clean ∧ y.Clean ∧ w.Clean ∧
    ([BitAsg.and false y, .xor false w].foldlM BitAsg.run x).map (fun z => [z.at 3, z.at 2, z.at 1, z.at 0]) =
      .ok [.b1, .x, .b0, .b0] :=
  ⟨⟨Bits.ofInt 0b1001, Bits.ofInt 0b0101⟩, ⟨Bits.ofInt 0b1111, Bits.ofInt 0b0010⟩, Lg.ofInt 0b0101, by decide +kernel⟩

/-! ## C132 -/

/-- **C132, `big_num`.** `clear()` and `unmask()` leave the number 0 in canonical form, unary `+` keeps
it, `ashl` shifts left by the denoted amount, the text constructor gives the value that of a `bit` of the
width holds. -/
theorem C132_big (hm : 0 < m) (hn : n ≤ 2 ^ 32) (x : Big n s) (y : Big m t) (hy : y.Clean) (k : Nat) (v : List Char) :
    (x.clear.bv = 0 ∧ x.clear.Clean) ∧ (x.unmask.bv = 0 ∧ x.unmask.Clean) ∧ x.pos.bv = x.bv ∧
    (x.ashl k).bv = x.bv <<< k ∧ (x.ashlBig y).bv = x.bv <<< y.bv.toNat ∧
    (64 < n → ((Big.ofString v : Res (Big n s)).map (·.bv)) = (Bits.ofString v : Res (Bits n s)).map (·.bv)) := by
  have z0 : (Big.zero : Big n s).bv = 0 := Bits.big_bv_zero
  refine ⟨⟨z0, Big.clean_zero⟩, ⟨z0, Big.clean_zero⟩, rfl, Big.bv_shl x k, ?_, fun h => ?_⟩
  · rw [Big.ashlBig, Big.shlBig, Bits.highLimb_spec _ (by have := le_limbs m; omega)]
    have hv := hy.toNat_bv
    by_cases hb : 2 ^ 64 ≤ val y.vals
    · simp only [hb, decide_true, if_true]
      rw [Bits.shiftLeft_ge (by omega), Bits.big_bv_zero]
    · simp only [hb, decide_false, Bool.false_eq_true, if_false]
      rw [Big.bv_toSign, Big.bv_shl, Bits.limb_zero_of hv.symm (by omega)]
  · rw [Big.ofString, Bits.ofString, dif_neg (by omega)]
    cases parseRawBig v n <;> rfl

/-- **C132, `bit`.** `clear()` leaves the number 0, equal to every other zero; unary `+` keeps the value -/
theorem C132_bit (x : Bits n s) : x.clear.bv = 0 ∧ (∀ i, x.clear.raw i = false) ∧ x.pos = x :=
  ⟨Bits.bv_zero, Bits.raw_zero, rfl⟩

/-- **C132, `bool(big_num)`, exact:** only the lower 32 bits of each limb count -/
theorem C132_bool_exact (x : Big n s) (hx : x.Clean) : x.toBool = true ↔ AnyLow x.bv := Big.anySet_iff hx

/-- **C132 is false of `bool(big_num)`** at every width above 32: the number `2^32` is not 0 but
false. -/
theorem C132_refuted (h : 32 < n) : ∃ x : Big n s, x.Clean ∧ x.bv ≠ 0 ∧ x.toBool = false := by
  have hc : ((Big.zero : Big n s).set 32 true).Clean := Big.clean_zero.set 32 true
  have hb : ∀ i, ((Big.zero : Big n s).set 32 true).bv.getLsbD i = decide (i = 32) := by
    intro i
    rw [Big.getLsbD_bv, Big.get_set]
    by_cases hi : i = 32
    · rw [if_pos ⟨hi, h⟩]; simp [hi]
    · rw [if_neg fun c => hi c.1, ← Big.getLsbD_bv, Bits.big_bv_zero]; simp [hi]
  refine ⟨_, hc, fun h0 => ?_, ?_⟩
  · have := hb 32
    rw [h0] at this; simp at this
  · rw [Bool.eq_false_iff, ne_eq, C132_bool_exact _ hc]
    rintro ⟨p, hp, hpb⟩
    rw [hb, decide_eq_true_iff] at hpb
    omega

/-- **C132, 2-state packed arrays.** `slice_array<hi, lo>()` of an unsigned native array: element `e` of
the slice is element `min hi lo - base + e` of the array. -/
theorem C132_array {w : Nat} {ra : Rng} (hw0 : 0 < w) (h64 : ra.size * w ≤ 64) (x : PArr2 w false ra) (hi lo : Int)
    (hh : ra.lo ≤ hi ∧ hi ≤ ra.hi) (hl : ra.lo ≤ lo ∧ lo ≤ ra.hi) :
    ∃ z, x.sliceArray hi lo = .ok z ∧ z.Clean ∧
      ∀ e j : Nat, (e : Int) ≤ max hi lo - min hi lo → j < w →
        z.bv.getLsbD (e * w + j) = (Bits.bv (n := ra.size * w) (s := false) x).getLsbD (((min hi lo - ra.lo).toNat + e) * w + j) := by
  obtain ⟨A, hA⟩ : ∃ A : Nat, min hi lo - ra.lo = A := ⟨_, (Int.toNat_of_nonneg (by omega)).symm⟩
  obtain ⟨D, hD⟩ : ∃ D : Nat, max hi lo - ra.lo = A + D := ⟨(max hi lo - min hi lo).toNat, by omega⟩
  have hsz : A + D < ra.size := by simp only [Rng.lo, Rng.hi, Rng.size] at *; omega
  have hle : (A + D + 1) * w ≤ ra.size * w := Nat.mul_le_mul_right w hsz
  have ea : (((max hi lo - ra.lo) + 1) * w - 1).toNat = (A + D + 1) * w - 1 := by
    rw [hD, show (((A : Int) + D) + 1) * w = (((A + D + 1) * w : Nat) : Int) by push_cast; ring]
    omega
  have eb : ((min hi lo - ra.lo) * w).toNat = A * w := by
    rw [hA, show (A : Int) * w = ((A * w : Nat) : Int) by push_cast; ring]
    omega
  have hs1 : (A + D + 1) * w = A * w + D * w + w := by ring
  obtain ⟨z, hz, hc, hv⟩ := C49_slice (n := ra.size * w) x (((max hi lo - ra.lo) + 1) * w - 1).toNat
    ((min hi lo - ra.lo) * w).toNat (by rw [ea]; omega) (by rw [eb]; omega) (by rw [ea, eb]; omega)
  refine ⟨z, by rw [PArr2.sliceArray, if_pos h64]; exact hz, hc, fun e j he hj => ?_⟩
  have heD : e * w ≤ D * w := Nat.mul_le_mul_right w (by omega)
  rw [hv (e * w + j) (by rw [ea, eb]; omega), ea, eb, hA]
  congr 1
  have : ((A : Int).toNat + e) * w = A * w + e * w := by rw [Int.toNat_natCast]; ring
  rw [this]
  omega

-- elements 4 and 3 of four 4-bit elements [5:2]
example : (PArr2.sliceArray (w := 4) (s := false) (ra := ⟨5, 2⟩) (Bits.ofInt 0x1234 : Bits 16 false) 4 3).map
    (·.bv.toNat) = .ok 0x23 := by decide +kernel
example : ((Big.ofU64 5 : Big 70 false).ashlBig (Big.ofU64 66 : Big 70 false)).bv = 5#70 <<< 66 := by decide +kernel

end Verif
