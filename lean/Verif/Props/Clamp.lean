import Verif.Props.Idioms

/-!
# Absolute value, minimum, maximum and clamp (C195)

As a client writes them with `<` and unary `-` on `bit<n-1, 0>`.
-/

namespace Verif

variable {n : Nat} {s : Bool}

/-- `x < zero ? -x : x` -/
def Bits.absV (h : n ≤ 64) (x : Bits n true) : Res (Bits n true) :=
  (x.lt (Bits.zero : Bits n true)).bind fun b => if b then x.neg h else .ok x

/-- `x < y ? x : y` -/
def Bits.minV (x y : Bits n s) : Res (Bits n s) := (x.lt y).map fun b => if b then x else y

/-- `x > y ? x : y` -/
def Bits.maxV (x y : Bits n s) : Res (Bits n s) := (x.gt y).map fun b => if b then x else y

/-- `min(max(x, lo), hi)` -/
def Bits.clampV (x lo hi : Bits n s) : Res (Bits n s) := (x.maxV lo).bind fun y => y.minV hi

/-! ## absolute value -/

/-- unless the storage holds the least number of its C++ type, the negation holds the opposite number -/
theorem Bits.neg_num (h : n ≤ 64) (h1 : 1 < n) (x : Bits n true) (hx : x.nv.v ≠ -2 ^ (hw n - 1)) :
    ∃ z, x.neg h = .ok z ∧ z.nv.v = -x.nv.v := by
  obtain ⟨v, hv, e'⟩ := Bits.neg_exact h x fun _ _ => hx
  refine ⟨Bits.mkN h v, by rw [Bits.neg, hv]; rfl, ?_⟩
  have b := Bits.nv_signed h h1 x
  rw [Bits.nv_mkN]
  show (holderTy n true).conv v.v = _
  rw [holderTy_ge (by omega)]
  have h5 := ofInt_eq_iff.1 e'
  rw [← CTy.conv_signed_of_mem (w := hw n) (a := -x.nv.v) (hw_pos n) (by omega) (by omega)]
  show v.v.bmod (2 ^ hw n) = (-x.nv.v).bmod (2 ^ hw n)
  rw [← Int.emod_bmod v.v, h5, Int.emod_bmod]

theorem Bits.absV_eq (h : n ≤ 64) (x : Bits n true) :
    x.absV h = if x.nv.v < 0 then x.neg h else .ok x := by
  rw [Bits.absV, (Bits.order_native h h x Bits.zero).2.1, Bits.nv_zero h]
  by_cases hx : x.nv.v < 0 <;> simp [hx, Except.bind]

/-- the number in the storage, from the number denoted -/
theorem Bits.clean_of_nv (h : n ≤ 64) (h1 : 1 < n) {z : Bits n true} (h0 : -2 ^ (n - 1) ≤ z.nv.v)
    (h2 : z.nv.v < 2 ^ (n - 1)) : z.Clean ∧ z.bv.toInt = z.nv.v := by
  have et : z.bv.toInt = z.nv.v := by
    rw [Bits.bv_ofInt h, BitVec.toInt_ofInt]
    exact CTy.conv_signed_of_mem (w := n) (by omega) h0 h2
  refine ⟨?_, et⟩
  rw [Bits.clean_native h, numOf, if_pos (by simp; omega), et]

/-- **C195, absolute value, partial.** `x < 0 ? -x : x` is the absolute value and canonical, at every native width
above one. Missing: the least number (`C195_abs_least`). -/
theorem C195_abs_partial (h : n ≤ 64) (h1 : 1 < n) (x : Bits n true) (hc : x.Clean)
    (hx : x.bv.toInt ≠ -2 ^ (n - 1)) : ∃ z, x.absV h = .ok z ∧ z.Clean ∧ z.bv.toInt = |x.bv.toInt| := by
  obtain ⟨e, b0, b1⟩ := Bits.clean_signed_bounds h h1 hc
  have p : (2 : Int) ^ (n - 1) ≤ 2 ^ (hw n - 1) := Bits.pow_mono (by have := le_hw h; omega)
  rw [Bits.absV_eq]
  by_cases hn : x.nv.v < 0
  · rw [if_pos hn]
    obtain ⟨z, hz, ez⟩ := Bits.neg_num h h1 x (by omega)
    obtain ⟨hzc, hzi⟩ := Bits.clean_of_nv h h1 (z := z) (by omega) (by omega)
    exact ⟨z, hz, hzc, by rw [hzi, ez, e, abs_of_neg (by omega)]⟩
  · rw [if_neg hn]
    exact ⟨x, rfl, hc, by rw [abs_of_nonneg (by omega)]⟩

/-- **C195, the least number.** Its absolute value is undefined behaviour at 32 and 64 bits, is the least number
itself (negative) at 8 and 16 bits, and elsewhere is a value that compares as non-negative though its bits are
those of the least number, and which is not canonical. -/
theorem C195_abs_least (h : n ≤ 64) (h1 : 1 < n) (x : Bits n true) (hc : x.Clean)
    (hx : x.bv.toInt = -2 ^ (n - 1)) :
    (n = 32 ∨ n = 64 → x.absV h = .error .overflow) ∧
    (n = 8 ∨ n = 16 → ∃ z, x.absV h = .ok z ∧ z.bv = x.bv ∧ z.lt (Bits.zero : Bits n true) = .ok true) ∧
    (n ≠ 8 → n ≠ 16 → n ≠ 32 → n ≠ 64 →
      ∃ z, x.absV h = .ok z ∧ z.bv = x.bv ∧ z.lt (Bits.zero : Bits n true) = .ok false ∧ ¬ z.Clean) := by
  obtain ⟨e, b0, b1⟩ := Bits.clean_signed_bounds h h1 hc
  have q : (0 : Int) < 2 ^ (n - 1) := by positivity
  rw [Bits.absV_eq, if_pos (by omega)]
  have hbv : - x.bv = x.bv := by
    have : x.bv = BitVec.intMin n := by
      apply BitVec.eq_of_toInt_eq
      rw [hx, BitVec.toInt_intMin_of_pos (by omega)]
    rw [this, BitVec.neg_intMin]
  refine ⟨fun hn => C35_min_overflow h hn x hc hx, fun hn => ?_, fun n8 n16 n32 n64 => ?_⟩
  · obtain ⟨z, hz, ez⟩ := Bits.neg_native h (by omega) x (fun _ _ => by omega)
    refine ⟨z, hz, ez.trans hbv, ?_⟩
    rw [(Bits.order_native h h z Bits.zero).2.1, Bits.nv_zero h]
    have hfull : z.Clean := by
      have ew : hw n = n := by rcases hn with e | e <;> subst e <;> rfl
      have b := Bits.nv_signed h h1 z
      rw [ew] at b
      exact (Bits.clean_of_nv h h1 b.1 b.2).1
    rw [(Bits.clean_signed_bounds h h1 hfull).1, ez, hbv, hx]
    simp
  · have hlt : n < hw n := by
      have := le_hw h
      have : hw n ≠ n := fun e => by have := (Bits.full_iff (by omega) h).2 e; rw [Full] at this; omega
      omega
    have p : (2 : Int) ^ (n - 1) < 2 ^ (hw n - 1) := pow_lt_pow_right₀ (by decide) (by omega)
    obtain ⟨z, hz, ez⟩ := Bits.neg_num h h1 x (by omega)
    obtain ⟨z', hz', eb⟩ := Bits.neg_native h (by omega) x (fun _ _ => by omega)
    rw [hz] at hz'
    cases hz'
    refine ⟨z, hz, eb.trans hbv, ?_, fun hzc => ?_⟩
    · rw [(Bits.order_native h h z Bits.zero).2.1, Bits.nv_zero h, ez, e, hx]
      simp
    · have := (Bits.clean_signed_bounds h h1 hzc).2.2
      rw [ez, e, hx] at this
      omega

/-- **C195, absolute value, is false as stated**: the absolute value of the least 8-bit number is negative. -/
theorem C195_abs_refuted : ¬ ∀ (n : Nat) (h : n ≤ 64) (x : Bits n true), 1 < n → x.Clean →
    ∃ z, x.absV h = .ok z ∧ z.bv.toInt = |x.bv.toInt| := by
  intro H
  obtain ⟨z, hz, e⟩ := H 8 (by decide) (Bits.ofInt (-128)) (by decide) (by decide +kernel)
  obtain ⟨z', hz', e', -⟩ := (C195_abs_least (by decide) (by decide) (Bits.ofInt (-128) : Bits 8 true)
    (by decide +kernel) (by decide +kernel)).2.1 (Or.inl rfl)
  rw [hz] at hz'
  cases hz'
  rw [e'] at e
  exact absurd e (by decide +kernel)

/-! ## minimum, maximum, clamp -/

/-- **C195, minimum and maximum**, of unsigned vectors of every width and of signed native ones: the result is one
of the operands, and its number is the minimum (maximum) of the numbers. -/
theorem C195_min_max (hs : s = true → n ≤ 64) (x y : Bits n s) (hx : x.Clean) (hy : y.Clean) :
    (∃ z, x.minV y = .ok z ∧ (z = x ∨ z = y) ∧ numOf s z.bv = min (numOf s x.bv) (numOf s y.bv)) ∧
    (∃ z, x.maxV y = .ok z ∧ (z = x ∨ z = y) ∧ numOf s z.bv = max (numOf s x.bv) (numOf s y.bv)) := by
  have key : x.gt y = .ok (decide (numOf s y.bv < numOf s x.bv)) ∧
      x.lt y = .ok (decide (numOf s x.bv < numOf s y.bv)) := by
    cases s with
    | false => simpa [numOf] using C40_gt_lt Iff.rfl x y hx hy
    | true =>
      obtain ⟨a, b, -⟩ := C41_signed_order (hs rfl) (hs rfl) x y hx hy
      exact ⟨a, b⟩
  constructor
  · rw [Bits.minV, key.2]
    by_cases hl : numOf s x.bv < numOf s y.bv
    · exact ⟨x, by simp [hl, Except.map], Or.inl rfl, by omega⟩
    · exact ⟨y, by simp [hl, Except.map], Or.inr rfl, by omega⟩
  · rw [Bits.maxV, key.1]
    by_cases hl : numOf s y.bv < numOf s x.bv
    · exact ⟨x, by simp [hl, Except.map], Or.inl rfl, by omega⟩
    · exact ⟨y, by simp [hl, Except.map], Or.inr rfl, by omega⟩

/-- **C195, minimum and maximum, signed wide, partial.** Missing: two negative numbers one of which is the least
(`C195_max_least`; the maximum of the least number with itself does not end). -/
theorem C195_min_max_wide_partial (h : 64 < n) (x y : Bits n true) (hx : x.Clean) (hy : y.Clean)
    (hmin : x.bv.msb = true → y.bv.msb = true → x.bv ≠ BitVec.intMin n ∧ y.bv ≠ BitVec.intMin n) :
    (∃ z, x.minV y = .ok z ∧ (z = x ∨ z = y) ∧ z.bv.toInt = min x.bv.toInt y.bv.toInt) ∧
    (∃ z, x.maxV y = .ok z ∧ (z = x ∨ z = y) ∧ z.bv.toInt = max x.bv.toInt y.bv.toInt) := by
  have key := C42_signed_wide_partial h x y hx hy hmin
  constructor
  · rw [Bits.minV, key.2]
    by_cases hl : x.bv.toInt < y.bv.toInt
    · exact ⟨x, by simp [hl, Except.map], Or.inl rfl, by omega⟩
    · exact ⟨y, by simp [hl, Except.map], Or.inr rfl, by omega⟩
  · rw [Bits.maxV, key.1]
    by_cases hl : y.bv.toInt < x.bv.toInt
    · exact ⟨x, by simp [hl, Except.map], Or.inl rfl, by omega⟩
    · exact ⟨y, by simp [hl, Except.map], Or.inr rfl, by omega⟩

/-- **C195, minimum and maximum with the least number, signed wide**: of a negative number and the least number,
the maximum is the least number; with itself the least number has no maximum, the comparison does not end. -/
theorem C195_max_least (h : 64 < n) (x y : Bits n true) (hx : x.bv = BitVec.intMin n) (hm : y.bv.msb = true)
    (hy : y.bv ≠ BitVec.intMin n) : x.maxV y = .ok x ∧ y.maxV x = .ok x ∧ x.maxV x = .error .diverge := by
  have hn : ¬ n ≤ 64 := by omega
  obtain ⟨h1, -, -⟩ := C42_least h x y
  obtain ⟨-, h2, -⟩ := C42_least h y x
  obtain ⟨-, -, h3⟩ := C42_least h x x
  have h4 : x.gt x = .error .diverge := by
    rw [Bits.gt, dif_neg hn, dif_neg hn, Big.gt, if_pos (by simp)]
    exact h3 hx hx _
  rw [Bits.maxV, Bits.maxV, Bits.maxV, h1 hx hm hy, h2 hm hy hx, h4]
  simp [Except.map]

/-- **C195, maximum, is false for signed wide vectors**: the maximum of the least 70-bit number and a greater
negative number is the least number. -/
theorem C195_max_wide_refuted : ∃ x y z : Bits 70 true, x.Clean ∧ y.Clean ∧ x.maxV y = .ok z ∧
    z.bv.toInt < max x.bv.toInt y.bv.toInt :=
  ⟨leastWide 70, ((leastWide 70).set (Rng.down 70) 3 true).toOption.get!, leastWide 70, by decide +kernel,
    by decide +kernel, by decide +kernel, by decide +kernel⟩

/-- **C195, clamp**: between bounds in order, for unsigned vectors of every width and signed native ones. -/
theorem C195_clamp (hs : s = true → n ≤ 64) (x lo hi : Bits n s) (hx : x.Clean) (hl : lo.Clean) (hh : hi.Clean)
    (hle : numOf s lo.bv ≤ numOf s hi.bv) :
    ∃ z, x.clampV lo hi = .ok z ∧ z.Clean ∧ numOf s lo.bv ≤ numOf s z.bv ∧ numOf s z.bv ≤ numOf s hi.bv ∧
      (numOf s lo.bv ≤ numOf s x.bv → numOf s x.bv ≤ numOf s hi.bv → numOf s z.bv = numOf s x.bv) := by
  obtain ⟨-, y, ey, hy, ny⟩ := C195_min_max hs x lo hx hl
  have hyc : y.Clean := by rcases hy with rfl | rfl <;> assumption
  obtain ⟨⟨z, ez, hz, nz⟩, -⟩ := C195_min_max hs y hi hyc hh
  have hzc : z.Clean := by rcases hz with rfl | rfl <;> assumption
  refine ⟨z, by rw [Bits.clampV, ey]; exact ez, hzc, ?_, ?_, ?_⟩ <;> omega

example : Bits.num ((Bits.ofInt (-5) : Bits 8 true).absV (by decide)) = some 5 := by decide +kernel
example : Bits.num ((Bits.ofInt (-128) : Bits 8 true).absV (by decide)) = some 128 := by decide +kernel
example : (Bits.ofInt (-2 ^ 31) : Bits 32 true).absV (by decide) = .error .overflow := by decide +kernel
example : Bits.num ((Bits.ofInt (-5) : Bits 33 true).minV (Bits.ofInt 4)) = some (2 ^ 33 - 5) := by decide +kernel
example : Bits.num ((Bits.ofInt 9 : Bits 70 false).clampV (Bits.ofInt 2) (Bits.ofInt 6)) = some 6 := by decide +kernel

end Verif
