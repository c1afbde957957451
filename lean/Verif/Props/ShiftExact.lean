import Verif.Lemmas.ShiftExact

/-!
# Native shifts with every amount

Completes C24, C25 and C26: the built-in shift sees the amount after conversion to the
holder type of the shifted value (8, 16, 32 or 64 bits, with its sign), which
`heldAmount` writes out; amounts of 256 and more therefore wrap around.
-/

namespace Verif

variable {n m : Nat} {s t : Bool}

/-- **C24, native, exactly.** A native right shift of at least two bits is defined if and
only if the amount is below the width and not negative; `C24_shr_partial` gives the
result there. Compare `C24_native_shift_ge`. -/
theorem C24_native_iff (h : n ≤ 64) (h1 : 1 < n) (hm : m ≤ 64) (x : Bits n s) (y : Bits m t)
    (hy : y.Clean) :
    (∃ z, x.shr y = .ok z) ↔ 0 ≤ numOf t y.bv ∧ numOf t y.bv < n := by
  rw [Bits.shr_native_ok_iff h h1 hm, (Bits.clean_native hm y).1 hy]

/-- **C24 is false at every native width above one**: any amount of at least the width,
however large, is undefined behaviour instead of giving 0. -/
theorem C24_refuted_all (h : n ≤ 64) (h1 : 1 < n) (hm : m ≤ 64) (x : Bits n s) (y : Bits m t)
    (hy : y.Clean) (hk : n ≤ numOf t y.bv) : x.shr y = .error .shift := by
  rw [← (Bits.clean_native hm y).1 hy] at hk
  rcases Bits.shr_native_bad h h1 hm x y (Or.inr hk) with e | ⟨-, e⟩
  · exact e
  · omega

/-- **C25, native, every amount.** If the converted amount is in the range of the promoted
type the value is shifted by it; otherwise the shift is undefined behaviour. -/
theorem C25_native_exact (h : n ≤ 64) (h1 : 1 < n) (hm : m ≤ 64) (x : Bits n s) (y : Bits m t)
    (hy : y.Clean) :
    (∀ k : Nat, heldAmount n s (numOf t y.bv) = k → k < (if n ≤ 32 then 32 else 64) →
      ∃ z, x.shl y = .ok z ∧ z.bv = x.bv <<< k) ∧
    (heldAmount n s (numOf t y.bv) < 0 ∨
        (if n ≤ 32 then 32 else 64) ≤ heldAmount n s (numOf t y.bv) →
      x.shl y = .error .shift) := by
  have := Bits.shl_native_exact h h1 hm x y
  rw [(Bits.clean_native hm y).1 hy, Bits.promoted_width h1] at this
  refine ⟨this.1, fun hc => this.2 ?_⟩
  split_ifs at hc ⊢ <;> exact_mod_cast hc

/-- **C25 is false of narrow values with wide amounts**: an amount that is a multiple of
the holder size's modulus, such as 256 for eight bits, leaves the value as it is instead
of giving 0. -/
theorem C25_wrap_refuted (h : n ≤ 8) (h1 : 1 < n) (hm : m ≤ 64) (x : Bits n s) (y : Bits m t)
    (hy : y.Clean) (k : Nat) (hk0 : 0 < k) (hk : numOf t y.bv = 256 * k) (hx : x.bv ≠ 0) :
    ∃ z, x.shl y = .ok z ∧ z.bv = x.bv ∧ z.bv ≠ x.bv <<< (256 * k) := by
  have ha : heldAmount n s (numOf t y.bv) = ((0 : Nat) : Int) := by
    rw [hk, heldAmount, if_pos h]
    split_ifs
    · rw [Int.bmod_def]; norm_num
    · norm_num
  obtain ⟨z, hz, e⟩ := (C25_native_exact (by omega) h1 hm x y hy).1 0 ha (by split_ifs <;> decide)
  rw [BitVec.shiftLeft_zero] at e
  refine ⟨z, hz, e, ?_⟩
  rw [e, Bits.shiftLeft_ge (by omega)]
  exact hx

/-- **C26, native, every amount.** -/
theorem C26_native_exact (h : n ≤ 64) (h1 : 1 < n) (hm : m ≤ 64) (x : Bits n s) (y : Bits m t)
    (hx : x.Clean) (hy : y.Clean) :
    (∀ k : Nat, heldAmount n s (numOf t y.bv) = k → k < (if n ≤ 32 then 32 else 64) →
      ∃ z, x.ashr y = .ok z ∧ z.bv = ashrSpec s x.bv k) ∧
    (heldAmount n s (numOf t y.bv) < 0 ∨
        (if n ≤ 32 then 32 else 64) ≤ heldAmount n s (numOf t y.bv) →
      x.ashr y = .error .shift) := by
  have := Bits.ashr_native_exact h h1 hm x y
  rw [(Bits.clean_native hm y).1 hy, Bits.promoted_width h1] at this
  refine ⟨fun k hk hlt => ?_, fun hc => this.2 ?_⟩
  · obtain ⟨z, hz, hb⟩ := this.1 k hk hlt
    refine ⟨z, hz, ?_⟩
    rw [hb, ashrSpec]
    cases s with
    | true =>
      rw [(Bits.clean_signed_bounds h h1 hx).1, if_pos rfl, BitVec.sshiftRight, Int.shiftRight_eq_div_pow]
      push_cast; rfl
    | false =>
      rw [(Bits.clean_unsigned_bounds h hx).1, if_neg (by decide)]
      rw [show ((x.bv.toNat : Int) / 2 ^ k) = ((x.bv.toNat / 2 ^ k : Nat) : Int) by push_cast; rfl,
        ofInt_natCast]
      apply BitVec.eq_of_toNat_eq
      rw [BitVec.toNat_ofNat, BitVec.toNat_ushiftRight, Nat.shiftRight_eq_div_pow]
      exact Nat.mod_eq_of_lt (Nat.lt_of_le_of_lt (Nat.div_le_self _ _) x.bv.isLt)
  · split_ifs at hc ⊢ <;> exact_mod_cast hc

/-- **C25 and C26 for one-bit values.** The amount is converted to `bool`. A left shift
returns the value itself whatever the amount; a right shift by any amount but 0 gives
0, also for the arithmetic one. -/
theorem C25_one_bit_exact (hm : m ≤ 64) (x : Bits 1 s) (y : Bits m t) (hy : y.Clean) :
    (∃ z, x.shl y = .ok z ∧ z.bv = x.bv) ∧
    (∃ z, x.ashr y = .ok z ∧ z.bv = if numOf t y.bv = 0 then x.bv else 0) := by
  have hc : y.nv.cast (holderTy 1 s) = ⟨.bool, if numOf t y.bv = 0 then 0 else 1⟩ := by
    rw [TV.cast, holderTy_one (by decide), (Bits.clean_native hm y).1 hy]; rfl
  have hbv : ∀ v : TV, (Bits.mkN (by decide : (1 : Nat) ≤ 64) v : Bits 1 (s && t)).bv =
      if v.v = 0 then 0 else 1 := by
    intro v
    rw [Bits.bv_native (by decide), Bits.hold_mkN_one (by decide) (by decide)]
    split_ifs <;> rfl
  have hx1 : (x.nv = ⟨.bool, 0⟩ ∧ x.bv = 0) ∨ (x.nv = ⟨.bool, 1⟩ ∧ x.bv = 1) := by
    rcases Bits.nv_one (by decide) (by decide) x with e | e
    · left
      refine ⟨e, ?_⟩
      have := Bits.bv_ofInt (by decide) x
      rw [this, e]; rfl
    · right
      refine ⟨e, ?_⟩
      have := Bits.bv_ofInt (by decide) x
      rw [this, e]; rfl
  rw [Bits.shl, Bits.ashr, dif_pos (by decide), if_pos hm, dif_pos (by decide), if_pos hm, hc]
  by_cases h0 : numOf t y.bv = 0
  · rw [if_pos h0, if_pos h0]
    rcases hx1 with ⟨e, eb⟩ | ⟨e, eb⟩ <;> rw [e, eb] <;>
      exact ⟨⟨_, rfl, (hbv _).trans (by decide)⟩, ⟨_, rfl, (hbv _).trans (by decide)⟩⟩
  · rw [if_neg h0, if_neg h0]
    rcases hx1 with ⟨e, eb⟩ | ⟨e, eb⟩ <;> rw [e, eb] <;>
      exact ⟨⟨_, rfl, (hbv _).trans (by decide)⟩, ⟨_, rfl, (hbv _).trans (by decide)⟩⟩

-- 256 in nine bits wraps to 0 for an eight-bit value; 2^32 - 1 stays undefined for `>>`
example : Bits.num ((Bits.ofInt 0xB4 : Bits 8 false).shl (Bits.ofInt 256 : Bits 9 false)) = some 0xB4 := by
  decide +kernel
example : Bits.num ((Bits.ofInt 0xB4 : Bits 8 false).ashr (Bits.ofInt 258 : Bits 9 false)) = some 0x2D := by
  decide +kernel
example : (Bits.ofInt 0xB4 : Bits 8 false).shr (Bits.ofInt (2 ^ 32 - 1) : Bits 32 false) = .error .shift := by
  decide +kernel
example : (Bits.ofInt 0x34 : Bits 8 true).shl (Bits.ofInt (-1) : Bits 4 true) = .error .shift := by
  decide +kernel
example : (Bits.ofInt 0x34 : Bits 8 true).shr (Bits.ofInt (-2 ^ 31) : Bits 32 true) = .error .overflow := by
  decide +kernel
example : Bits.num ((Bits.ofInt 1 : Bits 1 false).shl (Bits.ofInt 77 : Bits 9 false)) = some 1 := by
  decide +kernel

end Verif
