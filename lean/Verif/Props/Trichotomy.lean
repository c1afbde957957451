import Verif.Props.Coherence

/-!
# For which types exactly one of `<`, `==`, `>` holds (C46)

C46 is refuted for some pairs of types; here is the complete list of native widths and signs for which it
holds of all values.
-/

namespace Verif

variable {n m : Nat} {s t : Bool}

/-- for all values of the two types exactly one of `<`, `==` and `>` is true -/
def Trichotomy (n : Nat) (s : Bool) (m : Nat) (t : Bool) : Prop :=
  ∀ (x : Bits n s) (y : Bits m t), x.Clean → y.Clean →
    ∃ a b, x.lt y = .ok a ∧ x.gt y = .ok b ∧ ExactlyOne a (x.eq y) b

/-- on the denoted numbers -/
theorem trichotomy_num (hn : n ≤ 64) (hm : m ≤ 64) : Trichotomy n s m t ↔
    ∀ (p : BitVec n) (q : BitVec m), numOf s p = (holderTy n s).conv (numOf t q) ↔
      if s = t then numOf s p = numOf t q else numOf s p % 2 ^ 64 = numOf t q % 2 ^ 64 := by
  have key : ∀ (x : Bits n s) (y : Bits m t), x.Clean → y.Clean →
      ((∃ a b, x.lt y = .ok a ∧ x.gt y = .ok b ∧ ExactlyOne a (x.eq y) b) ↔
        (numOf s x.bv = (holderTy n s).conv (numOf t y.bv) ↔
          if s = t then numOf s x.bv = numOf t y.bv else numOf s x.bv % 2 ^ 64 = numOf t y.bv % 2 ^ 64)) := by
    intro x y hx hy
    have he := Bits.eq_conv hn hm x y hx hy
    rw [← he]
    have aux : ∀ (P Q : Int) (e : Bool), (∃ a b, (Except.ok (decide (P < Q)) : Res Bool) = .ok a ∧ (Except.ok (decide (Q < P)) : Res Bool) = .ok b ∧
        ExactlyOne a e b) ↔ (e = true ↔ P = Q) := by
      intro P Q e
      constructor
      · rintro ⟨a, b, ha, hb, h⟩
        injection ha with ha; injection hb with hb
        subst ha; subst hb
        simp only [ExactlyOne, decide_eq_true_iff, decide_eq_false_iff_not] at h
        cases e <;> simp at h ⊢ <;> omega
      · intro h
        refine ⟨_, _, rfl, rfl, ?_⟩
        simp only [ExactlyOne, decide_eq_true_iff, decide_eq_false_iff_not]
        cases e <;> simp at h ⊢ <;> omega
    by_cases hst : s = t
    · subst hst
      obtain ⟨g, l, -⟩ := Bits.order_native hn hm x y
      rw [g, l, if_pos rfl, aux, (Bits.clean_native hn x).1 hx, (Bits.clean_native hm y).1 hy]
    · obtain ⟨g, l, -⟩ := C123_order_exact hn hm hst x y hx hy
      rw [g, l, if_neg hst, aux]
  constructor
  · intro h p q
    obtain ⟨x, hx, rfl⟩ := Bits.exists_clean (s := s) p
    obtain ⟨y, hy, rfl⟩ := Bits.exists_clean (s := t) q
    exact (key x y hx hy).1 (h x y hx hy)
  · intro h x y hx hy
    exact (key x y hx hy).2 (h _ _)

theorem numOf_all {v : Int} (h1 : 1 < n) (h : if s then -2 ^ (n - 1) ≤ v ∧ v < 2 ^ (n - 1) else 0 ≤ v ∧ v < 2 ^ n) :
    ∃ p : BitVec n, numOf s p = v := by
  refine ⟨BitVec.ofInt n v, ?_⟩
  cases s with
  | false =>
    simp only [Bool.false_eq_true, if_false] at h
    rw [numOf, if_neg (by simp), BitVec.toNat_ofInt]
    have : v % ((2 ^ n : Nat) : Int) = v := Int.emod_eq_of_lt h.1 (by push_cast; exact h.2)
    rw [this]; omega
  | true =>
    simp only [if_true] at h
    rw [numOf, if_pos (by simp; omega), BitVec.toInt_ofInt]
    exact CTy.conv_signed_of_mem (w := n) (by omega) h.1 h.2

theorem hw_native_cases (h1 : 1 < n) (h : n ≤ 64) :
    (hw n = 8 ∧ n ≤ 8) ∨ (hw n = 16 ∧ 8 < n ∧ n ≤ 16) ∨ (hw n = 32 ∧ 16 < n ∧ n ≤ 32) ∨ (hw n = 64 ∧ 32 < n ∧ n ≤ 64) := by
  unfold hw; split_ifs <;> omega

/-- **C46, exactly.** For native operands, exactly one of `<`, `==`, `>` is true of all pairs of values if and
only if: the signs agree and the right operand is not wider than the C++ type that holds the left one; or the
signs differ and the left operand is wider than 32 bits, or it is signed and the right one narrower than its
C++ type, or it is unsigned and the right one has one bit, or it is unsigned and narrower than its C++ type and the
right one not wider than that type. A left operand of one bit needs a right operand of one bit. -/
theorem C46_iff (hn : 0 < n) (h : n ≤ 64) (hm0 : 0 < m) (hm : m ≤ 64) : Trichotomy n s m t ↔
    if n = 1 then m = 1
    else if s = t then m ≤ hw n
    else 32 < n ∨ (if s then m < hw n else m = 1 ∨ (n < hw n ∧ m ≤ hw n)) := by
  rw [trichotomy_num h hm]
  by_cases hn1 : n = 1
  · subst hn1
    rw [if_pos rfl]
    have c1 : ∀ v, (holderTy 1 s).conv v = if v = 0 then 0 else 1 := fun v => rfl
    simp only [c1]
    constructor
    · intro hall
      by_contra hm1
      have hP : numOf s (1 : BitVec 1) = 1 := by cases s <;> rfl
      obtain ⟨q, hq⟩ : ∃ q : BitVec m, numOf t q = if t then -1 else 2 := by
        apply numOf_all (by omega)
        have p1 : (2 : Int) ^ 1 ≤ 2 ^ (m - 1) := Bits.pow_mono (by omega)
        have p2 : (2 : Int) ^ 2 ≤ 2 ^ m := Bits.pow_mono (by omega)
        cases t <;> simp <;> omega
      have := hall 1 q
      rw [hP, hq] at this
      cases s <;> cases t <;> simp at this
    · rintro rfl p q
      have hp := Bits.numOf_bounds (s := s) (by decide) p
      have hq := Bits.numOf_bounds (s := t) (by decide) q
      simp at hp hq
      generalize numOf s p = P at *
      generalize numOf t q = Q at *
      split_ifs <;> omega
  · rw [if_neg hn1]
    have h1 : 1 < n := by omega
    have hle := le_hw h
    have conv : ∀ v, (holderTy n s).conv v = if s then v.bmod (2 ^ hw n) else v % (2 ^ hw n : Nat) := by
      intro v
      rw [holderTy_ge (by omega)]
      cases s <;> rfl
    by_cases hst : s = t
    · subst hst
      simp only [if_true]
      constructor
      · intro hall
        by_contra hm1
        obtain ⟨x, -, hx⟩ := exists_zero (n := n) (s := s)
        obtain ⟨y, -, hy⟩ := exists_pow (s := s) (w := hw n) (hw_pos n) (by omega : hw n < m)
        have := (hall x.bv y.bv).1 (by
          rw [hx, conv]
          have z1 : ((2 : Int) ^ hw n).bmod (2 ^ hw n) = 0 := by
            have := Int.add_mul_bmod_self_left 0 (2 ^ hw n) 1
            push_cast at this
            simpa using this
          have z2 : (-(2 : Int) ^ hw n).bmod (2 ^ hw n) = 0 := by
            have := Int.add_mul_bmod_self_left 0 (2 ^ hw n) (-1)
            push_cast at this
            simpa using this
          rcases hy with hy | hy <;> rw [hy] <;> cases s <;> simp [z1, z2])
        have hp : (0 : Int) < 2 ^ hw n := by positivity
        rw [hx] at this
        omega
      · intro hmw p q
        rw [numOf_mem h1 hm0 hmw q]
    · rw [if_neg hst]
      simp only [if_neg hst]
      have hp := fun p : BitVec n => Bits.numOf_bounds (s := s) (by omega) p
      have hq := fun q : BitVec m => Bits.numOf_bounds (s := t) hm0 q
      cases s with
      | true =>
        obtain rfl : t = false := by cases t <;> simp at hst ⊢
        simp only [if_true] at conv ⊢
        simp only [Bool.false_and, Bool.false_eq_true, if_false, Bool.true_and, Bool.not_eq_true', decide_eq_false_iff_not,
          show ¬ n ≤ 1 by omega, not_false_eq_true, if_true] at hp hq
        constructor
        · intro hall
          by_contra hno
          obtain ⟨p, ep⟩ : ∃ p : BitVec n, numOf true p = -1 := by
            apply numOf_all h1
            have : (0 : Int) < 2 ^ (n - 1) := by positivity
            simp; omega
          obtain ⟨q, eq⟩ : ∃ q : BitVec m, numOf false q = 2 ^ hw n - 1 := by
            apply numOf_all (by have := hw_ge_eight (n := n) (by omega); omega)
            have : (0 : Int) < 2 ^ hw n := by positivity
            have : (2 : Int) ^ hw n ≤ 2 ^ m := Bits.pow_mono (by omega)
            simp; omega
          have := hall p q
          rw [ep, eq, conv] at this
          rcases hw_native_cases h1 h with ⟨e, -⟩ | ⟨e, -⟩ | ⟨e, -⟩ | ⟨e, hl⟩
          · rw [e] at this; revert this; decide
          · rw [e] at this; revert this; decide
          · rw [e] at this; revert this; decide
          · omega
        · intro hok p q
          rw [conv]
          clear conv
          have C := hw_native_cases h1 h
          have b1 := hp p
          have b2 := hq q
          clear hp hq
          have e1 : (2 : Int) ^ (n - 1) ≤ 2 ^ (hw n - 1) := Bits.pow_mono (by omega)
          have e2 : (2 : Int) ^ m ≤ 2 ^ 64 := Bits.pow_mono hm
          have e3 : hw n ≤ m ∨ (2 : Int) ^ m ≤ 2 ^ (hw n - 1) := (Nat.lt_or_ge m (hw n)).symm.imp id fun h => Bits.pow_mono (by omega)
          generalize numOf true p = P at *
          generalize numOf false q = Q at *
          generalize (2 : Int) ^ m = M at *
          generalize (2 : Int) ^ (n - 1) = N at *
          rw [Int.bmod_def]
          generalize hw n = w at *
          rcases C with ⟨rfl, c⟩ | ⟨rfl, c⟩ | ⟨rfl, c⟩ | ⟨rfl, c⟩ <;> norm_num at * <;> split_ifs <;> omega
      | false =>
        obtain rfl : t = true := by cases t <;> simp at hst ⊢
        simp only [Bool.false_eq_true, if_false] at conv ⊢
        simp only [Bool.false_and, Bool.false_eq_true, if_false, Bool.true_and, Bool.not_eq_true', decide_eq_false_iff_not] at hp hq
        constructor
        · intro hall
          by_contra hno
          by_cases hmw : hw n < m
          · obtain ⟨x, -, hx⟩ := exists_zero (n := n) (s := false)
            obtain ⟨y, -, hy⟩ := exists_pow (s := true) (w := hw n) (hw_pos n) hmw
            have := (hall x.bv y.bv).1 (by
              rw [hx, conv]
              rcases hy with hy | hy <;> rw [hy] <;> simp)
            rw [hx] at this
            exact pow_mod_ne (W := 64) (by omega) hy (by simpa using this.symm)
          · obtain ⟨p, ep⟩ : ∃ p : BitVec n, numOf false p = 2 ^ hw n - 1 := by
              apply numOf_all h1
              have : (0 : Int) < 2 ^ hw n := by positivity
              have : (2 : Int) ^ hw n ≤ 2 ^ n := Bits.pow_mono (by omega)
              simp; omega
            obtain ⟨q, eq⟩ : ∃ q : BitVec m, numOf true q = -1 := by
              apply numOf_all (by omega)
              have : (0 : Int) < 2 ^ (m - 1) := by positivity
              simp; omega
            have := hall p q
            rw [ep, eq, conv] at this
            rcases hw_native_cases h1 h with ⟨e, -⟩ | ⟨e, -⟩ | ⟨e, -⟩ | ⟨e, hl⟩
            · rw [e] at this; revert this; decide
            · rw [e] at this; revert this; decide
            · rw [e] at this; revert this; decide
            · omega
        · intro hok p q
          rw [conv]
          clear conv
          have C := hw_native_cases h1 h
          have b1 := hp p
          have b2 := hq q
          clear hp hq
          have e1 : (2 : Int) ^ n ≤ 2 ^ hw n := Bits.pow_mono (by omega)
          have e2 : (2 : Int) ^ (m - 1) ≤ 2 ^ 63 := Bits.pow_mono (by omega)
          have e3 : hw n < m ∨ (2 : Int) ^ (m - 1) ≤ 2 ^ (hw n - 1) := (Nat.lt_or_ge (hw n) m).imp id fun h => Bits.pow_mono (by omega)
          have e4 : hw n ≤ n ∨ (2 : Int) ^ n ≤ 2 ^ (hw n - 1) := (Nat.lt_or_ge n (hw n)).symm.imp id fun h => Bits.pow_mono (by omega)
          by_cases hm1 : m = 1
          · subst hm1
            simp at b2
            generalize numOf false p = P at *
            generalize numOf true q = Q at *
            generalize (2 : Int) ^ n = N at *
            generalize hw n = w at *
            rcases C with ⟨rfl, c⟩ | ⟨rfl, c⟩ | ⟨rfl, c⟩ | ⟨rfl, c⟩ <;> norm_num at * <;> omega
          · rw [if_pos (by omega)] at b2
            generalize numOf false p = P at *
            generalize numOf true q = Q at *
            generalize (2 : Int) ^ (m - 1) = M at *
            generalize (2 : Int) ^ n = N at *
            generalize hw n = w at *
            rcases C with ⟨rfl, c⟩ | ⟨rfl, c⟩ | ⟨rfl, c⟩ | ⟨rfl, c⟩ <;> norm_num at * <;> omega

-- twelve unsigned bits against sixteen signed ones: exactly one; eight unsigned against two signed: not
example : Trichotomy 12 false 16 true ∧ ¬ Trichotomy 8 false 2 true ∧ Trichotomy 5 true 7 false ∧ ¬ Trichotomy 5 true 8 false := by
  rw [C46_iff (by decide) (by decide) (by decide) (by decide), C46_iff (by decide) (by decide) (by decide) (by decide),
    C46_iff (by decide) (by decide) (by decide) (by decide), C46_iff (by decide) (by decide) (by decide) (by decide)]
  decide

end Verif
