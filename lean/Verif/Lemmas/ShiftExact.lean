import Verif.Props.Shift

/-! Native shifts with every amount: the amount is first converted to the type of the
shifted value's holder. -/

namespace Verif

variable {n m : Nat} {s t : Bool}

/-- the amount `v` converted to a native holder of at least two bits, written out -/
def heldAmount (n : Nat) (s : Bool) (v : Int) : Int :=
  if s then v.bmod (2 ^ (if n ≤ 8 then 8 else if n ≤ 16 then 16 else if n ≤ 32 then 32 else 64))
  else v % 2 ^ (if n ≤ 8 then 8 else if n ≤ 16 then 16 else if n ≤ 32 then 32 else 64)

namespace Bits

theorem holder_width (h1 : 1 < n) :
    hw n = if n ≤ 8 then 8 else if n ≤ 16 then 16 else if n ≤ 32 then 32 else 64 := by
  simp only [hw]; split_ifs <;> omega

theorem promoted_width (h1 : 1 < n) : max 32 (hw n) = if n ≤ 32 then 32 else 64 := by
  rw [holder_width h1]; split_ifs <;> omega

theorem conv_held (h1 : 1 < n) (v : Int) : (holderTy n s).conv v = heldAmount n s v := by
  rw [holderTy_ge (by omega), heldAmount, ← holder_width h1]
  cases s with
  | false => simp [CTy.conv]
  | true => rfl

theorem promote_width_holder (n : Nat) (s : Bool) : (holderTy n s).promote.width = max 32 (hw n) := by
  rw [promote_holder]; split_ifs <;> simp [CTy.width] <;> omega

theorem shl_native_exact (h : n ≤ 64) (h1 : 1 < n) (hm : m ≤ 64) (x : Bits n s) (y : Bits m t) :
    (∀ k : Nat, heldAmount n s y.nv.v = k → k < max 32 (hw n) →
      ∃ z, x.shl y = .ok z ∧ z.bv = x.bv <<< k) ∧
    (heldAmount n s y.nv.v < 0 ∨ max 32 (hw n) ≤ heldAmount n s y.nv.v →
      x.shl y = .error .shift) := by
  constructor
  · intro k hk hlt
    have hv := TV.shl_ok (x := x.nv) (c := y.nv.cast (holderTy n s)) (k := k)
      (by rw [TV.cast]; simp only [conv_held h1]; exact hk)
      (by rw [nv_ty, promote_width_holder]; exact hlt)
    refine ⟨mkN h _, by rw [shl, dif_pos h, if_pos hm, hv]; rfl, ?_⟩
    rw [bv_mkN h (by omega)]
    simp only [nv_ty]
    rw [ofInt_promote_conv n s (Or.inl (le_hw h)), promote_conv_nv h x, BitVec.ofInt_mul, bv_ofInt h x,
      BitVec.shiftLeft_eq_mul_twoPow]
    congr 1
    rw [show ((2 : Int) ^ k) = ((2 ^ k : Nat) : Int) by push_cast; rfl, ofInt_natCast]
    apply BitVec.eq_of_toNat_eq
    rw [BitVec.toNat_twoPow, BitVec.toNat_ofNat]
  · intro hc
    have hcond : (y.nv.cast (holderTy n s)).v < 0 ∨
        (((x.nv.ty.promote.width : Nat)) : Int) ≤ (y.nv.cast (holderTy n s)).v := by
      rw [nv_ty, promote_width_holder, TV.cast]
      simp only [conv_held h1]
      exact_mod_cast hc
    rw [shl, dif_pos h, if_pos hm, TV.shl]
    simp only [hcond, if_true]; rfl

theorem ashr_native_exact (h : n ≤ 64) (h1 : 1 < n) (hm : m ≤ 64) (x : Bits n s) (y : Bits m t) :
    (∀ k : Nat, heldAmount n s y.nv.v = k → k < max 32 (hw n) →
      ∃ z, x.ashr y = .ok z ∧ z.bv = BitVec.ofInt n (x.nv.v / 2 ^ k)) ∧
    (heldAmount n s y.nv.v < 0 ∨ max 32 (hw n) ≤ heldAmount n s y.nv.v →
      x.ashr y = .error .shift) := by
  constructor
  · intro k hk hlt
    obtain ⟨v, hv, _, hb⟩ := shr_tv h x (c := y.nv.cast (holderTy n s)) (k := k)
      (by rw [TV.cast]; simp only [conv_held h1]; exact hk) (by rw [promote_width_holder]; exact hlt)
    refine ⟨mkN h v, by rw [ashr, dif_pos h, if_pos hm, hv]; rfl, ?_⟩
    rw [bv_mkN h (by omega), hb n (Or.inl (le_hw h))]
  · intro hc
    have hcond : (y.nv.cast (holderTy n s)).v < 0 ∨
        (((x.nv.ty.promote.width : Nat)) : Int) ≤ (y.nv.cast (holderTy n s)).v := by
      rw [nv_ty, promote_width_holder, TV.cast]
      simp only [conv_held h1]
      exact_mod_cast hc
    rw [ashr, dif_pos h, if_pos hm, TV.shr_fault hcond]; rfl

/-- the mask of a right shift by a number that is not below the width -/
theorem valueMask_bad (r : TV) (hr : 64 < r.v % 2 ^ 64 ∨ r.v % 2 ^ 64 = 0) :
    valueMask n s r = .error .shift := by
  rw [valueMask]
  have hs2 : TV.sub (TV.u64 64) (r.cast tU64) = .ok ⟨tU64, (64 - (r.v % 2 ^ 64)) % 2 ^ 64⟩ := by
    show Except.ok (TV.mk tU64 (tU64.conv (tU64.conv (tU64.conv 64) - tU64.conv (tU64.conv r.v)))) = _
    congr 2
    show (64 % (2 ^ 64 : Nat) % (2 ^ 64 : Nat) - r.v % (2 ^ 64 : Nat) % (2 ^ 64 : Nat)) % (2 ^ 64 : Nat) = _
    push_cast
    omega
  rw [hs2, res_bind_ok]
  have : (64 : Int) ≤ (64 - (r.v % 2 ^ 64)) % 2 ^ 64 := by omega
  rw [TV.shr_fault (x := TV.u64 (2 ^ 64 - 1)) (c := ⟨tU64, (64 - r.v % 2 ^ 64) % 2 ^ 64⟩)
    (Or.inr this)]
  rfl

/-- `size - amount` for every amount: the common type is 32 or 64 bits wide -/
theorem sub_size (h : n ≤ 64) (hm : m ≤ 64) (y : Bits m t) :
    ∃ W sg, (W = 32 ∨ W = 64) ∧ (W = 32 → y.nv.v < 2 ^ 32) ∧
      (sg = true → -2 ^ (W - 1) ≤ y.nv.v ∧ y.nv.v < 2 ^ (W - 1)) ∧ (sg = false → 0 ≤ y.nv.v) ∧
      TV.sub (TV.int n) y.nv =
        if sg = true ∧ 2 ^ (W - 1) ≤ (n : Int) - y.nv.v then .error .overflow
        else .ok ⟨.int W sg, (CTy.int W sg).conv (n - y.nv.v)⟩ := by
  obtain ⟨W, sg, e, hW, -, hW2⟩ := CTy.usual_spec tInt (holderTy m t)
  have hb := nv_bounds hm y
  have hn' : (n : Int) ≤ 64 := by exact_mod_cast h
  have hc : (W = 32 ∨ W = 64) ∧ (W = 32 → y.nv.v < 2 ^ 32) ∧
      (sg = true → -2 ^ (W - 1) ≤ y.nv.v ∧ y.nv.v < 2 ^ (W - 1)) ∧ (sg = false → 0 ≤ y.nv.v) := by
    have e' := e
    have hp := promote_holder m t
    simp only [CTy.usual] at e'
    rw [hp] at e'
    clear hW2 e hp
    by_cases hm1 : m ≤ 1
    · rw [hw_one hm1] at e' hb
      have hd : decide (m ≤ 1) = true := decide_eq_true hm1
      cases t <;> simp [CTy.promote, hd] at e' hb <;> obtain ⟨rfl, rfl⟩ := e' <;> simp <;> omega
    · have hd : decide (m ≤ 1) = false := decide_eq_false hm1
      have h8 := hw_ge_eight (n := m) (by omega)
      rcases hw_cases m with q | q | q | q | q
      · omega
      all_goals
        rw [q] at e' hb
        cases t <;> simp [CTy.promote, hd] at e' hb <;> obtain ⟨rfl, rfl⟩ := e' <;> simp <;> omega
  obtain ⟨c1, c2, c3, c4⟩ := hc
  refine ⟨W, sg, c1, c2, c3, c4, ?_⟩
  have cn : (CTy.int W sg).conv (n : Int) = n := by
    cases sg with
    | false =>
      have p : (2 : Int) ^ 32 ≤ 2 ^ W := pow_mono hW
      exact CTy.conv_unsigned_of_lt (by omega) (by omega)
    | true =>
      have p : (2 : Int) ^ 31 ≤ 2 ^ (W - 1) := pow_mono (by omega)
      exact CTy.conv_signed_of_mem (by omega) (by omega) (by omega)
  have cy : (CTy.int W sg).conv y.nv.v = y.nv.v := by
    cases sg with
    | false =>
      have p : y.nv.v < 2 ^ W := by
        rcases c1 with rfl | rfl
        · exact c2 rfl
        · have := nv_abs_bounds hm y
          have p : (2 : Int) ^ hw m ≤ 2 ^ 64 := pow_mono (hw_le m)
          omega
      exact CTy.conv_unsigned_of_lt (c4 rfl) p
    | true => exact CTy.conv_signed_of_mem (by omega) (c3 rfl).1 (c3 rfl).2
  simp only [TV.sub, TV.arith, nv_ty, TV.int, e, cn, cy]
  cases sg with
  | false => simp [CTy.signed]
  | true =>
    obtain ⟨b1, b2⟩ := c3 rfl
    by_cases hov : (2 : Int) ^ (W - 1) ≤ (n : Int) - y.nv.v
    · rw [if_pos (show true = true ∧ _ from ⟨rfl, hov⟩)]
      apply if_pos
      simp only [CTy.signed, Bool.true_and, bne_iff_ne, ne_eq]
      intro hc
      have hlt : (CTy.int W true).conv ((n : Int) - y.nv.v) < 2 ^ (W - 1) := by
        rcases c1 with rfl | rfl
        · have := Int.bmod_lt (x := (n : Int) - y.nv.v) (m := 2 ^ 32) (by decide)
          show Int.bmod _ _ < _
          norm_num at this ⊢
          omega
        · have := Int.bmod_lt (x := (n : Int) - y.nv.v) (m := 2 ^ 64) (by decide)
          show Int.bmod _ _ < _
          norm_num at this ⊢
          omega
      omega
    · rw [if_neg (show ¬ (true = true ∧ _) from fun hh => hov hh.2)]
      apply if_neg
      simp only [CTy.signed, Bool.true_and, bne_iff_ne, ne_eq, not_not]
      have p : (2 : Int) ^ 31 ≤ 2 ^ (W - 1) := pow_mono (by omega)
      exact CTy.conv_signed_of_mem (by omega) (by omega) (by omega)

theorem held_mod (n : Nat) (s : Bool) (v : Int) : heldAmount n s v % 256 = v % 256 := by
  rw [heldAmount]
  split_ifs
  all_goals first
    | omega
    | (rw [Int.bmod_def]; split_ifs <;> omega)

/-- a native right shift by an amount that is negative or at least the width -/
theorem shr_native_bad (h : n ≤ 64) (h1 : 1 < n) (hm : m ≤ 64) (x : Bits n s) (y : Bits m t)
    (hk : y.nv.v < 0 ∨ (n : Int) ≤ y.nv.v) :
    x.shr y = .error .shift ∨ (x.shr y = .error .overflow ∧ y.nv.v < 0) := by
  rw [shr, dif_pos h, if_pos hm]
  by_cases hf : heldAmount n s y.nv.v < 0 ∨ ((max 32 (hw n) : Nat) : Int) ≤ heldAmount n s y.nv.v
  · left
    rw [TV.shr_fault (x := x.nv) (c := y.nv.cast (holderTy n s))
      (by rw [nv_ty, promote_width_holder, TV.cast]; simp only [conv_held h1]; exact_mod_cast hf)]
    rfl
  rcases TV.shr_total x.nv (y.nv.cast (holderTy n s)) with ⟨v, hv⟩ | hv
  swap
  · rw [hv]; left; rfl
  rw [hv, res_bind_ok]
  have hn' : (n : Int) ≤ 64 := by exact_mod_cast h
  have hh := held_mod n s y.nv.v
  have hw64 : max 32 (hw n) ≤ 64 := by have := hw_le n; omega
  obtain ⟨W, sg, c1, c2, c3, c4, e⟩ := sub_size h hm y
  have hab := nv_abs_bounds hm y
  have p : (2 : Int) ^ hw m ≤ 2 ^ 64 := pow_mono (hw_le m)
  by_cases hov : sg = true ∧ (2 : Int) ^ (W - 1) ≤ (n : Int) - y.nv.v
  · rw [if_pos hov] at e
    right
    rw [e]
    refine ⟨rfl, ?_⟩
    have : (2 : Int) ^ 31 ≤ 2 ^ (W - 1) := pow_mono (by omega)
    have := hov.2
    omega
  · rw [if_neg hov] at e
    left
    rw [e, res_bind_ok, valueMask_bad]
    · rfl
    have hmod : ((CTy.int W sg).conv (n - y.nv.v)) = n - y.nv.v ∨
        (sg = false ∧ (CTy.int W sg).conv (n - y.nv.v) = (n - y.nv.v) % 2 ^ W) := by
      cases sg with
      | false => right; simp [CTy.conv]
      | true =>
        left
        have p : (2 : Int) ^ 31 ≤ 2 ^ (W - 1) := pow_mono (by omega)
        obtain ⟨b1, b2⟩ := c3 rfl
        have : ¬ (2 : Int) ^ (W - 1) ≤ (n : Int) - y.nv.v := fun hc => hov ⟨rfl, hc⟩
        exact CTy.conv_signed_of_mem (by omega) (by omega) (by omega)
    show 64 < (CTy.int W sg).conv (n - y.nv.v) % 2 ^ 64 ∨ (CTy.int W sg).conv (n - y.nv.v) % 2 ^ 64 = 0
    rcases hmod with q | ⟨rfl, q⟩ <;> rw [q]
    · have b : -2 ^ 63 ≤ y.nv.v := by
        have : (2 : Int) ^ (hw m - 1) ≤ 2 ^ 63 := pow_mono (by have := hw_le m; omega)
        omega
      omega
    · have h0 := c4 rfl
      rcases c1 with rfl | rfl
      · have := c2 rfl; omega
      · omega

theorem shr_native_ok_iff (h : n ≤ 64) (h1 : 1 < n) (hm : m ≤ 64) (x : Bits n s) (y : Bits m t) :
    (∃ z, x.shr y = .ok z) ↔ 0 ≤ y.nv.v ∧ y.nv.v < n := by
  constructor
  · rintro ⟨z, hz⟩
    by_contra hc
    rcases shr_native_bad h h1 hm x y (by omega) with e | ⟨e, -⟩ <;> rw [e] at hz <;> cases hz
  · rintro ⟨h0, hl⟩
    obtain ⟨z, hz, -⟩ := shr_native h (by omega) hm x y (k := y.nv.v.toNat) (by omega) (by omega)
    exact ⟨z, hz⟩

end Bits
end Verif
