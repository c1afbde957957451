import Verif.Lemmas.Extend

/-! Shifts of 2-state values. -/

namespace Verif

theorem TV.shr_fault {x c : TV} (h : c.v < 0 ∨ (x.ty.promote.width : Int) ≤ c.v) :
    TV.shr x c = .error .shift := by
  exact if_pos h

theorem TV.shr_total (x c : TV) : (∃ v, TV.shr x c = .ok v) ∨ TV.shr x c = .error .shift := by
  by_cases h : c.v < 0 ∨ (x.ty.promote.width : Int) ≤ c.v
  · exact Or.inr (TV.shr_fault h)
  · exact Or.inl ⟨_, if_neg h⟩

namespace Bits

variable {n m : Nat} {s t : Bool}

theorem conv_amount (h1 : 1 < n) (h : n ≤ 64) {k : Nat} (hk : k < 128) :
    (holderTy n s).conv k = k := by
  have h8 := hw_ge_eight (n := n) (by omega)
  rw [holderTy_ge (by omega)]
  have hk' : (k : Int) < 128 := by exact_mod_cast hk
  cases s with
  | false =>
    have p : (2 : Int) ^ 8 ≤ 2 ^ hw n := pow_mono h8
    exact CTy.conv_unsigned_of_lt (by omega) (by omega)
  | true =>
    have p : (2 : Int) ^ 7 ≤ 2 ^ (hw n - 1) := pow_mono (by omega)
    have : (0 : Int) < 2 ^ (hw n - 1) := by positivity
    exact CTy.conv_signed_of_mem (by omega) (by omega) (by omega)

/-- a built-in right shift of a holder, bit by bit -/
theorem shr_tv (h : n ≤ 64) (x : Bits n s) {c : TV} {k : Nat} (hc : c.v = k)
    (hk : k < (holderTy n s).promote.width) :
    ∃ v, TV.shr x.nv c = .ok v ∧ v.ty = (holderTy n s).promote ∧
      ∀ w, (w ≤ hw n ∨ w ≤ 32) → BitVec.ofInt w v.v = BitVec.ofInt w (x.nv.v / 2 ^ k) := by
  refine ⟨_, TV.shr_ok hc (by rw [nv_ty]; exact hk), by rw [nv_ty], ?_⟩
  intro w hw
  simp only [nv_ty]
  rw [ofInt_promote_conv n s hw, promote_conv_nv h x]

theorem div_div_bit (a : Int) (k i : Nat) : a / 2 ^ k / 2 ^ i = a / 2 ^ (i + k) := by
  rw [Int.ediv_ediv_of_nonneg (by positivity), ← pow_add, Nat.add_comm]

theorem ashr_native (h : n ≤ 64) (h1 : 1 < n) (hm : m ≤ 64) (x : Bits n s) (y : Bits m t) {k : Nat}
    (hy : y.nv.v = k) (hk : k < max 32 (hw n)) :
    ∃ z, x.ashr y = .ok z ∧ z.nv.v = (holderTy n (s && t)).conv (x.nv.v / 2 ^ k) ∧
      z.bv = BitVec.ofInt n (x.nv.v / 2 ^ k) := by
  have hk64 : k < 64 := by have := hw_le n; omega
  have hW : (holderTy n s).promote.width = max 32 (hw n) := by
    rw [promote_holder]; split_ifs <;> simp [CTy.width] <;> omega
  obtain ⟨v, hv, _, hb⟩ := shr_tv h x (c := y.nv.cast (holderTy n s)) (k := k)
    (by rw [TV.cast]; simp only [hy]; exact conv_amount h1 h (by omega)) (by rw [hW]; exact hk)
  refine ⟨mkN h v, ?_, ?_, ?_⟩
  · rw [ashr, dif_pos h, if_pos hm, hv]; rfl
  · rw [nv_mkN]
    show (holderTy n (s && t)).conv v.v = _
    rw [holderTy_ge (by omega)]
    have := hb (hw n) (Or.inl (Nat.le_refl _))
    rw [ofInt_eq_iff] at this
    cases (s && t) with
    | false => exact this
    | true =>
      show Int.bmod _ _ = Int.bmod _ _
      rw [← Int.emod_bmod, this, Int.emod_bmod]
  · rw [bv_mkN h (by omega), hb n (Or.inl (le_hw h))]

theorem shl_native (h : n ≤ 64) (h1 : 1 < n) (hm : m ≤ 64) (x : Bits n s) (y : Bits m t) {k : Nat}
    (hy : y.nv.v = k) (hk : k < max 32 (hw n)) :
    ∃ z, x.shl y = .ok z ∧ z.bv = x.bv <<< k := by
  have hk64 : k < 64 := by have := hw_le n; omega
  have hW : (holderTy n s).promote.width = max 32 (hw n) := by
    rw [promote_holder]; split_ifs <;> simp [CTy.width] <;> omega
  have hv := TV.shl_ok (x := x.nv) (c := y.nv.cast (holderTy n s)) (k := k)
    (by rw [TV.cast]; simp only [hy]; exact conv_amount h1 h (by omega)) (by rw [nv_ty, hW]; exact hk)
  refine ⟨mkN h _, by rw [shl, dif_pos h, if_pos hm, hv]; rfl, ?_⟩
  rw [bv_mkN h (by omega)]
  simp only [nv_ty]
  rw [ofInt_promote_conv n s (Or.inl (le_hw h)), promote_conv_nv h x, BitVec.ofInt_mul, bv_ofInt h x,
    BitVec.shiftLeft_eq_mul_twoPow]
  congr 1
  rw [show ((2 : Int) ^ k) = ((2 ^ k : Nat) : Int) by push_cast; rfl, ofInt_natCast]
  apply BitVec.eq_of_toNat_eq
  rw [BitVec.toNat_twoPow, BitVec.toNat_ofNat]

theorem shl_native_ge (h : n ≤ 64) (h1 : 1 < n) (hm : m ≤ 64) (x : Bits n s) (y : Bits m t) {k : Nat}
    (hy : y.nv.v = k) (hk : max 32 (hw n) ≤ k) (hk2 : k < 128) :
    x.shl y = .error .shift ∧ x.ashr y = .error .shift := by
  have hW : (holderTy n s).promote.width = max 32 (hw n) := by
    rw [promote_holder]; split_ifs <;> simp [CTy.width] <;> omega
  have hc : (y.nv.cast (holderTy n s)).v = k := by
    rw [TV.cast]; simp only [hy]; exact conv_amount h1 h (by omega)
  have hcond : (y.nv.cast (holderTy n s)).v < 0 ∨
      (((x.nv.ty.promote.width : Nat)) : Int) ≤ (y.nv.cast (holderTy n s)).v := by
    right; rw [hc, nv_ty, hW]; exact_mod_cast hk
  constructor
  · rw [shl, dif_pos h, if_pos hm, TV.shl]
    simp only [hcond, if_true]; rfl
  · rw [ashr, dif_pos h, if_pos hm, TV.shr]
    simp only [hcond, if_true]; rfl

/-! ### logical right shift -/

/-- `static_cast<int>(size) - amount` -/
theorem sub_int_small (hm : m ≤ 64) (y : Bits m t) {k : Nat} (hy : y.nv.v = k) (hn : n ≤ 64)
    (hk : k ≤ n) : ∃ r, TV.sub (TV.int n) y.nv = .ok r ∧ r.v = (n - k : Nat) := by
  have key : ∃ W sg, CTy.usual tInt (holderTy m t) = .int W sg ∧ 32 ≤ W := by
    obtain ⟨w, sg, h1, h2, _⟩ := CTy.usual_spec tInt (holderTy m t)
    exact ⟨w, sg, h1, h2⟩
  obtain ⟨W, sg, e, hW⟩ := key
  have aux : ∀ a : Int, 0 ≤ a → a ≤ 64 → (CTy.int W sg).conv a = a := by
    intro a h0 h1
    cases sg with
    | false =>
      have p : (2 : Int) ^ 32 ≤ 2 ^ W := pow_mono hW
      exact CTy.conv_unsigned_of_lt h0 (by omega)
    | true =>
      have p : (2 : Int) ^ 31 ≤ 2 ^ (W - 1) := pow_mono (by omega)
      exact CTy.conv_signed_of_mem (by omega) (by omega) (by omega)
  have hn' : (n : Int) ≤ 64 := by exact_mod_cast hn
  have hk' : (k : Int) ≤ n := by exact_mod_cast hk
  have h0 := arith_of_fits (f := (· - ·)) (x := TV.int n) (y := y.nv) (t := .int W sg)
    (by rw [nv_ty]; exact e) (aux _ (by simp [TV.int]) (by simpa [TV.int] using hn'))
    (by rw [hy]; exact aux _ (by omega) (by omega))
    (by rw [hy]; exact aux _ (by simp [TV.int]; omega) (by simp [TV.int]; omega))
  refine ⟨_, h0, ?_⟩
  show (n : Int) - y.nv.v = _
  rw [hy]; omega

theorem valueMask_ok (n : Nat) (s : Bool) (req : TV) {c : Nat} (hr : req.v = c) (h0 : 0 < c)
    (h : c ≤ 64) : valueMask n s req = .ok ⟨holderTy n s, (holderTy n s).conv (2 ^ c - 1)⟩ := by
  have hc : (c : Int) ≤ 64 := by exact_mod_cast h
  have e1 : TV.sub (TV.u64 64) (req.cast tU64) = .ok ⟨tU64, 64 - c⟩ := by
    have := arith_of_fits (f := (· - ·)) (x := TV.u64 64) (y := req.cast tU64) (t := tU64) rfl
      (by decide)
      (by
        simp only [TV.cast, hr]
        rw [tU64_conv_of (a := c) (by omega) (by omega), tU64_conv_of (a := c) (by omega) (by omega)])
      (by
        simp only [TV.cast, hr, TV.u64]
        rw [tU64_conv_of (a := c) (by omega) (by omega), tU64_conv_of (a := 64) (by omega) (by omega)]
        exact tU64_conv_of (by omega) (by omega))
    rw [TV.sub, this]
    simp only [TV.cast, hr, TV.u64]
    rw [tU64_conv_of (a := c) (by omega) (by omega), tU64_conv_of (a := 64) (by omega) (by omega)]
  rw [valueMask, e1, res_bind_ok]
  have hs := TV.shr_ok (x := TV.u64 (2 ^ 64 - 1)) (c := ⟨tU64, 64 - c⟩) (k := 64 - c)
    (by show (64 : Int) - c = _; omega) (by show 64 - c < 64; omega)
  rw [hs, res_map_ok]
  show Except.ok (TV.mk (holderTy n s) ((holderTy n s).conv _)) = _
  congr 3
  show tU64.conv (tU64.conv (tU64.conv (2 ^ 64 - 1)) / 2 ^ (64 - c)) = _
  rw [tU64_conv_of (a := 2 ^ 64 - 1) (by decide) (by decide),
    tU64_conv_of (a := 2 ^ 64 - 1) (by decide) (by decide)]
  have := ones_div c (64 - c)
  rw [show c + (64 - c) = 64 by omega] at this
  rw [this]
  have p : (2 : Int) ^ c ≤ 2 ^ 64 := pow_mono h
  have p0 : (0 : Int) < 2 ^ c := by positivity
  exact tU64_conv_of (by omega) (by omega)

theorem shr_native (h : n ≤ 64) (hn : 0 < n) (hm : m ≤ 64) (x : Bits n s) (y : Bits m t) {k : Nat}
    (hy : y.nv.v = k) (hk : k < n) :
    ∃ z, x.shr y = .ok z ∧ ∀ i, z.raw i = (decide (i + k < n) && x.raw (i + k)) := by
  have hconv : (holderTy n s).conv k = k := by
    by_cases h1 : n ≤ 1
    · have : k = 0 := by omega
      subst this; rw [holderTy_one h1]; rfl
    · exact conv_amount (by omega) h (by omega)
  obtain ⟨v, hv, hty, hb⟩ := shr_tv h x (c := y.nv.cast (holderTy n s)) (k := k)
    (by rw [TV.cast]; simp only [hy]; exact hconv)
    (by have := promote_width_ge n s; have := le_hw h; omega)
  obtain ⟨r, hr, hrv⟩ := sub_int_small hm y hy h (n := n) (by omega)
  have hmask := valueMask_ok n s r hrv (by omega) (by omega)
  refine ⟨mkN h (TV.band v ⟨holderTy n s, (holderTy n s).conv (2 ^ (n - k) - 1)⟩), ?_, ?_⟩
  · rw [shr, dif_pos h, if_pos hm, hv, res_bind_ok, hr, res_bind_ok, hmask]; rfl
  intro i
  by_cases h1 : n ≤ 1
  · have hn1 : n = 1 := by omega
    have hk0 : k = 0 := by omega
    subst hn1 hk0
    have hv1 : BitVec.ofInt 8 v.v = BitVec.ofInt 8 x.nv.v := by
      rw [hb 8 (Or.inr (by omega))]; simp
    have hband : BitVec.ofInt 8 (TV.band v ⟨holderTy 1 s, (holderTy 1 s).conv (2 ^ (1 - 0) - 1)⟩).v =
        BitVec.ofInt 8 x.nv.v &&& 1#8 := by
      rw [TV.ofInt_band _ _ (Or.inr (Or.inr (by omega))), hv1]; rfl
    have hty1 : v.ty = tInt := by rw [hty, holderTy_one (by omega)]; rfl
    rcases nv_one h (by omega) x with hx | hx
    · have hxv : x.nv.v = 0 := by rw [hx]
      have : (TV.band v ⟨holderTy 1 s, (holderTy 1 s).conv (2 ^ (1 - 0) - 1)⟩).v = 0 := by
        have hv0 : v.v = 0 := by
          have := TV.shr_ok (x := x.nv) (c := y.nv.cast (holderTy 1 s)) (k := 0)
            (by rw [TV.cast]; simp only [hy]; exact hconv) (by rw [hx]; decide)
          rw [hv, hx] at this
          injection this with this
          rw [this]; decide
        cases v with
        | mk ty vv => simp only at hv0 hty1; subst hv0 hty1; cases s <;> decide
      rw [raw_native h, hold_mkN_one h (by omega), this, raw_native h]
      have hx0 : x.hold = 0 := by
        have := ofInt_nv h x (Nat.le_refl _)
        rw [hxv, BitVec.setWidth_eq] at this
        rw [← this]; rfl
      rw [hx0]; simp
    · have hxv : x.nv.v = 1 := by rw [hx]
      have : (TV.band v ⟨holderTy 1 s, (holderTy 1 s).conv (2 ^ (1 - 0) - 1)⟩).v = 1 := by
        have hv0 : v.v = 1 := by
          have := TV.shr_ok (x := x.nv) (c := y.nv.cast (holderTy 1 s)) (k := 0)
            (by rw [TV.cast]; simp only [hy]; exact hconv) (by rw [hx]; decide)
          rw [hv, hx] at this
          injection this with this
          rw [this]; decide
        cases v with
        | mk ty vv => simp only at hv0 hty1; subst hv0 hty1; cases s <;> decide
      rw [raw_native h, hold_mkN_one h (by omega), this, raw_native h]
      have hx0 : x.hold = 1 := by
        have := ofInt_nv h x (Nat.le_refl _)
        rw [hxv, BitVec.setWidth_eq] at this
        rw [← this]; rfl
      rw [hx0]
      by_cases hi : i = 0
      · subst hi; rfl
      · simp only [Nat.add_zero, show ¬ i < 1 by omega, decide_false, Bool.false_and]
        exact BitVec.getLsbD_of_ge _ _ (by rw [hw_one (by omega)]; omega)
  · rw [raw_native h, hold_mkN h h1,
      TV.ofInt_band _ _ (Or.inl (by rw [hty]; exact (promote_width_ge n s).1)),
      hb _ (Or.inl (Nat.le_refl _)), holderTy_ge h1, ofInt_conv (Nat.le_refl _), BitVec.getLsbD_and,
      getLsbD_ofInt_ones, getLsbD_ofInt, div_div_bit]
    have hle := le_hw h
    by_cases hi : i + k < n
    · rw [raw_nv h x (by omega)]
      simp [show i < hw n by omega, show i < n - k by omega, hi]
    · simp [show ¬ i < n - k by omega, hi]

/-- a native right shift by the width or more is undefined behaviour -/
theorem shr_native_ge (h : n ≤ 64) (hm : m ≤ 64) (x : Bits n s) (y : Bits m t) {k : Nat}
    (hy : y.nv.v = k) (hk : n ≤ k) (hk2 : k < 2 ^ 31) : x.shr y = .error .shift := by
  rw [shr, dif_pos h, if_pos hm]
  rcases TV.shr_total x.nv (y.nv.cast (holderTy n s)) with ⟨v, hv⟩ | hv
  swap
  · rw [hv]; rfl
  rw [hv, res_bind_ok]
  have hn' : (n : Int) ≤ 64 := by exact_mod_cast h
  have hk' : (n : Int) ≤ k := by exact_mod_cast hk
  have hk2' : (k : Int) < 2 ^ 31 := by exact_mod_cast hk2
  obtain ⟨W, sg, e, hW, -, hW2⟩ := CTy.usual_spec tInt (holderTy m t)
  have hW64 : W = 32 ∨ W = 64 := by
    have e' := e
    have hp := promote_holder m t
    simp only [CTy.usual] at e'
    rw [hp] at e'
    rcases hw_cases m with q | q | q | q | q <;> rw [q] at e' <;> cases t <;>
      simp [CTy.promote] at e' <;> omega
  have hsub : ∃ r, TV.sub (TV.int n) y.nv = .ok r ∧ ∃ d : Int, (r.v = n - k ∨ r.v = (n - k) % 2 ^ 32 ∨
      r.v = (n - k) % 2 ^ 64) := by
    have cn : (CTy.int W sg).conv (n : Int) = n := by
      cases sg with
      | false =>
        have p : (2 : Int) ^ 32 ≤ 2 ^ W := pow_mono hW
        exact CTy.conv_unsigned_of_lt (by omega) (by omega)
      | true =>
        have p : (2 : Int) ^ 31 ≤ 2 ^ (W - 1) := pow_mono (by omega)
        exact CTy.conv_signed_of_mem (by omega) (by omega) (by omega)
    have ck : (CTy.int W sg).conv (k : Int) = k := by
      cases sg with
      | false =>
        have p : (2 : Int) ^ 32 ≤ 2 ^ W := pow_mono hW
        exact CTy.conv_unsigned_of_lt (by omega) (by omega)
      | true =>
        have p : (2 : Int) ^ 31 ≤ 2 ^ (W - 1) := pow_mono (by omega)
        exact CTy.conv_signed_of_mem (by omega) (by omega) (by omega)
    have hrw : TV.sub (TV.int n) y.nv = (let r := (n : Int) - k;
        if sg && (CTy.int W sg).conv r != r then .error .overflow else .ok ⟨.int W sg, (CTy.int W sg).conv r⟩) := by
      simp only [TV.sub, TV.arith, nv_ty, hy, TV.int, e, cn, ck]
      rfl
    rw [hrw]
    cases sg with
    | true =>
      have p : (2 : Int) ^ 31 ≤ 2 ^ (W - 1) := pow_mono (by omega)
      have : (CTy.int W true).conv ((n : Int) - k) = n - k :=
        CTy.conv_signed_of_mem (by omega) (by omega) (by omega)
      simp only [this]
      exact ⟨_, by simp; rfl, 0, Or.inl rfl⟩
    | false =>
      refine ⟨⟨.int W false, (CTy.int W false).conv ((n : Int) - k)⟩, by simp, 0, Or.inr ?_⟩
      rcases hW64 with q | q <;> subst q
      · exact Or.inl rfl
      · exact Or.inr rfl
  obtain ⟨r, hr, _, hd⟩ := hsub
  rw [hr, res_bind_ok]
  have hvm : valueMask n s r = .error .shift := by
    rw [valueMask]
    have hs2 : TV.sub (TV.u64 64) (r.cast tU64) = .ok ⟨tU64, (64 - (r.v % 2 ^ 64)) % 2 ^ 64⟩ := by
      show Except.ok (TV.mk tU64 (tU64.conv (tU64.conv (tU64.conv 64) - tU64.conv (tU64.conv r.v)))) = _
      congr 2
      show (64 % (2 ^ 64 : Nat) % (2 ^ 64 : Nat) - r.v % (2 ^ 64 : Nat) % (2 ^ 64 : Nat)) % (2 ^ 64 : Nat) = _
      push_cast
      omega
    rw [hs2, res_bind_ok]
    have : (64 : Int) ≤ (64 - (r.v % 2 ^ 64)) % 2 ^ 64 := by
      rcases hd with q | q | q <;> rw [q] <;> omega
    rw [TV.shr_fault (x := TV.u64 (2 ^ 64 - 1)) (c := ⟨tU64, (64 - r.v % 2 ^ 64) % 2 ^ 64⟩)
      (Or.inr this)]
    rfl
  rw [hvm]; rfl

/-! ### wide values -/

/-- a clean amount holding the number `k` -/
theorem amount_native (hm : m ≤ 64) {y : Bits m t} (hy : y.Clean) {k : Nat} (hk : numOf t y.bv = k) :
    y.nv.v = k := by rw [(clean_native hm y).1 hy, hk]

theorem amount_wide (hm : ¬ m ≤ 64) {y : Bits m t} (hy : y.Clean) {k : Nat} (hk : numOf t y.bv = k) :
    val (y.bg hm).vals = k := by
  rw [clean_big hm] at hy
  have e := Big.Clean.toNat_bv hy
  rw [← bv_big hm] at e
  rw [← e]
  rw [numOf] at hk
  split_ifs at hk with hc
  · rw [BitVec.toInt_eq_toNat_cond] at hk
    have := y.bv.isLt
    split_ifs at hk <;> omega
  · exact_mod_cast hk

theorem amtU64_of {y : Bits m t} {k : Nat} (hk : y.nv.v = k) (h64 : m ≤ 64) : y.amtU64 = k := by
  have hb := nv_abs_bounds h64 y
  have p : (2 : Int) ^ hw m ≤ 2 ^ 64 := pow_mono (hw_le m)
  rw [amtU64, tU64_conv_of (by omega) (by omega), hk]; rfl

theorem highLimb_spec (y : Big m t) (hm : 0 < limbs m) : y.highLimb = decide (2 ^ 64 ≤ val y.vals) := by
  rw [Bool.eq_iff_iff, decide_eq_true_iff, Big.highLimb, List.any_eq_true]
  constructor
  · rintro ⟨i, hi, hne⟩
    rw [List.mem_range'] at hi
    obtain ⟨j, hj, e⟩ := hi
    by_contra hlt
    have hraw : ∀ b, 64 ≤ b → y.raw b = false := by
      intro b hb
      rw [← Big.testBit_val']
      exact Nat.testBit_lt_two_pow (Nat.lt_of_lt_of_le (by omega) (Nat.pow_le_pow_right (by omega) hb))
    have : y.limb i = 0 := by
      apply BitVec.eq_of_getLsbD_eq
      intro b hb
      have := hraw (64 * i + b) (by omega)
      rw [Big.raw_eq, show (64 * i + b) / 64 = i by omega, show (64 * i + b) % 64 = b by omega] at this
      simpa using this
    simp [this] at hne
  · intro h
    by_contra hall
    push Not at hall
    have hz : ∀ i, 1 ≤ i → y.limb i = 0 := by
      intro i hi
      by_cases hl : i < limbs m
      · by_contra hne
        exact hall i (by rw [List.mem_range']; exact ⟨i - 1, by omega, by omega⟩) (by simpa using hne)
      · exact y.limb_of_ge (by omega)
    rw [Big.val_of_high_zero hz] at h
    have := (y.limb 0).isLt
    omega

theorem limb_zero_of {y : Big m t} {k : Nat} (hk : val y.vals = k) (h : k < 2 ^ 64) :
    (y.limb 0).toNat = k := by
  rw [Big.limb_zero_val (by omega), hk]

theorem ushiftRight_ge {x : BitVec n} {k : Nat} (h : n ≤ k) : x >>> k = 0 := by
  apply BitVec.eq_of_getLsbD_eq
  intro i hi
  rw [BitVec.getLsbD_ushiftRight, BitVec.getLsbD_of_ge _ _ (by omega)]; simp

theorem shiftLeft_ge {x : BitVec n} {k : Nat} (h : n ≤ k) : x <<< k = 0 := by
  apply BitVec.eq_of_getLsbD_eq
  intro i hi
  rw [BitVec.getLsbD_shiftLeft]; simp; omega

theorem big_bv_zero : (Big.zero : Big n s).bv = 0 := by
  apply BitVec.eq_of_toNat_eq
  rw [Big.toNat_bv, Big.val_zero]; simp

theorem shr_wide (h : ¬ n ≤ 64) (hN : n ≤ 2 ^ 32) (x : Bits n s) {y : Bits m t} (hy : y.Clean)
    {k : Nat} (hk : numOf t y.bv = k) :
    ∃ z, x.shr y = .ok z ∧ z.Clean ∧ z.bv = x.bv >>> k := by
  by_cases hm : m ≤ 64
  · refine ⟨_, by rw [shr, dif_neg h, dif_pos hm], ?_, ?_⟩
    · rw [clean_big h, bg_big, Big.clean_toSign]; exact Big.clean_shr _ _
    · rw [bv_big h, bg_big, Big.bv_toSign, Big.bv_shr, bv_big h, amtU64_of (amount_native hm hy hk) hm]
  · refine ⟨_, by rw [shr, dif_neg h, dif_neg hm], ?_, ?_⟩
    · rw [clean_big h, bg_big, Big.shrBig]
      split_ifs
      · exact Big.clean_zero
      · rw [Big.clean_toSign]; exact Big.clean_shr _ _
    · have hv := amount_wide hm hy hk
      rw [bv_big h, bg_big, Big.shrBig, highLimb_spec _ (by have := limbs_ge_two hm; omega), hv]
      by_cases hb : 2 ^ 64 ≤ k
      · simp only [hb, decide_true, if_true]
        rw [ushiftRight_ge (by omega), big_bv_zero]
      · simp only [hb, decide_false, Bool.false_eq_true, if_false]
        rw [Big.bv_toSign, Big.bv_shr, limb_zero_of hv (by omega), bv_big h]

theorem shl_wide (h : ¬ n ≤ 64) (hN : n ≤ 2 ^ 32) (x : Bits n s) {y : Bits m t} (hy : y.Clean)
    {k : Nat} (hk : numOf t y.bv = k) :
    ∃ z, x.shl y = .ok z ∧ z.Clean ∧ z.bv = x.bv <<< k := by
  by_cases hm : m ≤ 64
  · refine ⟨_, by rw [shl, dif_neg h, dif_pos hm], ?_, ?_⟩
    · rw [clean_big h, bg_big, Big.clean_toSign]; exact Big.clean_shl _ _
    · rw [bv_big h, bg_big, Big.bv_toSign, Big.bv_shl, bv_big h, amtU64_of (amount_native hm hy hk) hm]
  · refine ⟨_, by rw [shl, dif_neg h, dif_neg hm], ?_, ?_⟩
    · rw [clean_big h, bg_big, Big.shlBig]
      split_ifs
      · exact Big.clean_zero
      · rw [Big.clean_toSign]; exact Big.clean_shl _ _
    · have hv := amount_wide hm hy hk
      rw [bv_big h, bg_big, Big.shlBig, highLimb_spec _ (by have := limbs_ge_two hm; omega), hv]
      by_cases hb : 2 ^ 64 ≤ k
      · simp only [hb, decide_true, if_true]
        rw [shiftLeft_ge (by omega), big_bv_zero]
      · simp only [hb, decide_false, Bool.false_eq_true, if_false]
        rw [Big.bv_toSign, Big.bv_shl, limb_zero_of hv (by omega), bv_big h]

theorem ashr_wide_unsigned (h : ¬ n ≤ 64) (hN : n ≤ 2 ^ 32) (x : Bits n false) {y : Bits m t}
    (hy : y.Clean) {k : Nat} (hk : numOf t y.bv = k) :
    ∃ z, x.ashr y = .ok z ∧ z.Clean ∧ z.bv = x.bv >>> k := by
  have hs : ∀ k, (x.bg h).ashr k = (x.bg h).shr k := by intro k; simp [Big.ashr]
  obtain ⟨z, hz, h2⟩ := shr_wide h hN x hy hk
  refine ⟨z, ?_, h2⟩
  rw [← hz]
  by_cases hm : m ≤ 64
  · rw [shr, ashr, dif_neg h, dif_pos hm, dif_neg h, dif_pos hm, hs]
  · rw [shr, ashr, dif_neg h, dif_neg hm, dif_neg h, dif_neg hm, Big.shrBig, Big.ashrBig, hs]
    simp

/-- exact behaviour of the signed wide arithmetic shift -/
theorem ashr_wide_signed (h : ¬ n ≤ 64) (hN : n ≤ 2 ^ 32) (x : Bits n true) {y : Bits m t}
    (hy : y.Clean) {k : Nat} (hk : numOf t y.bv = k) :
    ∃ z, x.ashr y = .ok z ∧ ∀ i, i < n → z.bv.getLsbD i =
      if k < n ∧ i + k + 1 = n then false else (x.bv.sshiftRight k).getLsbD i := by
  have hspec : ∀ j i, i < n → ((x.bg h).ashr j).get i =
      if j < n ∧ i + j + 1 = n then false else (x.bv.sshiftRight j).getLsbD i := by
    intro j i hi
    rw [Big.get_ashr_signed _ _ _ (by omega), BitVec.getLsbD_sshiftRight, bv_big h, BitVec.msb_eq_getLsbD_last,
      Big.getLsbD_bv, Big.getLsbD_bv]
    simp only [hi, decide_true, Bool.true_and, show ¬ n ≤ i by omega, decide_false, Bool.not_false]
    by_cases h1 : j > n - 1
    · rw [if_pos h1, if_neg (by omega), if_neg (by omega)]
    · rw [if_neg h1]
      by_cases h2 : i + j + 1 < n
      · rw [if_pos h2, if_neg (by omega), if_pos (by omega), Nat.add_comm]
      · rw [if_neg h2]
        by_cases h3 : i + j + 1 = n
        · rw [if_pos h3, if_pos ⟨by omega, h3⟩]
        · rw [if_neg h3, if_neg (by tauto), if_neg (by omega)]
  by_cases hm : m ≤ 64
  · refine ⟨_, by rw [ashr, dif_neg h, dif_pos hm], ?_⟩
    intro i hi
    rw [bv_big h, bg_big, Big.bv_toSign, Big.getLsbD_bv, amtU64_of (amount_native hm hy hk) hm]
    exact hspec k i hi
  · refine ⟨_, by rw [ashr, dif_neg h, dif_neg hm], ?_⟩
    intro i hi
    have hv := amount_wide hm hy hk
    rw [bv_big h, bg_big, Big.getLsbD_bv, Big.ashrBig,
      highLimb_spec _ (by have := limbs_ge_two hm; omega), hv]
    by_cases hb : 2 ^ 64 ≤ k
    · simp only [hb, decide_true, if_true]
      rw [if_neg (show ¬ (k < n ∧ i + k + 1 = n) by omega), BitVec.getLsbD_sshiftRight, bv_big h,
        BitVec.msb_eq_getLsbD_last,
        Big.getLsbD_bv, Big.getLsbD_bv]
      simp only [show ¬ n ≤ i by omega, decide_false, Bool.not_false, Bool.true_and]
      rw [if_neg (show ¬ k + i < n by omega)]
      show Big.get _ i = (x.bg h).negative
      cases (x.bg h).negative
      · simp [Big.get_eq]
      · simp [Big.get_eq, Big.raw_mask _ (show 0 < n by omega), hi]
    · simp only [hb, decide_false, Bool.false_eq_true, if_false]
      rw [Big.get_toSign, limb_zero_of hv (by omega)]
      exact hspec k i hi

end Bits
end Verif
