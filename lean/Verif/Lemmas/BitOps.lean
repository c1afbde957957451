import Verif.Lemmas.Native
import Verif.Lemmas.BigOps

/-! Bit-wise description of the 2-state operations, both storage classes. -/

namespace Verif

theorem getLsbD_ofInt_ones (w k i : Nat) :
    (BitVec.ofInt w (2 ^ k - 1)).getLsbD i = (decide (i < w) && decide (i < k)) := by
  have : ((2 : Int) ^ k - 1) = ((2 ^ k - 1 : Nat) : Int) := by
    rw [Nat.cast_sub (Nat.one_le_two_pow)]; push_cast; rfl
  rw [this, BitVec.ofInt_natCast, BitVec.getLsbD_ofNat, Nat.testBit_two_pow_sub_one]

theorem getLsbD_ofInt_pow (w k i : Nat) :
    (BitVec.ofInt w (2 ^ k)).getLsbD i = (decide (i < w) && decide (i = k)) := by
  have : ((2 : Int) ^ k) = ((2 ^ k : Nat) : Int) := by push_cast; rfl
  rw [this, BitVec.ofInt_natCast, BitVec.getLsbD_ofNat, Nat.testBit_two_pow]
  congr 1
  rw [decide_eq_decide]; omega

theorem ones_div (a b : Nat) : ((2 : Int) ^ (a + b) - 1) / 2 ^ b = 2 ^ a - 1 := by
  have hp : (0 : Int) < 2 ^ b := by positivity
  have : (2 : Int) ^ (a + b) - 1 = (2 ^ b - 1) + 2 ^ b * (2 ^ a - 1) := by rw [pow_add]; ring
  rw [this, Int.add_mul_ediv_left _ _ hp.ne', Int.ediv_eq_zero_of_lt (by omega) (by omega)]
  ring

theorem intRes_ok {v : Int} (h : -2 ^ 31 ≤ v) (h' : v < 2 ^ 31) : intRes v = .ok v := if_pos ⟨h, h'⟩

theorem res_bind_ok {α β : Type} (a : α) (f : α → Res β) : (Except.ok a : Res α).bind f = f a := rfl
theorem res_map_ok {α β : Type} (a : α) (f : α → β) :
    (Except.ok a : Res α).map f = .ok (f a) := rfl

theorem tU64_conv_of {a : Int} (h0 : 0 ≤ a) (h : a < 2 ^ 64) : tU64.conv a = a :=
  CTy.conv_unsigned_of_lt h0 h

theorem tInt_conv_of {a : Int} (h0 : -2 ^ 31 ≤ a) (h : a < 2 ^ 31) : tInt.conv a = a :=
  CTy.conv_signed_of_mem (by omega) h0 h

namespace TV

/-- right shift by an in-range constant -/
theorem shr_ok {x c : TV} {k : Nat} (hc : c.v = k) (hk : k < x.ty.promote.width) :
    TV.shr x c = .ok ⟨x.ty.promote, x.ty.promote.conv (x.ty.promote.conv x.v / 2 ^ k)⟩ := by
  simp only [TV.shr]
  rw [if_neg (by omega), hc]
  rfl

theorem shl_ok {x c : TV} {k : Nat} (hc : c.v = k) (hk : k < x.ty.promote.width) :
    TV.shl x c = .ok ⟨x.ty.promote, x.ty.promote.conv (x.ty.promote.conv x.v * 2 ^ k)⟩ := by
  simp only [TV.shl]
  rw [if_neg (by omega), hc]
  rfl

theorem bitw_v (f : (w : Nat) → BitVec w → BitVec w → BitVec w) (x y : TV) {w : Nat} {sg : Bool}
    (he : CTy.usual x.ty y.ty = .int w sg) :
    (bitw f x y).v = (CTy.int w sg).conv (f w (BitVec.ofInt w x.v) (BitVec.ofInt w y.v)).toInt := by
  simp only [bitw]
  generalize CTy.usual x.ty y.ty = T at he
  subst he
  rfl

/-- `(v & 1) != 0` is the lowest bit -/
theorem band_one_ne (v : TV) : ((TV.band v (TV.int 1)).v != 0) = decide (v.v % 2 = 1) := by
  obtain ⟨w, sg, he, h32, ha, hb⟩ := CTy.usual_spec v.ty tInt
  have key : ∀ b : BitVec w, (CTy.int w sg).conv b.toInt = 0 ↔ b = 0 := by
    intro b
    constructor
    · intro h0
      have := @ofInt_conv w w sg (le_refl _) b.toInt
      rw [h0, BitVec.ofInt_toInt] at this
      rw [← this]; simp
    · intro h0
      subst h0
      cases sg <;> simp [CTy.conv]
  have h1 : (TV.band v (TV.int 1)).v = 0 ↔ ¬ v.v % 2 = 1 := by
    rw [TV.band, bitw_v (w := w) (sg := sg) _ v (TV.int 1) he, key]
    show BitVec.ofInt w v.v &&& BitVec.ofInt w 1 = 0 ↔ _
    constructor
    · intro h0 h2
      have := congrArg (fun b => BitVec.getLsbD b 0) h0
      simp [BitVec.getLsbD_and, getLsbD_ofInt, h2] at this
      omega
    · intro h2
      apply BitVec.eq_of_getLsbD_eq
      intro i hi
      rw [BitVec.getLsbD_and, getLsbD_ofInt, show (1 : Int) = 2 ^ 0 by rfl, getLsbD_ofInt_pow]
      by_cases hi0 : i = 0
      · subst hi0
        simp [h2]
      · simp [hi0]
  rw [Bool.eq_iff_iff, bne_iff_ne, ne_eq, h1, not_not, decide_eq_true_iff]

end TV

namespace Bits

variable {n m : Nat} {s t : Bool}

/-! ### reading -/

theorem promote_width_ge (n : Nat) (s : Bool) :
    hw n ≤ (holderTy n s).promote.width ∧ 32 ≤ (holderTy n s).promote.width := by
  obtain ⟨w, sg, he, h32, ha⟩ := CTy.promote_spec (holderTy n s)
  rw [he]
  rw [holderTy_width] at ha
  exact ⟨ha, h32⟩

theorem ofInt_promote_conv (n : Nat) (s : Bool) {k : Nat} (hk : k ≤ hw n ∨ k ≤ 32) (a : Int) :
    BitVec.ofInt k ((holderTy n s).promote.conv a) = BitVec.ofInt k a := by
  obtain ⟨w, sg, he, h32, ha⟩ := CTy.promote_spec (holderTy n s)
  rw [he, ofInt_conv]
  rw [holderTy_width] at ha
  omega

/-- promotion does not change the value of a holder -/
theorem promote_conv_nv (h : n ≤ 64) (x : Bits n s) :
    (holderTy n s).promote.conv x.nv.v = x.nv.v := by
  have hc := nv_conv h x
  have hv := nv_v h x
  by_cases h1 : n ≤ 1
  · rw [holderTy_one h1]
    rcases nv_one h h1 x with e | e <;> rw [e] <;> rfl
  · rw [holderTy_ge h1] at hc ⊢
    by_cases h32 : hw n < 32
    · simp only [CTy.promote, h32, if_true]
      have hb : hw n = 8 ∨ hw n = 16 := by
        have := hw_ge_eight h1
        rcases hw_cases n with e | e | e | e | e <;> omega
      cases s
      · have := @CTy.conv_unsigned_mem (hw n) x.nv.v
        rw [hc] at this
        apply CTy.conv_signed_of_mem (by omega)
        · omega
        · rcases hb with e | e <;> rw [e] at this <;> norm_num at this ⊢ <;> omega
      · have := @CTy.conv_signed_mem (hw n) (hw_pos n) x.nv.v
        rw [hc] at this
        apply CTy.conv_signed_of_mem (by omega)
        · rcases hb with e | e <;> rw [e] at this <;> norm_num at this ⊢ <;> omega
        · rcases hb with e | e <;> rw [e] at this <;> norm_num at this ⊢ <;> omega
    · simp only [CTy.promote, h32, if_false]
      exact hc

/-- bits of the holder as bits of its value -/
theorem raw_nv (h : n ≤ 64) (x : Bits n s) {i : Nat} (hi : i < hw n) :
    x.raw i = decide (x.nv.v / 2 ^ i % 2 = 1) := by
  rw [raw_native h]
  have := ofInt_nv h x (le_refl (hw n))
  rw [BitVec.setWidth_eq] at this
  rw [← this, getLsbD_ofInt]
  simp [hi]

theorem raw_of_ge_native (h : n ≤ 64) (x : Bits n s) {i : Nat} (hi : hw n ≤ i) :
    x.raw i = false := by
  rw [raw_native h, BitVec.getLsbD_of_ge _ _ hi]

theorem get_phys (r : Rng) (x : Bits n s) (idx : Int) (i : Nat) (hp : physIdx r idx = i)
    (hi : i < n) (hN : n ≤ 2 ^ 32) : x.get r idx = .ok (x.bv.getLsbD i) := by
  rw [getLsbD_bv]
  simp only [hi, decide_true, Bool.true_and]
  by_cases h : n ≤ 64
  · simp only [get, h, dif_pos, hp]
    have hw1 := le_hw h
    have hpw := promote_width_ge n s
    rw [TV.shr_ok (k := i) rfl (by rw [nv_ty]; omega), res_map_ok, TV.band_one_ne, raw_nv h x (by omega)]
    simp only [nv_ty]
    rw [promote_conv_nv h x]
    have key : ∀ a : Int, (holderTy n s).promote.conv a % 2 = a % 2 := by
      intro a
      have := ofInt_promote_conv n s (k := 1) (Or.inr (by omega)) a
      rw [ofInt_eq_iff] at this
      simpa using this
    rw [key]
  · simp only [get, h, dif_neg, not_false_eq_true, hp]
    rw [tU64_conv_of (by omega) (by omega), raw_big h, Big.get_eq]
    simp [hi]

/-! ### writing -/

theorem setNat_ok (h : n ≤ 64) (x : Bits n s) (c : TV) (i : Nat) (hc : c.v = i) (hi : i < n)
    (v : Bool) : ∃ y, setNat h x c v = .ok y ∧ ∀ j, y.raw j = if j = i then v else x.raw j := by
  have hsh : TV.shl (TV.u64 1) c = .ok ⟨tU64, 2 ^ i⟩ := by
    rw [TV.shl_ok hc (by show i < 64; omega)]
    show Except.ok (⟨tU64, tU64.conv (tU64.conv (tU64.conv 1) * 2 ^ i)⟩ : TV) = _
    have h1 : tU64.conv (tU64.conv 1) = 1 := by decide
    rw [h1, one_mul, tU64_conv_of (by positivity)]
    exact pow_lt_pow_right₀ (by norm_num) (by omega)
  rw [setNat, hsh, res_map_ok]
  refine ⟨_, rfl, ?_⟩
  intro j
  by_cases h1 : n ≤ 1
  · have hi0 : i = 0 := by omega
    subst hi0
    by_cases hj : j = 0
    · subst hj
      have hw1 := hw_one h1
      rw [if_pos rfl]
      cases v
      · simp only [Bool.false_eq_true, if_false]
        rw [raw_native h, hold_mkN_one h h1]
        have : (TV.band x.nv (TV.bnot ⟨tU64, 2 ^ 0⟩)).v = 0 := by
          rcases nv_one h h1 x with e | e <;> rw [e] <;> decide
        rw [this]; simp
      · simp only [if_true]
        rw [raw_native h, hold_mkN_one h h1]
        have : ¬ (TV.bor x.nv ⟨tU64, 2 ^ 0⟩).v = 0 := by
          rcases nv_one h h1 x with e | e <;> rw [e] <;> decide
        rw [if_neg this, getLsbD_ofInt, hw1]; simp
    · rw [if_neg hj, raw_of_ge_native h _ (by rw [hw_one h1]; omega),
        raw_of_ge_native h _ (by rw [hw_one h1]; omega)]
  · have hwn := le_hw h
    have hw64 := hw_le n
    cases v
    · simp only [Bool.false_eq_true, if_false]
      rw [raw_native h, hold_mkN h h1, TV.ofInt_band _ _ (Or.inr (Or.inl (by
        show hw n ≤ (TV.bnot ⟨tU64, 2 ^ i⟩).ty.width
        exact hw64))), TV.ofInt_bnot _ (Or.inl hw64), ofInt_nv h x (le_refl _), BitVec.setWidth_eq,
        BitVec.getLsbD_and, BitVec.getLsbD_not, getLsbD_ofInt_pow, ← raw_native h]
      by_cases hj : j = i
      · simp [hj]
      · simp only [hj, decide_false, Bool.and_false, Bool.not_false, Bool.and_true, if_false]
        by_cases hjw : j < hw n
        · simp [hjw]
        · rw [raw_of_ge_native h x (by omega)]; simp
    · simp only [if_true]
      rw [raw_native h, hold_mkN h h1, TV.ofInt_bor _ _ (Or.inr (Or.inl hw64)),
        ofInt_nv h x (le_refl _), BitVec.setWidth_eq, BitVec.getLsbD_or, getLsbD_ofInt_pow,
        ← raw_native h]
      by_cases hj : j = i
      · have : j < hw n := by omega
        simp [hj]; omega
      · simp [hj]

theorem set_phys (r : Rng) (x : Bits n s) (idx : Int) (i : Nat) (hp : physIdx r idx - r.lo = i)
    (hi : i < n) (hN : n ≤ 2 ^ 32) (v : Bool) :
    ∃ y, x.set r idx v = .ok y ∧ ∀ j, y.raw j = if j = i then v else x.raw j := by
  have hc : (TV.u64 (physIdx r idx - r.lo)).v = i := by
    rw [hp]; exact tU64_conv_of (by omega) (by omega)
  by_cases h : n ≤ 64
  · simp only [set, h, dif_pos]
    exact setNat_ok h x _ i hc hi v
  · simp only [set, h, dif_neg, not_false_eq_true, hc]
    refine ⟨_, rfl, ?_⟩
    intro j
    rw [raw_big h, bg_big, Int.toNat_natCast, Big.raw_set, raw_big h]
    simp [hi]

/-- a write outside a wide object does nothing -/
theorem set_out_big (h : ¬ n ≤ 64) (r : Rng) (x : Bits n s) (idx : Int) (v : Bool)
    (hp : n ≤ (tU64.conv (physIdx r idx - r.lo)).toNat) : x.set r idx v = .ok x := by
  simp only [set, h, dif_neg, not_false_eq_true]
  rw [Big.set, if_neg (by show ¬ (tU64.conv (physIdx r idx - r.lo)).toNat < n; omega), big_bg]

theorem setBit_phys (r : Rng) (x : Bits n s) (idx : Int) (i : Nat) (hp : physIdx r idx = i)
    (hlo : r.lo = 0) (hi : i < n) (hN : n ≤ 2 ^ 32) (v : Bool) :
    ∃ y, x.setBit r idx v = .ok y ∧ ∀ j, y.raw j = if j = i then v else x.raw j := by
  have hc : (TV.u64 (physIdx r idx - r.lo)).v = i := by
    rw [hp, hlo, Int.sub_zero]; exact tU64_conv_of (a := (i : Int)) (by omega) (by omega)
  by_cases h : n ≤ 64
  · simp only [setBit, h, dif_pos]
    exact setNat_ok h x _ i hc hi v
  · simp only [setBit, h, dif_neg, not_false_eq_true, hp]
    refine ⟨_, rfl, ?_⟩
    intro j
    rw [raw_big h, bg_big, tU64_conv_of (by omega) (by omega), Int.toNat_natCast, Big.raw_set,
      raw_big h]
    simp [hi]

/-! ### conversions that keep the storage -/

theorem raw_toSign (x : Bits n s) (i : Nat) : (x.toSign t).raw i = x.raw i := by
  by_cases h : n ≤ 64
  · simp only [toSign, h, dif_pos]
    by_cases h1 : n ≤ 1
    · rw [raw_native h, raw_native h, hold_mkN_one h h1]
      have : (if x.nv.v = 0 then 0 else 1 : Int) = x.nv.v := by
        rcases nv_one h h1 x with e | e <;> rw [e] <;> rfl
      rw [this, ofInt_nv h x (le_refl _), BitVec.setWidth_eq]
    · rw [raw_native h, raw_native h, hold_mkN h h1, ofInt_nv h x (le_refl _), BitVec.setWidth_eq]
  · simp only [toSign, h, dif_neg, not_false_eq_true]
    rw [raw_big h, raw_big h]; rfl

theorem bv_eq_of_raw {x : Bits n s} {y : Bits n t} (h : ∀ i, i < n → x.raw i = y.raw i) :
    x.bv = y.bv := by
  apply BitVec.eq_of_getLsbD_eq
  intro i hi
  rw [getLsbD_bv, getLsbD_bv, h i hi]

theorem bv_toSign (x : Bits n s) : (x.toSign t).bv = x.bv :=
  bv_eq_of_raw fun i _ => raw_toSign x i

theorem raw_zero (i : Nat) : (zero : Bits n s).raw i = false := by
  by_cases h : n ≤ 64
  · simp only [zero, h, dif_pos]
    rw [raw_native h]
    by_cases h1 : n ≤ 1
    · rw [hold_mkN_one h h1]; simp [TV.int]
    · rw [hold_mkN h h1]; simp [TV.int]
  · simp only [zero, h, dif_neg, not_false_eq_true]
    rw [raw_big h]; simp

theorem bv_zero : (zero : Bits n s).bv = 0 := by
  apply BitVec.eq_of_getLsbD_eq
  intro i hi
  rw [getLsbD_bv, raw_zero]; simp

theorem clean_zero : (zero : Bits n false).Clean := by
  rw [clean_unsigned_iff]; intro i _; exact raw_zero i

/-! ### masks -/

theorem sizeof_eq {n : Nat} (h1 : ¬ n ≤ 1) : sizeofBits n = hw n := by simp [sizeofBits, h1]

/-- `bit_mask() >> (sizeof(T) * 8 - n)` -/
theorem bitMask_shr (h : n ≤ 64) (h1 : ¬ n ≤ 1) :
    ∃ v, TV.shr (bitMask n) (TV.u64 (sizeofBits n - n)) = .ok v ∧ v.v = 2 ^ n - 1 ∧
      v.ty = (CTy.int (hw n) false).promote := by
  have hwn := le_hw h
  have hw64 := hw_le n
  have hb : bitMask n = ⟨.int (hw n) false, 2 ^ hw n - 1⟩ := by simp [bitMask, holderMax, h1]
  have hc : (TV.u64 (sizeofBits n - n)).v = ((hw n - n : Nat) : Int) := by
    rw [sizeof_eq h1]
    show tU64.conv _ = _
    rw [tU64_conv_of (by omega) (by omega)]; omega
  obtain ⟨w, sg, he, h32, ha⟩ := CTy.promote_spec (CTy.int (hw n) false)
  rw [TV.shr_ok hc (by rw [hb]; simp only [he]; simp only [CTy.width] at ha ⊢; omega)]
  refine ⟨_, rfl, ?_, by rw [hb]⟩
  rw [hb]
  simp only
  have hpos : (1 : Int) ≤ 2 ^ n := one_le_pow₀ (by norm_num)
  have hle : (2 : Int) ^ n ≤ 2 ^ hw n := pow_le_pow_right₀ (by norm_num) hwn
  have hconv : ∀ a : Int, 0 ≤ a → a < 2 ^ hw n → (CTy.int (hw n) false).promote.conv a = a := by
    intro a h0 ha
    by_cases h32 : hw n < 32
    · simp only [CTy.promote, h32, if_true]
      apply CTy.conv_signed_of_mem (by omega)
      · omega
      · have : (2 : Int) ^ hw n ≤ 2 ^ 31 := pow_le_pow_right₀ (by norm_num) (by omega)
        norm_num at this ⊢; omega
    · simp only [CTy.promote, h32, if_false]
      exact CTy.conv_unsigned_of_lt h0 ha
  have hd : ((2 : Int) ^ hw n - 1) / 2 ^ (hw n - n) = 2 ^ n - 1 := by
    have : (2 : Int) ^ hw n = 2 ^ (n + (hw n - n)) := by congr 1; omega
    rw [this, ones_div]
  rw [hconv (2 ^ hw n - 1) (by omega) (by omega), hd, hconv _ (by omega) (by omega)]

theorem maskOff_ok (hn : 0 < n) (x : Bits n s) :
    ∃ y, x.maskOff = .ok y ∧ ∀ i, y.raw i = (decide (i < n) && x.raw i) := by
  by_cases h : n ≤ 64
  · by_cases h1 : n ≤ 1
    · refine ⟨x, ?_, ?_⟩
      · simp only [maskOff, h, dif_pos]
        rw [if_neg (by omega)]
      · intro i
        by_cases hi : i < n
        · simp [hi]
        · rw [raw_of_ge_native h _ (by rw [hw_one h1]; omega)]; simp
    · obtain ⟨v, hv, hvv, hty⟩ := bitMask_shr h h1
      refine ⟨mkN h (TV.band x.nv v), ?_, ?_⟩
      · simp only [maskOff, h, dif_pos]
        rw [if_pos (by omega), hv]; rfl
      · intro i
        rw [raw_native h, hold_mkN h h1, TV.ofInt_band _ _ (Or.inl (by
          rw [nv_ty, holderTy_width])), ofInt_nv h x (le_refl _), BitVec.setWidth_eq,
          BitVec.getLsbD_and, hvv, getLsbD_ofInt_ones, ← raw_native h]
        by_cases hi : i < hw n
        · simp [hi, Bool.and_comm]
        · rw [raw_of_ge_native h x (by omega)]; simp
  · refine ⟨.big h (x.bg h).maskOff, by simp [maskOff, h], ?_⟩
    intro i
    rw [raw_big h, bg_big, Big.raw_maskOff hn, raw_big h]

theorem mask_ok (hn : 0 < n) (x : Bits n false) :
    ∃ y, x.mask = .ok y ∧ ∀ i, y.raw i = decide (i < n) := by
  by_cases h : n ≤ 64
  · by_cases h1 : n ≤ 1
    · have hn1 : n = 1 := by omega
      refine ⟨mkN h ⟨.bool, 1⟩, ?_, ?_⟩
      · simp only [mask, h, dif_pos]
        rw [if_pos hn1]
      · intro i
        rw [raw_native h, hold_mkN_one h h1]
        rw [if_neg (by decide), show (1 : Int) = 2 ^ 0 by rfl, getLsbD_ofInt_pow, hw_one h1, hn1]
        by_cases hi : i = 0 <;> simp [hi]
    · obtain ⟨v, hv, hvv, hty⟩ := bitMask_shr h h1
      refine ⟨mkN h v, ?_, ?_⟩
      · simp only [mask, h, dif_pos]
        rw [if_neg (by omega)]
        rw [bitMask] at hv
        rw [hv]; rfl
      · intro i
        rw [raw_native h, hold_mkN h h1, hvv, getLsbD_ofInt_ones]
        have := le_hw h
        by_cases hi : i < n
        · have : i < hw n := by omega
          simp [hi, this]
        · simp [hi]
  · refine ⟨.big h (x.bg h).mask, by simp [mask, h], ?_⟩
    intro i
    rw [raw_big h, bg_big, Big.raw_mask _ hn]

/-! ### bitwise operators -/

theorem raw_not_native (h : n ≤ 64) (hn : 0 < n) (x : Bits n s) {i : Nat} (hi : i < hw n) :
    x.not.raw i = !x.raw i := by
  simp only [not, h, dif_pos]
  by_cases h1 : n ≤ 1
  · have hn1 : n = 1 := by omega
    rw [if_pos hn1]
    have hi0 : i = 0 := by rw [hw_one h1] at hi; omega
    subst hi0
    rw [raw_native h, hold_mkN_one h h1, raw_nv h x hi]
    rcases nv_one h h1 x with e | e <;> rw [e] <;> simp [hi]
  · rw [if_neg (by omega), raw_native h, hold_mkN h h1, TV.ofInt_bnot _ (Or.inl (by
      rw [nv_ty, holderTy_width])), ofInt_nv h x (le_refl _), BitVec.setWidth_eq,
      BitVec.getLsbD_not, ← raw_native h]
    simp [hi]

theorem raw_not_lt (hn : 0 < n) (x : Bits n s) {i : Nat} (hi : i < n) : x.not.raw i = !x.raw i := by
  by_cases h : n ≤ 64
  · exact raw_not_native h hn x (lt_of_lt_of_le hi (le_hw h))
  · have : x.not = .big h ((x.bg h).not.toSign false) := by simp [not, h]
    rw [this, raw_big h, raw_big h, bg_big, Big.raw_toSign,
      Big.raw_not _ _ (by have := le_limbs n; omega)]

theorem raw_bitw_native (h : n ≤ 64) (x : Bits n s) (y : Bits n t) (u : Bool)
    (f : (w : Nat) → BitVec w → BitVec w → BitVec w) (g : Bool → Bool → Bool)
    (hg : g false false = false)
    (hf : ∀ w (a b : BitVec w) i, (f w a b).getLsbD i = g (a.getLsbD i) (b.getLsbD i)) (i : Nat) :
    (mkN h (TV.bitw f x.nv y.nv) : Bits n u).raw i = g (x.raw i) (y.raw i) := by
  have hset : ∀ k w (a b : BitVec w), k ≤ w →
      (f w a b).setWidth k = f k (a.setWidth k) (b.setWidth k) := by
    intro k w a b _
    apply BitVec.eq_of_getLsbD_eq
    intro j hj
    rw [BitVec.getLsbD_setWidth, hf, hf, BitVec.getLsbD_setWidth, BitVec.getLsbD_setWidth]
    simp [hj]
  by_cases hi : i < hw n
  · have hbits : BitVec.ofInt (hw n) (TV.bitw f x.nv y.nv).v = f (hw n) x.hold y.hold := by
      rw [TV.ofInt_bitw f (fun w a b hw => hset _ w a b hw) x.nv y.nv
        (Or.inl (by rw [nv_ty, holderTy_width])),
        ofInt_nv h x (le_refl _), ofInt_nv h y (le_refl _), BitVec.setWidth_eq, BitVec.setWidth_eq]
    by_cases h1 : n ≤ 1
    · have hi0 : i = 0 := by rw [hw_one h1] at hi; omega
      subst hi0
      rw [raw_native h, hold_mkN_one h h1, raw_native h, raw_native h, ← hf (hw n), ← hbits]
      have hval : (TV.bitw f x.nv y.nv).v = 0 ∨ (TV.bitw f x.nv y.nv).v = 1 := by
        have hw : ∀ a b : Int, (a = 0 ∨ a = 1) → (b = 0 ∨ b = 1) →
            (TV.bitw f ⟨.bool, a⟩ ⟨.bool, b⟩).v = 0 ∨ (TV.bitw f ⟨.bool, a⟩ ⟨.bool, b⟩).v = 1 := by
          intro a b ha hb
          rw [TV.bitw_v f ⟨.bool, a⟩ ⟨.bool, b⟩ (w := 32) (sg := true) rfl]
          simp only
          have hq : f 32 (BitVec.ofInt 32 a) (BitVec.ofInt 32 b) = 0 ∨
              f 32 (BitVec.ofInt 32 a) (BitVec.ofInt 32 b) = 1 := by
            have hbit : ∀ c : Int, c = 0 ∨ c = 1 → ∀ j, j ≠ 0 → (BitVec.ofInt 32 c).getLsbD j = false := by
              intro c hc j hj
              rcases hc with rfl | rfl
              · simp
              · rw [show (1 : Int) = 2 ^ 0 by rfl, getLsbD_ofInt_pow]; simp [hj]
            cases hz : g ((BitVec.ofInt 32 a).getLsbD 0) ((BitVec.ofInt 32 b).getLsbD 0)
            · left
              apply BitVec.eq_of_getLsbD_eq
              intro j hj
              rw [hf]
              by_cases hj0 : j = 0
              · subst hj0; rw [hz]; simp
              · rw [hbit a ha j hj0, hbit b hb j hj0, hg]; simp
            · right
              apply BitVec.eq_of_getLsbD_eq
              intro j hj
              rw [hf]
              by_cases hj0 : j = 0
              · subst hj0; rw [hz]; simp
              · rw [hbit a ha j hj0, hbit b hb j hj0, hg]
                simp [hj0]
          rcases hq with e | e <;> rw [e]
          · left; rfl
          · right; rfl
        have hx := nv_one h h1 x
        have hy := nv_one h h1 y
        rcases hx with ex | ex <;> rcases hy with ey | ey <;> rw [ex, ey] <;>
          exact hw _ _ (by simp) (by simp)
      have : (if (TV.bitw f x.nv y.nv).v = 0 then 0 else 1 : Int) = (TV.bitw f x.nv y.nv).v := by
        rcases hval with e | e <;> rw [e] <;> rfl
      rw [this]
    · rw [raw_native h, hold_mkN h h1, hbits, hf, raw_native h, raw_native h]
  · rw [raw_of_ge_native h _ (by omega), raw_of_ge_native h _ (by omega),
      raw_of_ge_native h _ (by omega), hg]

theorem raw_and (hn : 0 < n) (x : Bits n s) (y : Bits n t) {i : Nat} (hi : i < n) :
    (x.and y).raw i = (x.raw i && y.raw i) := by
  by_cases h : n ≤ 64
  · simp only [and, h, dif_pos]
    exact raw_bitw_native h x y _ _ (· && ·) rfl (fun _ _ _ _ => BitVec.getLsbD_and) i
  · simp only [and, h, dif_neg, not_false_eq_true]
    rw [raw_big h, bg_big, Big.raw_and hn, raw_big h, raw_big h]; simp [hi]

theorem raw_and_native (h : n ≤ 64) (x : Bits n s) (y : Bits n t) (i : Nat) :
    (x.and y).raw i = (x.raw i && y.raw i) := by
  simp only [and, h, dif_pos]
  exact raw_bitw_native h x y _ _ (· && ·) rfl (fun _ _ _ _ => BitVec.getLsbD_and) i

theorem raw_xor (x : Bits n s) (y : Bits n t) (i : Nat) :
    (x.xor y).raw i = (x.raw i ^^ y.raw i) := by
  by_cases h : n ≤ 64
  · simp only [xor, h, dif_pos]
    exact raw_bitw_native h x y _ _ (· ^^ ·) rfl (fun _ _ _ _ => BitVec.getLsbD_xor) i
  · simp only [xor, h, dif_neg, not_false_eq_true]
    rw [raw_big h, bg_big, Big.raw_xor, raw_big h, raw_big h]

theorem raw_or (x : Bits n s) (y : Bits n t) (i : Nat) :
    (x.or y).raw i = (x.raw i || y.raw i) := by
  by_cases h : n ≤ 64
  · simp only [or, h, dif_pos]
    exact raw_bitw_native h x y _ _ (· || ·) rfl (fun _ _ _ _ => BitVec.getLsbD_or) i
  · simp only [or, h, dif_neg, not_false_eq_true]
    rw [raw_big h, bg_big, Big.raw_or, raw_big h, raw_big h]

theorem bv_not (hn : 0 < n) (x : Bits n s) : x.not.bv = ~~~ x.bv := by
  apply BitVec.eq_of_getLsbD_eq
  intro i hi
  rw [BitVec.getLsbD_not, getLsbD_bv, getLsbD_bv, raw_not_lt hn x hi]; simp [hi]

theorem bv_and (hn : 0 < n) (x : Bits n s) (y : Bits n t) : (x.and y).bv = x.bv &&& y.bv := by
  apply BitVec.eq_of_getLsbD_eq
  intro i hi
  rw [BitVec.getLsbD_and, getLsbD_bv, getLsbD_bv, getLsbD_bv, raw_and hn x y hi]; simp [hi]

theorem bv_or (x : Bits n s) (y : Bits n t) : (x.or y).bv = x.bv ||| y.bv := by
  apply BitVec.eq_of_getLsbD_eq
  intro i hi
  rw [BitVec.getLsbD_or, getLsbD_bv, getLsbD_bv, getLsbD_bv, raw_or]; simp [hi]

theorem bv_xor (x : Bits n s) (y : Bits n t) : (x.xor y).bv = x.bv ^^^ y.bv := by
  apply BitVec.eq_of_getLsbD_eq
  intro i hi
  rw [BitVec.getLsbD_xor, getLsbD_bv, getLsbD_bv, getLsbD_bv, raw_xor]; simp [hi]

theorem andAssign_ok (hn : 0 < n) (x : Bits n s) (y : Bits n t) :
    ∃ z, x.andAssign y = .ok z ∧ ∀ i, z.raw i = (decide (i < n) && (x.raw i && y.raw i)) := by
  obtain ⟨z, hz, hr⟩ := maskOff_ok hn ((x.and y).toSign s)
  refine ⟨z, hz, ?_⟩
  intro i
  rw [hr, raw_toSign]
  by_cases hi : i < n
  · rw [raw_and hn x y hi]
  · simp [hi]

theorem orAssign_ok (hn : 0 < n) (x : Bits n s) (y : Bits n t) :
    ∃ z, x.orAssign y = .ok z ∧ ∀ i, z.raw i = (decide (i < n) && (x.raw i || y.raw i)) := by
  obtain ⟨z, hz, hr⟩ := maskOff_ok hn ((x.or y).toSign s)
  exact ⟨z, hz, fun i => by rw [hr, raw_toSign, raw_or]⟩

theorem xorAssign_ok (hn : 0 < n) (x : Bits n s) (y : Bits n t) :
    ∃ z, x.xorAssign y = .ok z ∧ ∀ i, z.raw i = (decide (i < n) && (x.raw i ^^ y.raw i)) := by
  obtain ⟨z, hz, hr⟩ := maskOff_ok hn ((x.xor y).toSign s)
  exact ⟨z, hz, fun i => by rw [hr, raw_toSign, raw_xor]⟩

end Bits
end Verif
