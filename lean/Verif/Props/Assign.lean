import Verif.Model.Static
import Verif.Props.Slice
import Verif.Props.Convert
import Verif.Show

/-!
# Narrowing and assignment: C91, C92, C93, C104
-/

namespace Verif

variable {n m : Nat} {s t : Bool}

/-! ## C91: narrowing -/

theorem Bits.castW_bv {a b : Nat} (h : a = b) (x : Bits a s) : (Bits.castW h x).bv = x.bv.cast h := by
  subst h; rfl

theorem Bits.castW_clean {a b : Nat} (h : a = b) {x : Bits a s} (hx : x.Clean) : (Bits.castW h x).Clean := by
  subst h; exact hx

/-- **C91.** `extend<m>()` of an unsigned value to fewer bits keeps the low `m` bits;
the result is canonical. `extend<65>()` does not compile (`C49_65_bits`). -/
theorem C91_narrow (x : Bits n false) (hm : 0 < m) (h : m < n) (h65 : m ≠ 65) :
    ∃ z, x.narrow (Rng.down n) m hm = .ok z ∧ z.Clean ∧ z.bv = x.bv.setWidth m := by
  obtain ⟨z, hz, hc, hb⟩ := C49_slice x (m - 1) 0 (by omega) (by omega) (by omega)
  refine ⟨Bits.castW (by omega) z, by rw [Bits.narrow, hz]; rfl, Bits.castW_clean _ hc, ?_⟩
  rw [Bits.castW_bv]
  apply BitVec.eq_of_getLsbD_eq
  intro i hi
  rw [BitVec.getLsbD_cast, hb i (by omega), BitVec.getLsbD_setWidth, decide_eq_true hi, Bool.true_and]
  congr 1; omega

example : ((Bits.ofInt 0x1234 : Bits 16 false).narrow (Rng.down 16) 6 (by decide)).map (·.bv.toNat) = .ok 0x34 := by
  decide +kernel
example : ((Bits.ofInt 0x1234 : Bits 200 false).narrow (Rng.down 200) 70 (by decide)).map (·.bv.toNat) =
    .ok 0x1234 := by decide +kernel

/-! ## C92: assignment of an integer -/

/-- the holder type represents every number of the declared width and sign -/
theorem holder_numOf (h : n ≤ 64) (b : BitVec n) : (holderTy n s).conv (numOf s b) = numOf s b := by
  obtain ⟨x, hc, rfl⟩ := Bits.exists_clean (s := s) b
  rw [← (Bits.clean_native h x).1 hc, Bits.nv_conv h]

theorem Bits.mkN_zero (h : n ≤ 64) : (Bits.mkN h (TV.int 0) : Bits n s) = Bits.zero := by
  rw [Bits.zero, dif_pos h]

/-- **C92, partial.** From two bits on, `x = k` stores the low bits of `k` and clears
x and z; if `k` is a number of the declared width and sign the result is canonical
and denotes `k`. Missing: other integers (`C92_refuted`) and one bit targets
(`C92_one_bit`). -/
theorem C92_assign_int_partial (h : n ≤ 64) (h1 : 1 < n) (k : TV) :
    (Lg.assignInt h k : Lg n s).value.bv = BitVec.ofInt n k.v ∧ (Lg.assignInt h k : Lg n s).Known ∧
    (k.v = numOf s (BitVec.ofInt n k.v) →
      (Bits.assignInt h k : Bits n s).Clean ∧ numOf s (Bits.assignInt h k : Bits n s).bv = k.v) := by
  have hb : (Bits.assignInt h k : Bits n s).bv = BitVec.ofInt n k.v := Bits.bv_mkN h (by omega) k
  refine ⟨hb, ?_, fun hk => ⟨?_, by rw [hb, ← hk]⟩⟩
  · show Lg.Known ⟨Bits.assignInt h k, Bits.mkN h (TV.int 0)⟩
    rw [Bits.mkN_zero h]
    exact Lg.known_zero _
  · rw [Bits.clean_native h, hb, ← hk, Bits.assignInt, Bits.nv_mkN]
    show (holderTy n s).conv k.v = k.v
    rw [hk, holder_numOf h]

/-- **C92, one bit**: any non-zero integer stores 1. -/
theorem C92_one_bit (k : TV) : (Bits.assignInt (by decide) k : Bits 1 s).bv = (if k.v = 0 then 0#1 else 1#1) := by
  rw [Bits.assignInt, Bits.bv_mkN_one (by decide) (by decide)]
  split_ifs <;> rfl

/-- **C92 is false for other integers**: for every native width that is not that of a
C++ type, after `x = 2^n` all bits of `x` are 0 but `x` is not equal to 0; and
assigning 2 to one bit stores 1. -/
theorem C92_refuted :
    (∀ n (h : n ≤ 64), 1 < n → ¬ Full n →
      (Bits.assignInt h ⟨tU64, 2 ^ n⟩ : Bits n false).bv = 0 ∧
      (Bits.assignInt h ⟨tU64, 2 ^ n⟩ : Bits n false).eq (Bits.zero : Bits n false) = false) ∧
    (Bits.assignInt (by decide) (TV.int 2) : Bits 1 false).bv = 1#1 := by
  refine ⟨fun n h h1 hf => ?_, by decide⟩
  have hb : (Bits.assignInt h ⟨tU64, 2 ^ n⟩ : Bits n false).bv = 0 := by
    rw [Bits.assignInt, Bits.bv_mkN h (by omega)]
    apply BitVec.eq_of_toNat_eq
    simp
  have hne : hw n ≠ n := fun e => hf ((Bits.full_iff (by omega) h).2 e)
  have hle := le_hw h
  have hlt : (2 : Int) ^ n < 2 ^ hw n := by exact_mod_cast Nat.pow_lt_pow_right (by omega) (by omega)
  have hpos : (0 : Int) < 2 ^ n := by positivity
  refine ⟨hb, ?_⟩
  have e1 : (Bits.assignInt h ⟨tU64, 2 ^ n⟩ : Bits n false).nv.v = 2 ^ n := by
    rw [Bits.assignInt, Bits.nv_mkN]
    show (holderTy n false).conv (2 ^ n) = _
    rw [holderTy_ge (by omega), CTy.conv_unsigned_of_lt (by omega) hlt]
  have e2 : (Bits.zero : Bits n false).nv.v = 0 := by
    rw [← Bits.mkN_zero h, Bits.nv_mkN]
    show (holderTy n false).conv 0 = _
    rw [holderTy_ge (by omega), CTy.conv_unsigned_of_lt (by omega) (by omega)]
  rw [Bits.eq_native h h, e1, e2, decide_eq_false]
  rw [holderTy_ge (by omega), CTy.conv_unsigned_of_lt (by omega) (by omega)]
  omega

example : (Lg.assignInt (by decide) (TV.int (-3)) : Lg 5 true).value.bv.toInt = -3 := by decide +kernel
example : (-3 : Int) = numOf true (BitVec.ofInt 5 (-3)) := by decide

/-! ## C93: assignment between native widths -/

/-- **C93, partial.** `y = x` between native widths for a canonical `x` and a target
of at least two bits: the target bits are those of the number `x` denotes, that is
`x` truncated, zero extended (unsigned `x`) or sign extended (signed `x`); if the
number is representable in the target the result is canonical and denotes the same
number. Missing: one bit targets and canonical form of the others
(`C93_refuted`), 4-state values with x/z (`C93_z_refuted`). -/
theorem C93_assign_partial (hn : n ≤ 64) (hm : m ≤ 64) (h1 : 1 < m) (x : Bits n s) (hx : x.Clean) :
    (x.assignNat hm : Bits m t).bv = BitVec.ofInt m (numOf s x.bv) ∧
    (numOf t (BitVec.ofInt m (numOf s x.bv)) = numOf s x.bv →
      (x.assignNat hm : Bits m t).Clean ∧ numOf t (x.assignNat hm : Bits m t).bv = numOf s x.bv) := by
  have e := (Bits.clean_native hn x).1 hx
  have hb : (x.assignNat hm : Bits m t).bv = BitVec.ofInt m (numOf s x.bv) := by
    rw [Bits.assignNat, Bits.bv_mkN hm (by omega), e]
  refine ⟨hb, fun hk => ⟨?_, by rw [hb, hk]⟩⟩
  rw [Bits.clean_native hm, hb, hk, Bits.assignNat, Bits.nv_mkN, e]
  show (holderTy m t).conv _ = _
  rw [← hk, holder_numOf hm]

/-- **C93, 4-state, partial.** The same without x/z: the value plane as above and no
x or z in the target; x and z bits of an unsigned value are kept on widening. Missing: signed
sources with x or z (`C93_assign_logic_exact`, `C93_z_refuted_all`), one-bit targets (`C93_one_bit`)
and canonical form (`C93_clean_iff`). -/
theorem C93_assign_logic_partial (hn : n ≤ 64) (hm : m ≤ 64) (h1 : 1 < m) (x : Lg n s) (hx : x.Clean) :
    (x.Known → (x.assignNat hm : Lg m t).Known ∧
      (x.assignNat hm : Lg m t).value.bv = BitVec.ofInt m (numOf s x.value.bv)) ∧
    (s = false → ∀ i, i < m → (x.assignNat hm : Lg m t).at i = if i < n then x.at i else .b0) := by
  have kz := (C93_assign_partial (t := false) hn hm h1 x.xz hx.2)
  have kv := (C93_assign_partial (t := t) hn hm h1 x.value hx.1)
  have unsg : ∀ (b : BitVec n) i, i < m → (BitVec.ofInt m (numOf false b)).getLsbD i = b.getLsbD i := by
    intro b i hi
    show (BitVec.ofInt m (b.toNat : Int)).getLsbD i = _
    rw [ofInt_natCast, BitVec.getLsbD_ofNat, decide_eq_true hi, Bool.true_and]
    rfl
  have hz : ∀ i, i < m → (x.assignNat hm : Lg m t).xz.bv.getLsbD i = x.xz.bv.getLsbD i := by
    intro i hi
    show (x.xz.assignNat hm : Bits m false).bv.getLsbD i = _
    rw [kz.1, unsg _ i hi]
  constructor
  · intro hk
    have hz0 : x.xz.bv = 0 := hk.bv_xz
    refine ⟨⟨(kz.2 ?_).1, ?_⟩, kv.1⟩
    · rw [hz0]; simp [numOf]
    · intro i hi
      rw [Lg.at, hz i hi, hz0, isKnown_mk]; simp
  · intro hs i hi
    subst hs
    rw [Lg.at, hz i hi]
    show V4.mk ((x.value.assignNat hm : Bits m t).bv.getLsbD i) _ = _
    rw [kv.1, unsg _ i hi]
    split_ifs with h
    · rfl
    · rw [BitVec.getLsbD_of_ge _ _ (by omega), BitVec.getLsbD_of_ge _ _ (by omega)]; rfl

/-- **C93 is false as stated.** A one bit target tests for non-zero instead of taking
bit 0; narrowing leaves stored bits above the width, so the value 16 assigned to four
bits has all bits 0 and differs from 0. -/
theorem C93_refuted :
    ((Bits.ofInt 2 : Bits 4 false).assignNat (by decide) : Bits 1 false).bv = 1#1 ∧
    ((Bits.ofInt 16 : Bits 8 false).assignNat (by decide) : Bits 4 false).bv = 0#4 ∧
    ((Bits.ofInt 16 : Bits 8 false).assignNat (by decide) : Bits 4 false).eq (Bits.zero : Bits 4 false) = false := by
  decide +kernel

/-- **C93 is false for signed values that start with z**: widening a signed z gives
ones. -/
theorem C93_z_refuted : ∃ x : Lg 4 true, x.Clean ∧ (∀ i, i < 4 → x.at i = .z) ∧
    (List.range 8).map (x.assignNat (by decide) : Lg 8 true).at = [.z, .z, .z, .z, .b1, .b1, .b1, .b1] :=
  ⟨⟨Bits.ofInt (-1), Bits.ofInt 15⟩, by decide +kernel, by decide +kernel, by decide +kernel⟩

example : ((Bits.ofInt (-3) : Bits 4 true).assignNat (by decide) : Bits 16 true).bv.toInt = -3 := by decide +kernel

/-! ## C104: construction from a `big_num` -/

/-- the first limb is the stored number modulo `2^64` -/
theorem Big.limb0_val (b : Big m t) : (b.limb 0).toNat = val b.vals % 2 ^ 64 := by
  rw [Big.limb]
  cases b.vals with
  | nil => simp [val]
  | cons v vs =>
    rw [val, Nat.add_mul_mod_self_left, Nat.mod_eq_of_lt v.isLt]; rfl

/-- **C104, partial.** `bit<n-1,0>(b)` of a `big_num` has the low `n` bits of the number
stored in `b`, for `n` from 2 on; if that number is below `2^n` the unsigned result is
canonical and denotes it. Missing: one bit (`C104_one_bit`) and canonical form for
larger numbers (`C104_refuted`). -/
theorem C104_of_big_partial (h : n ≤ 64) (h1 : 1 < n) (b : Big m t) :
    (Bits.ofBig h b : Bits n s).bv = BitVec.ofNat n (val b.vals) ∧
    (val b.vals < 2 ^ n → (Bits.ofBig h b : Bits n false).Clean ∧
      numOf false (Bits.ofBig h b : Bits n false).bv = val b.vals) := by
  have hb : ∀ s, (Bits.ofBig h b : Bits n s).bv = BitVec.ofNat n (val b.vals) := by
    intro s
    rw [Bits.ofBig, Bits.bv_mkN h (by omega)]
    show BitVec.ofInt n (((b.limb 0).toNat : Nat) : Int) = _
    rw [ofInt_natCast, b.limb0_val]
    apply BitVec.eq_of_toNat_eq
    rw [BitVec.toNat_ofNat, BitVec.toNat_ofNat, Nat.mod_mod_of_dvd _ (Nat.pow_dvd_pow 2 h)]
  refine ⟨hb s, fun hlt => ?_⟩
  have hn : numOf false (Bits.ofBig h b : Bits n false).bv = val b.vals := by
    rw [hb]
    show (((BitVec.ofNat n (val b.vals)).toNat : Nat) : Int) = _
    rw [BitVec.toNat_ofNat, Nat.mod_eq_of_lt hlt]
  refine ⟨?_, hn⟩
  have h64 : val b.vals < 2 ^ 64 := Nat.lt_of_lt_of_le hlt (Nat.pow_le_pow_right (by decide) h)
  rw [Bits.clean_native h, hn, Bits.ofBig, Bits.nv_mkN, b.limb0_val, Nat.mod_eq_of_lt h64]
  show (holderTy n false).conv _ = _
  have := holder_numOf (s := false) h (BitVec.ofNat n (val b.vals))
  rw [hb] at hn
  rwa [hn] at this

/-- **C104, one bit**: the first limb is tested for non-zero. -/
theorem C104_one_bit (b : Big m t) :
    (Bits.ofBig (by decide) b : Bits 1 s).bv = (if val b.vals % 2 ^ 64 = 0 then 0#1 else 1#1) := by
  rw [Bits.ofBig, Bits.bv_mkN_one (by decide) (by decide), ← b.limb0_val]
  simp only [Int.natCast_eq_zero]
  split_ifs <;> rfl

/-- **C104 is false as stated**: the bits above the width are kept (the four bit value
made from 16 has all bits 0 and is not equal to 0), and the one bit value made from 2
is 1. -/
theorem C104_refuted :
    (Bits.ofBig (by decide) (Big.ofU64 16 : Big 70 false) : Bits 4 false).bv = 0#4 ∧
    (Bits.ofBig (by decide) (Big.ofU64 16 : Big 70 false) : Bits 4 false).eq (Bits.zero : Bits 4 false) = false ∧
    (Bits.ofBig (by decide) (Big.ofU64 2 : Big 70 false) : Bits 1 false).bv = 1#1 := by
  decide +kernel

example : val (Big.ofU64 9 : Big 70 false).vals < 2 ^ 4 := by decide +kernel
example : (Bits.ofBig (by decide) (Big.ofU64 9 : Big 70 false) : Bits 4 false).bv = 9#4 := by decide +kernel

end Verif
