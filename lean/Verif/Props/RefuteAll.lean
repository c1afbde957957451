import Verif.Props.Extend
import Verif.Props.Slice
import Verif.Props.Static
import Verif.Props.Assign
import Verif.Props.Measure
import Verif.Props.SignMix
import Verif.Lemmas.CompareExact

/-!
# What the code does where C87, C89, C93, C95 and C97 are false

For every width and range, not only for the literal cases of `C87_refuted`,
`C89_refuted`, `C93_refuted`, `C95_ascending_refuted` and `C97_refuted`.
-/

namespace Verif

variable {n m : Nat} {s t : Bool}

/-! ## C87 -/

/-- bit `i` of an operand as the code extends it: a wide signed operand is continued with
ones whatever its sign -/
def codeBit (s : Bool) {n : Nat} (x : BitVec n) (i : Nat) : Bool :=
  if i < n then x.getLsbD i else s && (decide (64 < n) || decide (1 < n) && x.msb)

theorem Bits.extend_codeBit {k : Nat} (hn : 0 < n) (h : n ≤ k) (x : Bits n s) (hx : x.Clean) {i : Nat} (hi : i < k) :
    (x.extend k).bv.getLsbD i = codeBit s x.bv i := by
  by_cases hw : s = true ∧ 64 < n ∧ n < k
  · obtain ⟨rfl, h1, h2⟩ := hw
    rw [Bits.extend_wide_signed (by omega) h2 x i hi, codeBit]
    split_ifs
    · rfl
    · simp [h1]
  · by_cases he : n = k
    · subst he
      rw [Bits.extend_self, codeBit, if_pos hi]
    have hu : 64 < n → s = false := fun h64 => by
      cases s with
      | false => rfl
      | true => exact absurd ⟨rfl, h64, by omega⟩ hw
    have hat := Lg.extend_at hn h (⟨x, Bits.zero⟩ : Lg n s)
      ⟨hx, Bits.clean_of_raw_zero fun i => Bits.raw_zero i⟩ hu hi
    have e1 : ((⟨x, Bits.zero⟩ : Lg n s).extend k).at i = V4.mk ((x.extend k).bv.getLsbD i) false := by
      have := (C47_zero_extend_partial hn h (Bits.zero : Bits n false)
        (Bits.clean_of_raw_zero fun i => Bits.raw_zero i)).2.2 i hi
      show V4.mk _ ((Bits.zero.extend k).bv.getLsbD i) = _
      rw [this, Bits.getLsbD_bv Bits.zero, Bits.raw_zero]
      simp
      rfl
    have e2 : extAt s (⟨x, Bits.zero⟩ : Lg n s) i = V4.mk (codeBit s x.bv i) false := by
      rw [extAt, codeBit]
      by_cases hik : i < n
      · rw [if_pos hik, if_pos hik, Lg.at]
        show V4.mk _ ((Bits.zero : Bits n false).bv.getLsbD i) = _
        rw [Bits.getLsbD_bv Bits.zero, Bits.raw_zero, Bool.and_false]
      · rw [if_neg hik, if_neg hik]
        show V4.ofBool (s && !decide (n ≤ 1) && x.bv.msb) = _
        cases s with
        | false => rfl
        | true =>
          have h64 : ¬ 64 < n := fun h => by simpa using hu h
          by_cases h1 : 1 < n
          · simp only [h64, h1, show ¬ n ≤ 1 by omega]; cases x.bv.msb <;> rfl
          · simp only [h64, h1, show n ≤ 1 by omega]; cases x.bv.msb <;> rfl
    rw [e1, e2] at hat
    revert hat
    cases (x.extend k).bv.getLsbD i <;> cases codeBit s x.bv i <;> decide

/-- **C87, exact.** `&`, `|`, `^` of canonical 2-state operands of any two widths and
signednesses never fault, leave no bit above the result width, and compute the boolean
function of the operands as the code extends them (`codeBit`). -/
theorem C87_mixed_exact (hn : 0 < n) (hm : 0 < m) (x : Bits n s) (y : Bits m t) (hx : x.Clean) (hy : y.Clean) :
    (∃ z, x.andMix y = .ok z ∧ ∀ i, z.raw i =
      (decide (i < max n m) && (codeBit s x.bv i && codeBit t y.bv i))) ∧
    (∃ z, x.orMix y = .ok z ∧ ∀ i, z.raw i =
      (decide (i < max n m) && (codeBit s x.bv i || codeBit t y.bv i))) ∧
    (∃ z, x.xorMix y = .ok z ∧ ∀ i, z.raw i =
      (decide (i < max n m) && (codeBit s x.bv i ^^ codeBit t y.bv i))) := by
  have hM : 0 < max n m := by omega
  have kx := fun i (hi : i < max n m) => Bits.extend_codeBit hn (Nat.le_max_left n m) x hx hi
  have ky := fun i (hi : i < max n m) => Bits.extend_codeBit hm (Nat.le_max_right n m) y hy hi
  refine ⟨?_, ?_, ?_⟩
  · obtain ⟨z, hz, hr⟩ := Bits.maskOff_ok hM ((x.extend (max n m)).and (y.extend (max n m)))
    refine ⟨z, hz, fun i => ?_⟩
    rw [hr]
    by_cases hi : i < max n m
    · have := congrArg (fun b => b.getLsbD i) (Bits.bv_and hM (x.extend (max n m)) (y.extend (max n m)))
      simp only [BitVec.getLsbD_and] at this
      rw [Bits.getLsbD_bv, kx i hi, ky i hi] at this
      rw [this, decide_eq_true hi, Bool.true_and]
    · simp [hi]
  · obtain ⟨z, hz, hr⟩ := Bits.maskOff_ok hM ((x.extend (max n m)).or (y.extend (max n m)))
    refine ⟨z, hz, fun i => ?_⟩
    rw [hr]
    by_cases hi : i < max n m
    · have := congrArg (fun b => b.getLsbD i) (Bits.bv_or (x.extend (max n m)) (y.extend (max n m)))
      simp only [BitVec.getLsbD_or] at this
      rw [Bits.getLsbD_bv, kx i hi, ky i hi] at this
      rw [this, decide_eq_true hi, Bool.true_and]
    · simp [hi]
  · obtain ⟨z, hz, hr⟩ := Bits.maskOff_ok hM ((x.extend (max n m)).xor (y.extend (max n m)))
    refine ⟨z, hz, fun i => ?_⟩
    rw [hr]
    by_cases hi : i < max n m
    · have := congrArg (fun b => b.getLsbD i) (Bits.bv_xor (x.extend (max n m)) (y.extend (max n m)))
      simp only [BitVec.getLsbD_xor] at this
      rw [Bits.getLsbD_bv, kx i hi, ky i hi] at this
      rw [this, decide_eq_true hi, Bool.true_and]
    · simp [hi]

/-- **C87 is false for every wide signed operand that is not negative**: at every position
above its width `x & y` is the bit of `y` and `x | y` is 1, although the extension of `x`
has zeros there. -/
theorem C87_refuted_all (hn : 64 < n) (h : n < m) (x : Bits n true) (y : Bits m t) (hx : x.Clean) (hy : y.Clean)
    (hp : 0 ≤ x.bv.toInt) :
    (∃ z, x.andMix y = .ok z ∧ ∀ i, n ≤ i → i < m → z.bv.getLsbD i = y.bv.getLsbD i) ∧
    (∃ z, x.orMix y = .ok z ∧ ∀ i, n ≤ i → i < m → z.bv.getLsbD i = true) ∧
    (∀ i, n ≤ i → (x.bv.signExtend m).getLsbD i = false) := by
  obtain ⟨⟨z, hz, bz⟩, ⟨w, hw, bw⟩, _⟩ := C87_mixed_exact (by omega) (by omega) x y hx hy
  refine ⟨⟨z, hz, fun i h1 h2 => ?_⟩, ⟨w, hw, fun i h1 h2 => ?_⟩, fun i hi => ?_⟩
  · rw [Bits.getLsbD_bv, bz, codeBit, codeBit, if_neg (by omega), if_pos h2]
    simp [hn, show i < max n m by omega]
  · rw [Bits.getLsbD_bv, bw, codeBit, codeBit, if_neg (by omega), if_pos h2]
    simp [hn, show i < max n m by omega]
  · have : x.bv.msb = false := by
      rw [BitVec.msb_eq_toInt]; simpa using hp
    rw [BitVec.getLsbD_signExtend, if_neg (by omega), this, Bool.and_false]

/-! ## C89 -/

/-- **C89, wide values, exact.** The wide constant slice does not use the declared range:
bit `i` of `slice<a,b>()` is the stored bit `min(a,b) + i`, 0 above the value. -/
theorem C89_wide_exact (r : Rng) (h : 64 < n) (x : Bits n s) (a b : Nat) (h65 : max a b - min a b ≠ 64) :
    ∃ z, x.slice r a b = .ok z ∧ z.Clean ∧
      ∀ i, i ≤ max a b - min a b → z.bv.getLsbD i = x.bv.getLsbD (min a b + i) := by
  obtain ⟨z, hz, hr⟩ := Bits.slice_wide (show ¬ n ≤ 64 by omega) r x a b h65
  exact ⟨z, hz, clean_and_bits rfl hr⟩

/-- **C89 is false for every wide descending range with a positive low bound and every
index that compiles** (`idx < size`): the one written at `idx` is not in `slice<idx,idx>()`. -/
theorem C89_refuted_all (r : Rng) (hd : r.lsb ≤ r.msb) (hlo : 0 < r.lsb) (h : 64 < r.size) (hN : r.size ≤ 2 ^ 32)
    (idx : Nat) (h0 : r.lsb ≤ idx) (h1 : idx < r.size) :
    ∃ x z, (Bits.zero : Bits r.size s).set r idx true = .ok x ∧ x.slice r idx idx = .ok z ∧
      x.bv.getLsbD (r.pos idx) = true ∧ z.bv.getLsbD 0 = false := by
  have hl : r.lo = r.lsb := by rw [Rng.lo]; omega
  have hh : r.hi = r.msb := by rw [Rng.hi]; omega
  have hsz : (r.size : Int) = r.msb - r.lsb + 1 := by rw [Rng.size]; omega
  have hpos : (r.pos (idx : Int) : Int) = idx - r.lsb := by rw [Rng.pos, if_pos hd]; omega
  obtain ⟨x, hx, bx⟩ := Bits.set_phys r (Bits.zero : Bits r.size s) idx (r.pos idx)
    (by rw [Bits.physIdx, Rng.bigEndian, if_pos (by simpa using hd), hl, hpos]) (by omega) hN true
  obtain ⟨z, hz, _, bz⟩ := C89_wide_exact r h x idx idx (by simp)
  refine ⟨x, z, hx, hz, ?_, ?_⟩
  · rw [Bits.getLsbD_bv, bx, if_pos rfl, decide_eq_true (by omega)]; rfl
  · rw [bz 0 (by omega), Bits.getLsbD_bv, bx, if_neg (by omega), Bits.raw_zero, Bool.and_false]

/-! ## C93 -/

theorem numOf_eq_zero (b : BitVec n) : numOf s b = 0 ↔ b = 0 := by
  constructor
  · intro h
    rw [← ofInt_numOf (s := s) b, h]; rfl
  · rintro rfl; simp [numOf]

/-- **C93, one bit targets, exact**: the number is tested for non-zero. -/
theorem C93_one_bit (hn : n ≤ 64) (x : Bits n s) (hx : x.Clean) :
    (x.assignNat (by decide) : Bits 1 t).bv = if x.bv = 0 then 0#1 else 1#1 := by
  have e := (Bits.clean_native hn x).1 hx
  rw [Bits.assignNat, Bits.bv_mkN_one (by decide) (by decide)]
  by_cases h : x.bv = 0
  · rw [if_pos h, if_pos (by rw [e, numOf_eq_zero, h])]; rfl
  · rw [if_neg h, if_neg (by rw [e, numOf_eq_zero]; exact h)]; rfl

/-- **C93, canonical form, exact.** The result of an assignment to two or more bits is
canonical exactly when the number in the C++ type of the target and the number in its
declared bits are the same. -/
theorem C93_clean_iff (hn : n ≤ 64) (hm : m ≤ 64) (h1 : 1 < m) (x : Bits n s) (hx : x.Clean) :
    (x.assignNat hm : Bits m t).Clean ↔
      numOf t (BitVec.ofInt (hw m) (numOf s x.bv)) = numOf t (BitVec.ofInt m (numOf s x.bv)) := by
  have e := (Bits.clean_native hn x).1 hx
  have hb := (C93_assign_partial (t := t) hn hm h1 x hx).1
  have h8 := hw_ge_eight (show ¬ m ≤ 1 by omega)
  rw [Bits.clean_native hm, hb, Bits.assignNat, Bits.nv_mkN, e]
  show (holderTy m t).conv _ = _ ↔ _
  rw [holderTy_ge (by omega)]
  have : (CTy.int (hw m) t).conv (numOf s x.bv) = numOf t (BitVec.ofInt (hw m) (numOf s x.bv)) := by
    cases t with
    | false =>
      simp only [numOf, CTy.conv, Bool.false_and, Bool.false_eq_true, if_false, BitVec.toNat_ofInt]
      have : (0 : Int) ≤ numOf s x.bv % 2 ^ hw m := Int.emod_nonneg _ (by positivity)
      have q : ((2 ^ hw m : Nat) : Int) = 2 ^ hw m := by push_cast; rfl
      simp only [numOf] at this
      rw [q, Int.toNat_of_nonneg this]
    | true =>
      rw [numOf_eq_toInt rfl (by omega), BitVec.toInt_ofInt]
      simp [CTy.conv]
  rw [this]

/-- **C93 is false for every pair of native widths** that narrows to a width without a C++
type: `2^m` gives a value of `m` zero bits that is not equal to 0. -/
theorem C93_narrow_refuted (hn : n ≤ 64) (hm : m ≤ 64) (h1 : 1 < m) (h : m < n) (hf : ¬ Full m) :
    ∃ x : Bits n false, x.Clean ∧ x.bv.toNat = 2 ^ m ∧ (x.assignNat hm : Bits m false).bv = 0 ∧
      (x.assignNat hm : Bits m false).eq (Bits.zero : Bits m false) = false := by
  have hlt := Nat.pow_lt_pow_right (show 1 < 2 by decide) h
  obtain ⟨x, hx, bx⟩ := Bits.exists_clean (s := false) (BitVec.ofNat n (2 ^ m))
  have bn : x.bv.toNat = 2 ^ m := by rw [bx, BitVec.toNat_ofNat, Nat.mod_eq_of_lt hlt]
  have e : x.nv.v = 2 ^ m := by
    rw [(Bits.clean_native hn x).1 hx, numOf, if_neg (by simp), bn]; push_cast; rfl
  have q : (x.assignNat hm : Bits m false) = Bits.assignInt hm ⟨tU64, 2 ^ m⟩ := by
    rw [Bits.assignNat, Bits.assignInt, ← e]
    rw [← Bits.mkN_nv hm (Bits.mkN hm x.nv : Bits m false), ← Bits.mkN_nv hm (Bits.mkN hm ⟨tU64, x.nv.v⟩ : Bits m false),
      Bits.nv_mkN, Bits.nv_mkN]
  obtain ⟨b, c⟩ := C92_refuted.1 m hm h1 hf
  exact ⟨x, hx, bn, by rw [q]; exact b, by rw [q]; exact c⟩

/-- **C93, 4-state, exact.** The bits of the source are kept, x and z included; the bits
above an unsigned or one bit source are 0 and those above a signed source repeat the
*value bit* of its top position, without its x/z mark. -/
theorem C93_assign_logic_exact (hn : n ≤ 64) (hm : m ≤ 64) (h1 : 1 < m) (x : Lg n s) (hx : x.Clean)
    (i : Nat) (hi : i < m) :
    (x.assignNat hm : Lg m t).at i =
      if i < n then x.at i else V4.ofBool (s && decide (1 < n) && x.value.bv.getLsbD (n - 1)) := by
  have kz := (C93_assign_partial (t := false) hn hm h1 x.xz hx.2).1
  have kv := (C93_assign_partial (t := t) hn hm h1 x.value hx.1).1
  have hz : (x.assignNat hm : Lg m t).xz.bv.getLsbD i = x.xz.bv.getLsbD i := by
    show (x.xz.assignNat hm : Bits m false).bv.getLsbD i = _
    rw [kz]
    show (BitVec.ofInt m (x.xz.bv.toNat : Int)).getLsbD i = _
    rw [ofInt_natCast, BitVec.getLsbD_ofNat, decide_eq_true hi, Bool.true_and]
    rfl
  rw [Lg.at, hz]
  show V4.mk ((x.value.assignNat hm : Bits m t).bv.getLsbD i) _ = _
  rw [kv]
  by_cases hs : s = true ∧ 1 < n
  · obtain ⟨rfl, hn1⟩ := hs
    rw [numOf_eq_toInt rfl hn1]
    have : BitVec.ofInt m x.value.bv.toInt = x.value.bv.signExtend m := rfl
    rw [this, BitVec.getLsbD_signExtend, decide_eq_true hi, Bool.true_and]
    split_ifs with h
    · rfl
    · rw [BitVec.getLsbD_of_ge x.xz.bv _ (by omega), BitVec.msb_eq_getLsbD_last, decide_eq_true hn1]
      cases x.value.bv.getLsbD (n - 1) <;> rfl
  · have hq : (s && decide (1 < n)) = false := by
      cases s with
      | false => rfl
      | true => simp at hs; simp; omega
    have hq' : (s && !decide (n ≤ 1)) = false := by
      cases s with
      | false => rfl
      | true => simp at hs; simp; omega
    have : numOf s x.value.bv = ((x.value.bv.toNat : Nat) : Int) := by rw [numOf, hq']; rfl
    rw [this, ofInt_natCast, BitVec.getLsbD_ofNat, decide_eq_true hi, Bool.true_and, hq]
    show V4.mk (x.value.bv.getLsbD i) _ = _
    split_ifs with h
    · rfl
    · rw [BitVec.getLsbD_of_ge _ _ (by omega), BitVec.getLsbD_of_ge _ _ (by omega)]; rfl

/-- **C93 is false for every widening of a signed value that starts with z**: the new bits
are ones. -/
theorem C93_z_refuted_all (hn : n ≤ 64) (hm : m ≤ 64) (h1 : 1 < n) (x : Lg n true) (hx : x.Clean)
    (hz : x.at (n - 1) = .z) (i : Nat) (h : n ≤ i) (hi : i < m) : (x.assignNat hm : Lg m t).at i = .b1 := by
  rw [C93_assign_logic_exact hn hm (by omega) x hx i hi, if_neg (by omega), decide_eq_true h1]
  rw [Lg.at] at hz
  revert hz
  cases x.value.bv.getLsbD (n - 1) <;> cases x.xz.bv.getLsbD (n - 1) <;> decide

/-! ## C95 -/

/-- **C95, ascending ranges, exact**, for the bit selected by the body of `bit::get(bit)` (no call compiles,
because the body returns a `bit<0>` as `bool`). `get(op)` on an ascending range reads the bit
declared at index `op - lo`, as long as there is one. -/
theorem C95_ascending_exact (r : Rng) (x : Bits r.size s) (hd : r.msb < r.lsb)
    (hb : -2 ^ 31 ≤ r.lo ∧ r.hi < 2 ^ 31) (hsz : r.size ≤ 2 ^ 31) (hm : m ≤ 64) (op : Bits m t) (hop : op.Clean)
    (hl : r.lo ≤ numOf t op.bv)
    (h2 : 2 * r.lo ≤ numOf t op.bv) (h3 : numOf t op.bv - r.lo ≤ r.hi) :
    x.getIdx r op = .ok (x.bv.getLsbD (r.pos (numOf t op.bv - r.lo))) := by
  have hnv := (Bits.clean_native hm op).1 hop
  generalize numOf t op.bv = i at *
  have hlo : r.lo = r.msb := by rw [Rng.lo]; omega
  have hhi : r.hi = r.lsb := by rw [Rng.hi]; omega
  have hs2 : (r.size : Int) = r.hi - r.lo + 1 := by simp only [Rng.lo, Rng.hi, Rng.size]; omega
  have hlt := Rng.pos_lt (r := r) (i := i - r.lo) (by omega) h3
  have hph : Bits.physIdx r (i - r.lo) = (r.pos (i - r.lo) : Int) := by
    rw [Bits.physIdx, Rng.bigEndian, if_neg (by simp; omega), Rng.pos, if_neg (by omega)]
    omega
  rw [Bits.getIdx, if_pos hm, Bits.sub_index hm op r.lo (by omega) (by omega) (by omega) (fun i => x.get r i), hnv]
  exact Bits.get_phys r x _ _ hph hlt (by omega)

/-- **C95 is false for every ascending range that does not start at 0** and every index for
which the positions written and read exist: the one written at the index is not read
there (`set` subtracts the low bound after mirroring the index, `get(op)` before). -/
theorem C95_ascending_refuted_all (r : Rng) (hd : r.msb < r.lsb) (h0 : r.lo ≠ 0)
    (hb : -2 ^ 31 ≤ r.lo ∧ r.hi < 2 ^ 31) (hsz : r.size ≤ 2 ^ 31) (hm : m ≤ 64) (op : Bits m t) (hop : op.Clean)
    (hl : r.lo ≤ numOf t op.bv) (h2 : 2 * r.lo ≤ numOf t op.bv) (h3 : numOf t op.bv - r.lo ≤ r.hi)
    (h4 : numOf t op.bv + r.lo ≤ r.hi) (h5 : 0 ≤ numOf t op.bv) :
    ∃ y, (Bits.zero : Bits r.size s).set r (numOf t op.bv) true = .ok y ∧ y.getIdx r op = .ok false := by
  have ex := fun y => C95_ascending_exact (s := s) r y hd hb hsz hm op hop hl h2 h3
  generalize numOf t op.bv = i at *
  have hlo : r.lo = r.msb := by rw [Rng.lo]; omega
  have hhi : r.hi = r.lsb := by rw [Rng.hi]; omega
  have hs2 : (r.size : Int) = r.hi - r.lo + 1 := by simp only [Rng.lo, Rng.hi, Rng.size]; omega
  have hrd : (r.pos (i - r.lo) : Int) = r.lsb - i + r.lo := by rw [Rng.pos, if_neg (by omega)]; omega
  obtain ⟨y, hy, by'⟩ := Bits.set_phys r (Bits.zero : Bits r.size s) i (r.lsb - i - r.lo).toNat
    (by rw [Bits.physIdx, Rng.bigEndian, if_neg (by simp; omega)]; omega) (by omega) (by omega) true
  refine ⟨y, hy, ?_⟩
  rw [ex, Bits.getLsbD_bv, by', if_neg (by omega), Bits.raw_zero, Bool.and_false]

-- `bit<1,8>`: indices 2 to 7 are such indices
example : ((Bits.zero : Bits 8 false).set ⟨1, 8⟩ 4 true).bind
    (fun y => y.getIdx ⟨1, 8⟩ (Bits.ofInt 4 : Bits 4 false)) = .ok false := by decide +kernel

/-! ## C97 -/

/-- **C97, constant, exact.** The result of `negate()` on a constant wide object is
canonical exactly for multiples of 64 bits and for 0. -/
theorem C97_wide_clean_iff (h : 64 < n) (x : Bits n s) (hx : x.Clean) :
    ∃ z, x.negate = .ok z ∧ z.bv = - x.bv ∧ (z.Clean ↔ n % 64 = 0 ∨ x.bv = 0) := by
  have h' : ¬ n ≤ 64 := by omega
  obtain ⟨z, hz, hb⟩ := Bits.negate_wide h' x
  refine ⟨z, hz, hb, ?_⟩
  rw [Bits.negate, dif_neg h'] at hz
  have hz := (Except.ok.inj hz).symm
  have hc : val (x.bg h').vals < 2 ^ n := (Bits.clean_big h' x).1 hx
  have e : x.bv = 0 ↔ val (x.bg h').vals = 0 := by
    rw [Bits.bv_big h', ← BitVec.toNat_inj, Big.toNat_bv, Nat.mod_eq_of_lt hc]; simp
  have hzc : z.Clean ↔ val (x.bg h').negate.vals < 2 ^ n := by
    rw [Bits.clean_big h', hz]; rfl
  rw [hzc, e, Big.negate_spec (by omega)]
  have hl := limbs_eq n
  by_cases h0 : val (x.bg h').vals = 0
  · rw [h0]; simp
  by_cases h64 : n % 64 = 0
  · have : 64 * limbs n = n := by omega
    rw [this]
    simp only [h64, true_or, iff_true]
    exact Nat.mod_lt _ (by positivity)
  · have hge : n + 1 ≤ 64 * limbs n := by omega
    have hp := Nat.pow_le_pow_right (show 0 < 2 by decide) hge
    rw [Nat.pow_succ] at hp
    rw [Nat.mod_eq_of_lt (by omega)]
    constructor
    · intro; omega
    · rintro (h | h) <;> omega

/-- **C97, in place, exact.** The result of `negate()` on a native variable is canonical
exactly for unsigned and one bit types, for the widths of the C++ types and when the
negated number is not negative. -/
theorem C97_native_clean_iff (hn : 0 < n) (h : n ≤ 64) (x : Bits n s) (hx : x.Clean) (hm : ¬ IsMin x) :
    ∃ z, x.negateMut h = .ok z ∧ z.bv = - x.bv ∧
      (z.Clean ↔ s = false ∨ n = 1 ∨ Full n ∨ (- x.bv).msb = false) := by
  obtain ⟨z, hz, hb, hc⟩ := C97_negate_partial hn h x hx hm
  refine ⟨z, hz, hb, ⟨fun hcl => ?_, fun hq => ?_⟩⟩
  · by_contra hq
    push Not at hq
    obtain ⟨hs, h1, hf, hms⟩ := hq
    have hs : s = true := by simpa using hs
    subst hs
    have hms : z.bv.msb = true := by rw [hb]; simpa using hms
    have hne : hw n ≠ n := fun e => hf ((Bits.full_iff hn h).2 e)
    have hle := le_hw h
    obtain ⟨v, hv, _⟩ := Bits.bnot_inc h x (not_min h (fun _ _ => hx) hm)
    obtain ⟨w, hw', hr⟩ := Bits.maskOff_ok hn (Bits.mkN h v : Bits n true)
    rw [Bits.negateMut, hv] at hz
    have hzw : z = w := Except.ok.inj (hz.symm.trans hw')
    have hmh : z.hold.msb = false := by
      rw [BitVec.msb_eq_getLsbD_last, ← Bits.raw_native h, hzw, hr]; simp; omega
    rw [Bits.clean_native h, Bits.nv_v h, numOf_eq_toInt rfl (by omega)] at hcl
    simp only [Bool.true_and, show ¬ n ≤ 1 by omega, decide_false, Bool.not_false, if_true] at hcl
    have a1 := BitVec.msb_eq_toInt (x := z.bv)
    have a2 := BitVec.msb_eq_toInt (x := z.hold)
    rw [hms] at a1; rw [hmh] at a2
    simp at a1 a2
    omega
  · rcases hq with hq | rfl | hq | hq
    · exact hc (Or.inl hq)
    · exact Bits.clean_one (by decide) (by decide) z
    · exact hc (Or.inr (Or.inl hq))
    · exact hc (Or.inr (Or.inr hq))

-- 1 in 70 bits and in 4 signed bits: neither negation is canonical
example : (Bits.ofInt 1 : Bits 70 false).Clean ∧ (Bits.ofInt 1 : Bits 4 true).Clean ∧
    (- (Bits.ofInt 1 : Bits 4 true).bv).msb = true := by decide +kernel
example : ¬ IsMin (Bits.ofInt 1 : Bits 4 true) := by rw [IsMin]; decide

end Verif
