import Verif.Props.Array2
import Verif.Props.SliceOut

/-!
# Reading a native packed array at any index (C78, C79, C103)

The guard of `operator[]` (`array.hh` 83) compares the index with the number of bits, and the slice that
follows has one bit too many at its upper end. The theorems here give the outcome of every read that
passes the guard: which indices are undefined, and which bits the others return.
-/

namespace Verif

variable {n w m : Nat} {s t : Bool} {ra : Rng}

/-- a native slice with a bound outside the holder -/
theorem Bits.sliceRt_outside (h : n ≤ 64) (h1 : 1 < n) (x : Bits n s) {k : Nat} (hk : k ≤ 64)
    (a b : Int) (hb : max a b < 2 ^ 31) (hno : ¬ (0 ≤ min a b ∧ max a b < hw n)) :
    x.sliceRt (Rng.down n) k a b = .error .shift := by
  have hlo := Rng.lo_down (show 0 < n by omega)
  have hwn := le_hw h
  by_cases h0 : 0 ≤ min a b
  · by_cases hpn : min a b < n
    · exact Bits.sliceRt_native_fault h h1 _ x hk (p := (min a b).toNat) (q := (max a b).toNat)
        (by rw [hlo]; omega) (by rw [hlo]; omega) (by omega) (by omega) (by omega)
    · have hsz : sizeofBits n = hw n := by rw [sizeofBits, if_neg (by omega)]
      rw [Bits.sliceRt, dif_pos h, dif_pos hk]
      simp only [hlo, sub_zero]
      cases hm : TV.shl (Bits.bitMask n) (TV.int (min a b)) with
      | error e =>
        rw [TV.shl] at hm
        split_ifs at hm
        injection hm with hm
        rw [← hm]; rfl
      | ok m1 =>
        rw [res_bind_ok, TV.shr_fault (Or.inr _)]
        · rfl
        · have hb' : (Bits.bitMask n).ty.promote.width ≤ 64 := by
            have := hw_le n
            rw [Bits.bitMask, holderMax, if_neg (by omega)]
            simp only [Bool.false_eq_true, if_false, CTy.promote]
            split <;> simp only [CTy.width] <;> omega
          have : (((Bits.bitMask n).ty.promote.width : Nat) : Int) ≤ 64 := by exact_mod_cast hb'
          have hc : 2 ^ 64 - 2 ^ 33 ≤ (TV.u64 ((sizeofBits n : Int) - max a b - 1)).v := by
            show _ ≤ tU64.conv _
            rw [hsz]
            simp only [CTy.conv]
            omega
          omega
  · rw [Bits.sliceRt, dif_pos h, dif_pos hk]
    simp only [hlo, sub_zero]
    have : TV.shl (Bits.bitMask n) (TV.int (min a b)) = .error .shift := by
      rw [TV.shl]; exact if_pos (Or.inl (by show min a b < 0; omega))
    rw [this]; rfl

/-- bit `p` of the storage of a canonical native vector: the bit of the vector, its sign above -/
def Bits.stored (x : Bits n s) (p : Nat) : Bool := if p < n then x.bv.getLsbD p else (s && x.bv.getLsbD (n - 1))

/-- the slice that `operator[]` of a native array takes, one plane -/
theorem Bits.elem_native (h : n ≤ 64) (h1 : 1 < n) (hw0 : 0 < w) (hw64 : w ≤ 64) (x : Bits n s) (hx : x.Clean) (p : Nat)
    (hp : p + w < hw n) :
    ∃ z, x.sliceRt (Rng.down n) w (p : Nat) ((p + w : Nat) : Int) = .ok z ∧
      ∀ j, j < w → z.bv.getLsbD j = (x.stored (p + j) || (decide (w = 1) && x.stored (p + 1))) := by
  have hl := Rng.lo_down (show 0 < n by omega)
  have hst : ∀ j, j ≤ w → x.raw (p + j) = x.stored (p + j) := fun j hj => Bits.raw_above h h1 hx (by omega)
  obtain ⟨v, hv, hbits⟩ := Bits.sliceRt_holder h h1 (Rng.down n) x hw64 (a := (p : Nat))
    (b := ((p + w : Nat) : Int)) (p := p) (q := p + w) (by rw [hl]; omega) (by rw [hl]; omega) hp
  refine ⟨_, hv, fun j hj => ?_⟩
  by_cases hw1 : w = 1
  · subst hw1
    obtain rfl : j = 0 := by omega
    rw [Bits.getLsbD_bv, Bits.raw_mkN_one, ← hst 0 (by omega), ← hst 1 (by omega)]
    simp only [decide_true, Bool.true_and]
    rw [decide_eq_true hj, Bool.true_and, Bool.eq_iff_iff, decide_eq_true_iff, Bool.or_eq_true]
    constructor
    · intro hne
      obtain ⟨j, hj⟩ := exists_ibit hne
      rw [hbits] at hj
      split_ifs at hj with hj'
      · rcases (by omega : j = 0 ∨ j = 1) with rfl | rfl
        · exact Or.inl hj
        · exact Or.inr hj
      · rw [Bool.and_eq_true, Bool.and_eq_true, decide_eq_true_iff] at hj
        rw [show p + 1 = hw n - 1 by omega]; exact Or.inr hj.2
    · intro ht h0
      have e0 := hbits 0
      have e1 := hbits 1
      rw [h0, ibit_zero, if_pos (by omega)] at e0 e1
      rcases ht with ht | ht
      · rw [ht] at e0; cases e0
      · rw [ht] at e1; cases e1
  · have := le_hw hw64
    have h3 : j < hw w := by omega
    rw [Bits.getLsbD_bv, Bits.raw_mkN hw64 (by omega), hbits, if_pos (by omega), hst j (by omega)]
    simp [hj, h3, hw1]

/-- the bounds of the slice for any index number -/
theorem PArr.bounds_any (hm : m ≤ 64) (op : Lg m t) (ho : op.value.Clean) (i : Int)
    (hnum : numOf t op.value.bv = ra.lo + i) (h1 : -2 ^ 31 ≤ ra.lo + i) (h2 : ra.lo + i < 2 ^ 31)
    (h3 : -2 ^ 31 ≤ i * w) (h4 : (i + 1) * w < 2 ^ 31) (h5 : -2 ^ 31 ≤ i) (h6 : i + 1 < 2 ^ 31) :
    bounds w ra op = .ok (i * w, (i + 1) * w) := by
  have e : (i + 1) * (w : Int) = i * w + w := by ring
  rw [bounds, Bits.nv_numOf hm ho, hnum, tInt_conv_of (by omega) (by omega),
    show ra.lo + i - ra.lo = i by omega, intRes_ok (by omega) (by omega), res_bind_ok,
    intRes_ok (by omega) (by omega), res_bind_ok, intRes_ok (by omega) (by omega), res_bind_ok,
    intRes_ok (by omega) (by omega), res_map_ok]

/-- the position of the selected element for a native array: no bound leaves `int` -/
theorem elem_small (h : n ≤ 64) (hn : ra.size * w = n) (hw0 : 0 < w) (hlo : |ra.lo| < 2 ^ 24) {i : Int}
    (hg : 0 ≤ ra.lo + i ∧ ra.lo + i < n) (hw64 : w ≤ 64) :
    -2 ^ 31 ≤ i * w ∧ (i + 1) * w < 2 ^ 31 ∧ -2 ^ 31 ≤ i ∧ i + 1 < 2 ^ 31 ∧ (i < 0 → i * w < 0) ∧ (0 ≤ i → 0 ≤ i * w) := by
  rw [abs_lt] at hlo
  have hw' : (1 : Int) ≤ w ∧ (w : Int) ≤ 64 := by omega
  refine ⟨by nlinarith, by nlinarith, by omega, by omega, fun h => by nlinarith, fun h => by nlinarith⟩

/-- **C78 and C79, native arrays, exactly.** Let the index be known and pass the guard, that is
`0 <= index < number of bits`, and let `i` be the index less the low bound. The read is undefined if `i < 0`
or if the element, with the bit after it, does not fit the C++ integer that holds the array; otherwise it
returns bits `i*w .. i*w+w-1` of the storage, in an array of one-bit elements their disjunction with the next bit. -/
theorem C79_native_exact (h : ra.size * w ≤ 64) (h1 : 1 < ra.size * w) (hlo : |ra.lo| < 2 ^ 24) (hm0 : 0 < m) (hm : m ≤ 64)
    (x : PArr w s ra) (hx : x.Clean) (op : Lg m t) (ho : op.value.Clean) (hk : op.Known) (i : Int)
    (hi : numOf t op.value.bv = ra.lo + i) (hg : 0 ≤ ra.lo + i ∧ ra.lo + i < (ra.size * w : Nat)) :
    (0 ≤ i ∧ (i + 1) * w < hw (ra.size * w) → ∃ z, x.get op = .ok z ∧ ∀ j, j < w → z.at j =
      V4.mk (x.value.stored (i.toNat * w + j) || (decide (w = 1) && x.value.stored (i.toNat * w + 1)))
        (x.xz.stored (i.toNat * w + j) || (decide (w = 1) && x.xz.stored (i.toNat * w + 1)))) ∧
    (¬ (0 ≤ i ∧ (i + 1) * w < hw (ra.size * w)) → x.get op = .error .shift) := by
  have hw0 : 0 < w := by rcases Nat.eq_zero_or_pos w with rfl | h; simp at h1; exact h
  have hc : 0 < ra.size := by rcases Nat.eq_zero_or_pos ra.size with e | h; rw [e] at h1; omega; exact h
  have hw64 : w ≤ 64 := le_trans (Nat.le_mul_of_pos_left w hc) h
  obtain ⟨s1, s2, s3, s4, s5, s6⟩ := elem_small h rfl hw0 hlo hg hw64
  have hguard : PArr.guard w ra op = .ok false := by
    rw [PArr.guard_known hm0 hm (by omega) op ho hk, hi, decide_eq_false (by omega)]
  have hget : x.get op = Lg.sliceRt (PArr.rng w ra) x w (i * w) ((i + 1) * w) := by
    rw [PArr.get, hguard, res_bind_ok]
    simp only [Bool.false_eq_true, if_false]
    rw [PArr.bounds_any hm op ho i hi (by omega) (by omega) s1 s2 s3 s4, res_bind_ok]
  have e2 : (i + 1) * (w : Int) = i * w + w := by ring
  rw [hget, Lg.sliceRt, PArr.rng]
  constructor
  · rintro ⟨h0, hq⟩
    obtain ⟨k, rfl⟩ := Int.eq_ofNat_of_zero_le h0
    have ea : ((k : Int) * w) = ((k * w : Nat) : Int) := by push_cast; ring
    have eb : (((k : Int) + 1) * w) = ((k * w + w : Nat) : Int) := by push_cast; ring
    obtain ⟨a, ha, hav⟩ := Bits.elem_native h h1 hw0 hw64 x.value hx.1 (k * w) (by omega)
    obtain ⟨b, hb, hbv⟩ := Bits.elem_native h h1 hw0 hw64 x.xz hx.2 (k * w) (by omega)
    refine ⟨⟨a, b⟩, by rw [ea, eb, ha, res_bind_ok, hb, res_map_ok], fun j hj => ?_⟩
    rw [Lg.at, hav j hj, hbv j hj]; rfl
  · intro hno
    rw [Bits.sliceRt_outside h h1 x.value hw64 _ _ (by omega) (by omega)]; rfl

/-- **C103, native arrays, exactly.** The same for 2-state arrays. -/
theorem C103_native_exact (h : ra.size * w ≤ 64) (h1 : 1 < ra.size * w) (hlo : |ra.lo| < 2 ^ 24) (hm0 : 0 < m) (hm : m ≤ 64)
    (x : PArr2 w s ra) (hx : x.Clean) (op : Lg m t) (ho : op.value.Clean) (hk : op.Known) (i : Int)
    (hi : numOf t op.value.bv = ra.lo + i) (hg : 0 ≤ ra.lo + i ∧ ra.lo + i < (ra.size * w : Nat)) :
    (0 ≤ i ∧ (i + 1) * w < hw (ra.size * w) → ∃ z, x.get op = .ok z ∧ ∀ j, j < w → z.bv.getLsbD j =
      (x.stored (i.toNat * w + j) || (decide (w = 1) && x.stored (i.toNat * w + 1)))) ∧
    (¬ (0 ≤ i ∧ (i + 1) * w < hw (ra.size * w)) → x.get op = .error .shift) := by
  have hw0 : 0 < w := by rcases Nat.eq_zero_or_pos w with rfl | h; simp at h1; exact h
  have hc : 0 < ra.size := by rcases Nat.eq_zero_or_pos ra.size with e | h; rw [e] at h1; omega; exact h
  have hw64 : w ≤ 64 := le_trans (Nat.le_mul_of_pos_left w hc) h
  obtain ⟨s1, s2, s3, s4, s5, s6⟩ := elem_small h rfl hw0 hlo hg hw64
  have hguard : PArr.guard w ra op = .ok false := by
    rw [PArr.guard_known hm0 hm (by omega) op ho hk, hi, decide_eq_false (by omega)]
  have hget : x.get op = Bits.sliceRt (PArr.rng w ra) x w (i * w) ((i + 1) * w) := by
    rw [PArr2.get, hguard, res_bind_ok]
    simp only [Bool.false_eq_true, if_false]
    rw [PArr.bounds_any hm op ho i hi (by omega) (by omega) s1 s2 s3 s4, res_bind_ok]
  have e2 : (i + 1) * (w : Int) = i * w + w := by ring
  rw [hget, PArr.rng]
  constructor
  · rintro ⟨h0, hq⟩
    obtain ⟨k, rfl⟩ := Int.eq_ofNat_of_zero_le h0
    have ea : ((k : Int) * w) = ((k * w : Nat) : Int) := by push_cast; ring
    have eb : (((k : Int) + 1) * w) = ((k * w + w : Nat) : Int) := by push_cast; ring
    obtain ⟨a, ha, hav⟩ := Bits.elem_native h h1 hw0 hw64 x hx (k * w) (by omega)
    exact ⟨a, by rw [ea, eb, ha], hav⟩
  · intro hno
    rw [Bits.sliceRt_outside h h1 x hw64 _ _ (by omega) (by omega)]

-- three elements of four bits in 16: element 2 reads, index 3 is undefined; three of three bits: index 3 reads zeros
example : ((PArr.get (w := 4) (ra := ⟨2, 0⟩) (Lg.ofInt 0x5a3 : Lg 12 false) (Lg.ofInt 2 : Lg 2 false)).map
      fun z => (z.at 0, z.at 1, z.at 2, z.at 3)) = .ok (.b1, .b0, .b1, .b0) ∧
    PArr.get (w := 4) (ra := ⟨2, 0⟩) (Lg.ofInt 0x5a3 : Lg 12 false) (Lg.ofInt 3 : Lg 2 false) = .error .shift ∧
    ((PArr.get (w := 3) (ra := ⟨2, 0⟩) (Lg.ofInt 0x1ff : Lg 9 false) (Lg.ofInt 3 : Lg 2 false)).map
      fun z => (z.at 0, z.at 1, z.at 2)) = .ok (.b0, .b0, .b0) := by decide +kernel

end Verif
