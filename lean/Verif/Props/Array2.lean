import Verif.Props.Array
import Verif.Props.Conservative
import Verif.Show

/-!
# Packed arrays of 2-state elements (C103)
-/

namespace Verif
variable {n m w k : Nat} {s t u : Bool} {ra : Rng}

namespace Bits

theorem promote_width_max (n : Nat) (s : Bool) : (holderTy n s).promote.width = max 32 (hw n) := by
  by_cases h1 : n ≤ 1
  · rw [holderTy_one h1, hw, if_pos h1]; rfl
  · rw [holderTy_ge h1]
    rcases hw_cases n with h | h | h | h | h <;> rw [h] <;> rfl

/-- reading past the end of a native value, within the promoted type, gives the sign -/
theorem get_past (h : n ≤ 64) (hn : 0 < n) {x : Bits n s} (hx : x.Clean) {i : Nat} (hi : n ≤ i)
    (hw : i < max 32 (hw n)) : x.get (Rng.down n) i = .ok (decide (numOf s x.bv < 0)) := by
  have hW := promote_width_max n s
  rw [get, dif_pos h, physIdx_down hn, TV.shr_ok (k := i) rfl (by rw [nv_ty]; omega), res_map_ok, TV.band_one_ne]
  simp only [nv_ty]
  rw [promote_conv_nv h x, (clean_native h x).1 hx]
  have key : ∀ a : Int, (holderTy n s).promote.conv a % 2 = a % 2 := by
    intro a
    have := ofInt_promote_conv n s (k := 1) (Or.inr (by omega)) a
    rw [ofInt_eq_iff] at this
    simpa using this
  rw [key]
  have hb := numOf_bounds (s := s) hn x.bv
  have p1 : (2 : Int) ^ n ≤ 2 ^ i := pow_mono hi
  have p2 : (2 : Int) ^ (n - 1) ≤ 2 ^ i := pow_mono (by omega)
  by_cases hneg : numOf s x.bv < 0
  · have : numOf s x.bv / 2 ^ i = -1 := by
      have h1 : -2 ^ i ≤ numOf s x.bv := by split_ifs at hb <;> omega
      rw [Int.ediv_eq_iff_of_pos (by positivity)]
      omega
    rw [this]; simp [hneg]
  · have : numOf s x.bv / 2 ^ i = 0 := Int.ediv_eq_zero_of_lt (by omega) (by split_ifs at hb <;> omega)
    rw [this]; simp [hneg]

/-- further out it is undefined -/
theorem get_past_fault (h : n ≤ 64) (hn : 0 < n) (x : Bits n s) {i : Nat} (hw : max 32 (hw n) ≤ i) :
    x.get (Rng.down n) i = .error .shift := by
  have hW := promote_width_max n s
  rw [get, dif_pos h, physIdx_down hn, TV.shr_fault (by rw [nv_ty]; right; show _ ≤ (i : Int); omega)]
  rfl

/-- writing a bit of a native value at any index the shift accepts -/
theorem setNat_any (h : n ≤ 64) (h1 : 1 < n) (x : Bits n s) (c : TV) (i : Nat) (hc : c.v = i) (hi : i < 64) (v : Bool) :
    ∃ y, setNat h x c v = .ok y ∧ ∀ j, y.raw j = if j = i ∧ j < hw n then v else x.raw j := by
  cases v with
  | false =>
    obtain ⟨y, hy, hr⟩ := setNat_clear h h1 x c i hc hi
    refine ⟨y, hy, fun j => ?_⟩
    rw [hr]
    by_cases hj : j < hw n
    · simp [hj]
    · rw [raw_of_ge_native h x (by omega)]; simp
  | true =>
    have hsh : TV.shl (TV.u64 1) c = .ok ⟨tU64, 2 ^ i⟩ := by
      rw [TV.shl_ok hc (by show i < 64; omega)]
      show Except.ok (⟨tU64, tU64.conv (tU64.conv (tU64.conv 1) * 2 ^ i)⟩ : TV) = _
      have h1 : tU64.conv (tU64.conv 1) = 1 := by decide
      rw [h1, one_mul, tU64_conv_of (by positivity)]
      exact pow_lt_pow_right₀ (by norm_num) (by omega)
    rw [setNat, hsh, res_map_ok]
    refine ⟨_, rfl, fun j => ?_⟩
    have hw64 := hw_le n
    simp only [if_true]
    rw [raw_native h, hold_mkN h (by omega), TV.ofInt_bor _ _ (Or.inr (Or.inl hw64)),
      ofInt_nv h x (le_refl _), BitVec.setWidth_eq, BitVec.getLsbD_or, getLsbD_ofInt_pow,
      ← raw_native h]
    by_cases hj : j = i
    · by_cases hjw : j < hw n
      · subst hj; simp [hjw]
      · subst hj; simp [hjw]
    · simp [hj]

/-- a run-time update one position longer than its operand -/
theorem updateRt_snoc (hn : 0 < n) (hw0 : 0 < w) (x : Bits n s) (v : Bits w u) (a : Int) :
    x.updateRt (Rng.down n) a (a + w) (Rng.down w) v =
      (x.updateRt (Rng.down n) a (a + w - 1) (Rng.down w) v).bind fun y =>
        (v.get (Rng.down w) w).bind fun b => y.setBit (Rng.down n) (a + w) b := by
  rw [updateRt, updateRt]
  simp only [show min a (a + (w : Int)) = a by omega, show max a (a + (w : Int)) = a + w by omega,
    show min a (a + (w : Int) - 1) = a by omega, show max a (a + (w : Int) - 1) = a + w - 1 by omega,
    show (a + (w : Int) + 1 - a).toNat = 0 + (w + 1) by omega,
    show (a + (w : Int) - 1 + 1 - a).toNat = 0 + w by omega]
  rw [loopM_succ]
  congr 1
  funext y
  rw [Rng.bigEndian_down hn, Rng.bigEndian_down hw0]
  simp only [bne_self_eq_false, Bool.false_eq_true, if_false, Nat.zero_add, add_sub_cancel_left]

end Bits

/-- the extra bit that an element write reads from its operand: the sign -/
def overread (v : Bits w u) : Bool := decide (w ≤ 64) && decide (numOf u v.bv < 0)

/-- an element write: the addressed bits, and the bit behind them -/
theorem Bits.update_over (hw0 : 0 < w) (hN : n < 2 ^ 31) (h1 : 1 < n) {p : Nat} (hp : p + w ≤ n)
    (h64 : p + w < n ∨ n ≠ 64) (x : Bits n s) (v : Bits w u) (hv : v.Clean) (hw : w ≠ 32 ∧ w ≠ 64) :
    ∃ y, x.updateRt (Rng.down n) (p : Int) ((p : Int) + w) (Rng.down w) v = .ok y ∧
      (∀ q, q < n → y.bv.getLsbD q =
        if p ≤ q ∧ q < p + w then v.bv.getLsbD (q - p) else if q = p + w then overread v else x.bv.getLsbD q) ∧
      (s = false → x.Clean → overread v = false → y.Clean) := by
  have hn : 0 < n := by omega
  obtain ⟨y, hy, hyb, hyc⟩ := C57_update_rt_partial hn hw0 (by omega) (by omega) x v p (p + w - 1) (by omega)
    (by omega) (by omega)
  rw [Bits.updateRt_snoc hn hw0, show ((p : Nat) : Int) + w - 1 = ((p + w - 1 : Nat) : Int) by omega, hy, res_bind_ok]
  have hg : v.get (Rng.down w) w = .ok (overread v) := by
    by_cases h : w ≤ 64
    · rw [Bits.get_past h hw0 hv le_rfl (by have := le_hw h; rw [Verif.hw] at *; split_ifs at * <;> omega), overread]
      simp [h]
    · rw [Bits.get, dif_neg h, Bits.physIdx_down hw0, Big.get, if_neg, overread]
      · simp [h]
      · rw [tU64_conv_of (a := (w : Int)) (by omega) (by omega)]; omega
  rw [hg, res_bind_ok]
  have step : ∃ z, y.setBit (Rng.down n) ((p : Int) + w) (overread v) = .ok z ∧
      (∀ j, j ≠ p + w → z.raw j = y.raw j) ∧ (p + w < n → z.raw (p + w) = overread v) ∧
      (n ≤ p + w → overread v = false → y.raw (p + w) = false → z.raw (p + w) = false) := by
    have hl := Rng.lo_down hn
    by_cases h : n ≤ 64
    · rw [Bits.setBit, dif_pos h]
      obtain ⟨z, hz, hr⟩ := Bits.setNat_any h h1 y (TV.u64 (Bits.physIdx (Rng.down n) ((p : Int) + w) - (Rng.down n).lo))
        (p + w) (by
          rw [Bits.physIdx_down hn, hl, Int.sub_zero]
          exact tU64_conv_of (a := (p : Int) + w) (by omega) (by omega)) (by omega) (overread v)
      have hwn := le_hw h
      refine ⟨z, hz, fun j hj => by rw [hr, if_neg (by omega)], fun hlt => by rw [hr, if_pos (by omega)],
        fun _ ho hz' => ?_⟩
      rw [hr]
      split_ifs
      · exact ho
      · exact hz'
    · rw [Bits.setBit, dif_neg h, Bits.physIdx_down hn]
      refine ⟨_, rfl, fun j hj => ?_, fun hlt => ?_, fun hge _ hz' => ?_⟩ <;>
        rw [Bits.raw_big h, Bits.bg_big, tU64_conv_of (a := (p : Int) + w) (by omega) (by omega), Big.raw_set]
      · rw [if_neg (by omega), Bits.raw_big h]
      · rw [if_pos (by omega)]
      · rw [if_neg (by omega), ← Bits.raw_big h]; exact hz'
  obtain ⟨z, hz, hr1, hr2, hr3⟩ := step
  refine ⟨z, hz, fun q hq => ?_, fun hs hx ho => ?_⟩
  · rw [Bits.getLsbD_bv]
    by_cases hqp : q = p + w
    · subst hqp
      rw [hr2 hq, if_neg (by omega), if_pos rfl]
      simp [hq]
    · have := hyb q hq
      rw [Bits.getLsbD_bv] at this
      rw [hr1 q hqp, this, if_neg hqp]
      by_cases c : p ≤ q ∧ q < p + w
      · rw [if_pos (by omega), if_pos c, show min p (p + w - 1) = p by omega]
      · rw [if_neg (by omega), if_neg c]
  · subst hs
    have hyc' := hyc rfl hx
    rw [Bits.clean_unsigned_iff] at hyc' ⊢
    intro j hj
    by_cases hjp : j = p + w
    · subst hjp; exact hr3 hj ho (hyc' _ hj)
    · rw [hr1 j hjp]; exact hyc' j hj

/-- **C103, reading, partial.** Element `i` of a 2-state packed array, with the exception of C78:
on a native array the element must not end the holder and must be wider than one bit. An index
with x/z, negative or not below the number of bits of the array reads zero. Missing: those elements,
and indices between the number of elements and the number of bits (`C103_native_exact`). -/
theorem C103_read_partial (hw0 : 0 < w) (hb : ra.size * w < 2 ^ 31) (x : PArr2 w s ra) (op : Lg m t) :
    (∀ i, PArr.Idx w ra op i → (64 < ra.size * w ∨ (1 < w ∧ (i + 1) * w < hw (ra.size * w))) →
      ∃ z, x.get op = .ok z ∧ ∀ j, j < w → z.bv.getLsbD j = x.bv.getLsbD (i * w + j)) ∧
    (0 < m → m ≤ 64 → op.Clean → ((∃ i, i < m ∧ (op.at i).isKnown = false) ∨ numOf t op.value.bv < 0 ∨
      ((ra.size * w : Nat) : Int) ≤ numOf t op.value.bv) → ∃ z, x.get op = .ok z ∧ z.Clean ∧ z.bv = 0) := by
  constructor
  · intro i hI h
    obtain ⟨a, ha, hav⟩ := Bits.elem_read hw0 hI.lt hb h x
    refine ⟨a, ?_, hav⟩
    rw [PArr2.get, hI.guard hb, res_bind_ok]
    simp only [Bool.false_eq_true, if_false]
    rw [hI.bounds (by omega) hb, res_bind_ok, PArr.rng, ha]
  · intro hm0 hm ho h
    have hg : PArr.guard w ra op = .ok true := by
      by_cases hk : ∃ i, i < m ∧ (op.at i).isKnown = false
      · exact PArr.guard_unknown hm op ho hk
      · have hkn : op.Known := ⟨ho.2, fun i hi => by
          by_contra hc
          exact hk ⟨i, hi, by simpa using hc⟩⟩
        rw [PArr.guard_known hm0 hm (by omega) op ho.1 hkn, decide_eq_true (h.resolve_left hk)]
    exact ⟨Bits.zero, by rw [PArr2.get, hg, res_bind_ok]; rfl, (Lg.known_zero (n := w) (s := false) Bits.zero).1, Bits.bv_zero⟩

/-- **C103, writing, exact.** `update(i, v)` of a canonical element of a width other than 32 and
64: element `i` becomes `v`, and the lowest bit of element `i + 1` is overwritten by the sign of
`v`; all other bits are unchanged. -/
theorem C103_update_exact (hw0 : 0 < w) (hb : ra.size * w < 2 ^ 31) (x : PArr2 w s ra) (op : Lg m t) (i : Nat)
    (hI : PArr.Idx w ra op i) (v : Bits w u) (hv : v.Clean) (hw : w ≠ 32 ∧ w ≠ 64) (h1 : 1 < ra.size * w)
    (h64 : i + 1 < ra.size ∨ ra.size * w ≠ 64) :
    ∃ y, x.update op (Rng.down w) v = .ok y ∧
      (∀ p, p < ra.size * w → y.bv.getLsbD p =
        if i * w ≤ p ∧ p < (i + 1) * w then v.bv.getLsbD (p - i * w)
        else if p = (i + 1) * w then decide (w ≤ 64 ∧ numOf u v.bv < 0) else x.bv.getLsbD p) ∧
      (s = false → u = false → x.Clean → y.Clean) := by
  have hle : (i + 1) * w ≤ ra.size * w := Nat.mul_le_mul_right w hI.lt
  have hs : (i + 1) * w = i * w + w := by ring
  have ea : ((i : Int) * w) = ((i * w : Nat) : Int) := by push_cast; ring
  have eb : (((i : Int) + 1) * w) = ((i * w : Nat) : Int) + w := by push_cast; ring
  have hlast : i + 1 < ra.size → i * w + w < ra.size * w := by
    intro h
    have : (i + 2) * w ≤ ra.size * w := Nat.mul_le_mul_right w h
    have hs2 : (i + 2) * w = i * w + w + w := by ring
    omega
  have hup : x.update op (Rng.down w) v =
      Bits.updateRt (Rng.down (ra.size * w)) x ((i * w : Nat) : Int) (((i * w : Nat) : Int) + w) (Rng.down w) v := by
    rw [PArr2.update, hI.guard hb, res_bind_ok]
    simp only [Bool.false_eq_true, if_false]
    rw [hI.bounds (by omega) hb, res_bind_ok, PArr.rng, ea, eb]
  rw [hup, hs]
  obtain ⟨y, hy, hyb, hyc⟩ := Bits.update_over hw0 hb h1 (by omega) (h64.imp hlast id) x v hv hw
  refine ⟨y, hy, fun p hp => ?_, fun h1 h2 hx => hyc h1 hx ?_⟩
  · rw [hyb p hp, overread]; simp
  · subst h2; rw [overread, numOf]; simp

/-- **C103, writing, partial.** After `update(i, v)` of an element of a width other than 32 and 64, element
`i` reads `v` and every other element reads as before, but for the lowest bit of element `i + 1`. Missing: `C103_refuted`. -/
theorem C103_update_partial (hw0 : 0 < w) (hb : ra.size * w < 2 ^ 31) (x : PArr2 w s ra) (op : Lg m t) (i : Nat)
    (hI : PArr.Idx w ra op i) (v : Bits w u) (hv : v.Clean) (hw : w ≠ 32 ∧ w ≠ 64) (h1 : 1 < ra.size * w)
    (h64 : i + 1 < ra.size ∨ ra.size * w ≠ 64)
    (h : 64 < ra.size * w ∨ (1 < w ∧ (i + 1) * w < Verif.hw (ra.size * w))) :
    ∃ y, x.update op (Rng.down w) v = .ok y ∧ (∃ z, PArr2.get y op = .ok z ∧ z.bv = v.bv) ∧
      ∀ {m' : Nat} {t' : Bool} (op' : Lg m' t') (i' : Nat), PArr.Idx w ra op' i' → i' ≠ i →
        (64 < ra.size * w ∨ (1 < w ∧ (i' + 1) * w < Verif.hw (ra.size * w))) →
        ∃ a b, x.get op' = .ok a ∧ PArr2.get y op' = .ok b ∧
          ∀ j, j < w → i' ≠ i + 1 ∨ 0 < j → b.bv.getLsbD j = a.bv.getLsbD j := by
  obtain ⟨y, hy, hya, -⟩ := C103_update_exact hw0 hb x op i hI v hv hw h1 h64
  have hle : ∀ {i'}, i' < ra.size → (i' + 1) * w ≤ ra.size * w := fun h => Nat.mul_le_mul_right w h
  have hs : ∀ i, (i + 1) * w = i * w + w := fun i => by ring
  refine ⟨y, hy, ?_, ?_⟩
  · obtain ⟨z, hz, hzv⟩ := (C103_read_partial hw0 hb y op).1 i hI h
    refine ⟨z, hz, BitVec.eq_of_getLsbD_eq fun j hj => ?_⟩
    have := hle hI.lt
    have := hs i
    rw [hzv j hj, hya _ (by omega), if_pos (by omega), show i * w + j - i * w = j by omega]
  · intro m' t' op' i' hI' hne h'
    obtain ⟨a, ha, hav⟩ := (C103_read_partial hw0 hb x op').1 i' hI' h'
    obtain ⟨b, hb', hbv⟩ := (C103_read_partial hw0 hb y op').1 i' hI' h'
    refine ⟨a, b, ha, hb', fun j hj hc => ?_⟩
    have e1 := hle hI'.lt
    have e2 := hs i'
    have e3 := hs i
    rw [hav j hj, hbv j hj, hya _ (by omega)]
    have hcmp : i' * w + w ≤ i * w ∨ (i' = i + 1 ∧ i' * w = i * w + w) ∨ i * w + w + w ≤ i' * w := by
      rcases Nat.lt_trichotomy i' i with hl | hl | hl
      · left; rw [← e2]; exact Nat.mul_le_mul_right w hl
      · exact absurd hl hne
      · rcases Nat.eq_or_lt_of_le (show i + 1 ≤ i' from hl) with he | he
        · right; left; exact ⟨he.symm, by rw [← he, e3]⟩
        · right; right
          have : (i + 2) * w ≤ i' * w := Nat.mul_le_mul_right w he
          have e4 : (i + 2) * w = i * w + w + w := by ring
          omega
    rw [if_neg (by omega), if_neg (by omega)]

/-- a write outside the array (x/z index, negative, or not below the number of bits) is ignored -/
theorem C103_update_out (hb : ra.size * w < 2 ^ 32) (hm0 : 0 < m) (hm : m ≤ 64) (x : PArr2 w s ra) (op : Lg m t)
    (ho : op.Clean) (h : (∃ i, i < m ∧ (op.at i).isKnown = false) ∨ numOf t op.value.bv < 0 ∨
      ((ra.size * w : Nat) : Int) ≤ numOf t op.value.bv) (rv : Rng) (v : Bits k u) : x.update op rv v = .ok x := by
  have hg : PArr.guard w ra op = .ok true := by
    by_cases hk : ∃ i, i < m ∧ (op.at i).isKnown = false
    · exact PArr.guard_unknown hm op ho hk
    · have hkn : op.Known := ⟨ho.2, fun i hi => by
        by_contra hc
        exact hk ⟨i, hi, by simpa using hc⟩⟩
      rw [PArr.guard_known hm0 hm hb op ho.1 hkn, decide_eq_true (h.resolve_left hk)]
  rw [PArr2.update, hg, res_bind_ok]; rfl

/-- **C103 is false as stated.** (1) Writing any element of a 2-state array with elements of 32 or
64 bits is undefined behaviour: the operand is read one bit past its end. (2) Writing the negative
element -1 of four bits to element 0 of zeros sets the lowest bit of element 1. -/
theorem C103_refuted :
    (∀ (w : Nat) (s u : Bool) (ra : Rng) (m : Nat) (t : Bool) (x : PArr2 w s ra) (op : Lg m t) (i : Nat) (v : Bits w u),
      w = 32 ∨ w = 64 → ra.size * w < 2 ^ 31 → PArr.Idx w ra op i → x.update op (Rng.down w) v = .error .shift) ∧
    (PArr2.update (w := 4) (ra := ⟨3, 0⟩) (Bits.ofInt 0 : Bits 16 false) (Lg.ofInt 0 : Lg 2 false) (Rng.down 4)
      (Bits.ofInt (-1) : Bits 4 true)).map (fun y => y.bv) = .ok 31#16 := by
  refine ⟨?_, by decide +kernel⟩
  intro w s u ra m t x op i v hw hb hI
  have hle : (i + 1) * w ≤ ra.size * w := Nat.mul_le_mul_right w hI.lt
  have hs : (i + 1) * w = i * w + w := by ring
  have ea : ((i : Int) * w) = ((i * w : Nat) : Int) := by push_cast; ring
  have eb : (((i : Int) + 1) * w) = ((i * w : Nat) : Int) + w := by push_cast; ring
  rw [PArr2.update, hI.guard hb, res_bind_ok]
  simp only [Bool.false_eq_true, if_false]
  rw [hI.bounds (by omega) hb, res_bind_ok, PArr.rng, ea, eb, Bits.updateRt_snoc (by omega) (by omega)]
  obtain ⟨y, hy, -⟩ := C57_update_rt_partial (n := ra.size * w) (by omega) (by omega) (by omega) (by omega) x v (i * w)
    (i * w + w - 1) (by omega) (by omega) (by omega)
  rw [show ((i * w : Nat) : Int) + w - 1 = ((i * w + w - 1 : Nat) : Int) by omega, hy, res_bind_ok,
    Bits.get_past_fault (by omega) (by omega) v (by rcases hw with rfl | rfl <;> decide)]
  rfl

-- the case of `tests/test_array.cc` 76-89: ten elements of 16 bits, element 2 set to 42
example : ((PArr2.update (w := 16) (ra := ⟨9, 0⟩) (Bits.zero : Bits 160 false) (Lg.ofInt 2 : Lg 64 false) (Rng.down 16)
    (Bits.ofInt 42 : Bits 16 false)).bind fun y => PArr2.get (w := 16) (ra := ⟨9, 0⟩) y (Lg.ofInt 2 : Lg 64 false)).map
    (fun z => z.bv) = .ok 42#16 := by decide +kernel

end Verif
