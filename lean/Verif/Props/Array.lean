import Verif.Lemmas.Array
import Verif.Props.Update
import Verif.Props.Slice
import Verif.Props.Truth
import Verif.Show

/-!
# Packed and unpacked arrays, struct and union fields (C78-C82)

`PArr w s ra` is `packed_array<logic<w-1,0,s>, ra.msb, ra.lsb>`: a vector of
`ra.size * w` bits; element `i` (counted from the low bound of `ra`) are the bits
`i*w .. i*w+w-1`.
-/

namespace Verif

variable {n m w k : Nat} {s t u : Bool} {ra : Rng}

namespace PArr

theorem numOf_range (hm0 : 0 < m) (hm : m ≤ 64) (b : BitVec m) : -2 ^ 63 ≤ numOf t b ∧ numOf t b < 2 ^ 64 := by
  have := Bits.numOf_bounds (s := t) hm0 b
  have p1 : (2 : Int) ^ (m - 1) ≤ 2 ^ 63 := Bits.pow_mono (by omega)
  have p2 : (2 : Int) ^ m ≤ 2 ^ 64 := Bits.pow_mono hm
  split_ifs at this <;> omega

/-- the guard of a known index -/
theorem guard_known (hm0 : 0 < m) (hm : m ≤ 64) (hb : ra.size * w < 2 ^ 32) (op : Lg m t) (ho : op.value.Clean)
    (hk : op.Known) :
    guard w ra op = .ok (decide (numOf t op.value.bv < 0 ∨ ((ra.size * w : Nat) : Int) ≤ numOf t op.value.bv)) := by
  rw [guard, hk.anySet]
  simp only [Bool.false_eq_true, if_false]
  have e2 : (Lg.ofInt (ra.size * w : Nat) : Lg 32 false).value.nv.v = (ra.size * w : Nat) := by
    show ((Bits.ofInt ((ra.size * w : Nat) : Int) : Bits 32 false).nv).v = _
    rw [Bits.ofInt, dif_pos (by decide), Bits.nv_mkN]
    show tU32.conv (tU32.conv _) = _
    have aux : ∀ v : Int, 0 ≤ v → v < 2 ^ 32 → tU32.conv (tU32.conv v) = v := by
      intro v h0 h1
      simp only [CTy.conv]
      omega
    exact aux _ (by omega) (by omega)
  have hge := Bits.ge_unsigned hm (by decide : 32 ≤ 64) op.value (Lg.ofInt (ra.size * w : Nat) : Lg 32 false).value
  rw [e2, Bits.nv_numOf hm ho, tU64_conv_of (a := ((ra.size * w : Nat) : Int)) (by omega) (by omega)] at hge
  have hkk : (Lg.ofInt (ra.size * w : Nat) : Lg 32 false).xz.anySet = false := (Lg.known_zero _).anySet
  rw [Lg.ge, Lg.relWith, hk.anySet, hkk]
  simp only [Bool.or_self, Bool.false_eq_true, if_false]
  rw [hge, res_map_ok, res_map_ok, Except.ok.injEq]
  have hb : ∀ b, (Lg.known1 b).toBool = b := by decide
  rw [hb, Bool.eq_iff_iff, decide_eq_true_iff, decide_eq_true_iff]
  have := numOf_range (t := t) hm0 hm op.value.bv
  generalize numOf t op.value.bv = N at *
  simp only [CTy.conv]
  omega

/-- the guard of an index with an x/z bit -/
theorem guard_unknown (hm : m ≤ 64) (op : Lg m t) (ho : op.Clean) (hk : ∃ i, i < m ∧ (op.at i).isKnown = false) :
    guard w ra op = .ok true := by
  rw [guard, if_pos]
  rw [Lg.anySet_xz_native hm ho]
  obtain ⟨i, hi, hu⟩ := hk
  simp only [Bool.not_eq_true', decide_eq_false_iff_not]
  intro h
  rw [h i hi] at hu
  exact absurd hu (by decide)

end PArr

/-- one element of a packed array, one plane -/
theorem Bits.elem_read (hw0 : 0 < w) {c i : Nat} (hi : i < c) (hb : c * w < 2 ^ 31)
    (h : 64 < c * w ∨ (1 < w ∧ (i + 1) * w < hw (c * w))) (x : Bits (c * w) s) :
    ∃ z, x.sliceRt (Rng.down (c * w)) w ((i : Int) * w) (((i : Int) + 1) * w) = .ok z ∧
      ∀ j, j < w → z.bv.getLsbD j = x.bv.getLsbD (i * w + j) := by
  have hle : (i + 1) * w ≤ c * w := Nat.mul_le_mul_right w hi
  have hs : (i + 1) * w = i * w + w := by ring
  have ea : ((i : Int) * w) = ((i * w : Nat) : Int) := by push_cast; ring
  have eb : (((i : Int) + 1) * w) = ((i * w + w : Nat) : Int) := by push_cast; ring
  rw [ea, eb]
  generalize hp : i * w = p at *
  generalize hn : c * w = n at *
  have hl := Rng.lo_down (show 0 < n by omega)
  by_cases h64 : n ≤ 64
  · have hw64 : w ≤ 64 := by omega
    have hwn := le_hw h64
    obtain ⟨v, hv, hbits⟩ := Bits.sliceRt_native h64 (by omega) (Rng.down n) x hw64 (a := (p : Nat))
      (b := ((p + w : Nat) : Int)) (p := p) (q := p + w) (by rw [hl]; omega) (by rw [hl]; omega) (by omega)
      (by omega)
    refine ⟨_, hv, fun j hj => ?_⟩
    have := le_hw hw64
    rw [Bits.getLsbD_bv, Bits.getLsbD_bv, Bits.raw_mkN hw64 (by omega), hbits, if_pos (by omega)]
    have : p + j < n := by omega
    have h3 : j < hw w := by omega
    simp [hj, this, h3]
  · have e1 : (tU64.conv ((p : Nat) : Int)).toNat = p := by
      rw [tU64_conv_of (a := ((p : Nat) : Int)) (by omega) (by omega)]; omega
    have e2 : (tU64.conv ((p + w : Nat) : Int)).toNat = p + w := by
      rw [tU64_conv_of (a := ((p + w : Nat) : Int)) (by omega) (by omega)]; omega
    obtain ⟨v, hv, hc, hg⟩ := Big.sliceRt_get (x.bg h64) w p (p + w) (by omega)
    have hg' : ∀ j, j < w → v.get j = x.bv.getLsbD (p + j) := by
      intro j hj
      rw [hg, Bits.bv_big h64, Big.getLsbD_bv]
      have h1 : min p (p + w) = p := by omega
      have h2 : max p (p + w) - min p (p + w) = w := by omega
      rw [h2, h1]
      have : j ≤ w := by omega
      simp [hj, this]
    by_cases hk64 : w ≤ 64
    · refine ⟨_, by rw [Bits.sliceRt, dif_neg h64, e1, e2, hv, res_map_ok, dif_pos hk64], fun j hj => ?_⟩
      rw [Bits.getLsbD_bv, Bits.limb0_bits hk64 hw0 hc, hg' j hj]
      simp [hj]
    · refine ⟨_, by rw [Bits.sliceRt, dif_neg h64, e1, e2, hv, res_map_ok, dif_neg hk64], fun j hj => ?_⟩
      rw [Bits.getLsbD_bv, Bits.raw_big hk64]
      show (_ && v.raw j) = _
      rw [← hc.get, hg' j hj]
      simp [hj]

namespace PArr

/-- `op` is a known index operand naming element `i` of the array, and its number is
below the number of bits, which is what the library tests -/
structure Idx (w : Nat) (ra : Rng) (op : Lg m t) (i : Nat) : Prop where
  pos : 0 < m
  native : m ≤ 64
  clean : op.value.Clean
  known : op.Known
  num : numOf t op.value.bv = ra.lo + i
  lt : i < ra.size
  nonneg : 0 ≤ ra.lo + i
  inside : ra.lo + i < (ra.size * w : Nat)

theorem Idx.guard {op : Lg m t} {i : Nat} (h : Idx w ra op i) (hb : ra.size * w < 2 ^ 31) :
    PArr.guard w ra op = .ok false := by
  rw [guard_known h.pos h.native (by omega) op h.clean h.known, h.num]
  have h1 := h.nonneg
  have h2 := h.inside
  congr 1
  rw [decide_eq_false_iff_not]
  omega

theorem bounds_ok (hm : m ≤ 64) (op : Lg m t) (ho : op.value.Clean) (i : Nat)
    (hnum : numOf t op.value.bv = ra.lo + i) (h1 : 0 ≤ ra.lo + i) (h2 : ra.lo + i < 2 ^ 31)
    (h3 : (i + 1) * w < 2 ^ 31) (h4 : i + 1 < 2 ^ 31) :
    bounds w ra op = .ok ((i : Int) * w, ((i : Int) + 1) * w) := by
  have e : (i + 1) * w = i * w + w := by ring
  have e1 : ((i : Int) * w) = ((i * w : Nat) : Int) := by push_cast; ring
  have e2 : (((i : Int) + 1) * w) = (((i + 1) * w : Nat) : Int) := by push_cast; ring
  rw [bounds, Bits.nv_numOf hm ho, hnum, tInt_conv_of (by omega) (by omega),
    show ra.lo + (i : Int) - ra.lo = i by omega, intRes_ok (by omega) (by omega), res_bind_ok, e1,
    intRes_ok (by omega) (by omega), res_bind_ok, intRes_ok (by omega) (by omega), res_bind_ok, e2,
    intRes_ok (by omega) (by omega), res_map_ok]

theorem Idx.bounds {op : Lg m t} {i : Nat} (h : Idx w ra op i) (hw0 : 0 < w) (hb : ra.size * w < 2 ^ 31) :
    PArr.bounds w ra op = .ok ((i : Int) * w, ((i : Int) + 1) * w) := by
  have h1 := h.nonneg
  have h2 := h.inside
  have h3 : (i + 1) * w ≤ ra.size * w := Nat.mul_le_mul_right w h.lt
  have h4 : i + 1 ≤ (i + 1) * w := Nat.le_mul_of_pos_right _ hw0
  exact bounds_ok h.native op h.clean i h.num h1 (by omega) (by omega) (by omega)

end PArr

/-- **C78, reading.** Element `i` of a packed array: the `w` bits read are right,
except that on a native array the element must not end the holder and must be wider
than one bit. Missing: those elements; `C79_native_exact` and `C78_one_bit` say what is read,
`C78_refuted` that it can be undefined. -/
theorem C78_read_partial (hw0 : 0 < w) (hb : ra.size * w < 2 ^ 31) (x : PArr w s ra) (op : Lg m t) (i : Nat)
    (hI : PArr.Idx w ra op i)
    (h : 64 < ra.size * w ∨ (1 < w ∧ (i + 1) * w < hw (ra.size * w))) :
    ∃ z, x.get op = .ok z ∧ ∀ j, j < w → z.at j = x.at (i * w + j) := by
  obtain ⟨a, ha, hav⟩ := Bits.elem_read hw0 hI.lt hb h x.value
  obtain ⟨b, hb', hbv⟩ := Bits.elem_read hw0 hI.lt hb h x.xz
  refine ⟨⟨a, b⟩, ?_, fun j hj => ?_⟩
  · rw [PArr.get, hI.guard hb, res_bind_ok]
    simp only [Bool.false_eq_true, if_false]
    rw [hI.bounds hw0 hb, res_bind_ok, Lg.sliceRt, PArr.rng, ha, res_bind_ok, hb', res_map_ok]
  · rw [Lg.at, Lg.at, hav j hj, hbv j hj]

/-- an update one position longer than its operand -/
theorem Lg.update_over (hw0 : 0 < w) (hN : n < 2 ^ 31) (h1 : 1 < n) {p : Nat} (hp : p + w ≤ n)
    (h64 : p + w < n ∨ n ≠ 64) (x : Lg n s) (v : Lg w u) (hv : ∀ j, 64 ≤ j → j < w → (v.at j).isKnown = true) :
    ∃ y, x.update (Rng.down n) (p : Int) ((p : Int) + w) (Rng.down w) v = .ok y ∧
      (∀ q, q < n → y.at q =
        if p ≤ q ∧ q < p + w then v.at (q - p) else if q = p + w then .b0 else x.at q) ∧
      (s = false → x.Clean → y.Clean) := by
  obtain ⟨l1, l2, l3, l4⟩ := Rng.down_lo' w hw0
  obtain ⟨k1, k2, k3, k4⟩ := Rng.down_lo' n (by omega)
  have key := Lg.update_snoc (s := s) (t := u) (n := n) (Rng.down n) (Rng.down w)
  rw [l4] at key
  rw [key x v (by rw [k3, l3]) l1 (by rw [l2]; omega)]
  obtain ⟨y, hy, hya, hyc⟩ := C55_update_partial (s := s) (t := u) (n := n) (m := w) (by omega) hw0 (by omega) (by omega)
    x v p (p + w - 1) (by omega) (by omega) (fun j _ h hj => hv j h hj)
  rw [show ((p : Nat) : Int) + w - 1 = ((p + w - 1 : Nat) : Int) by omega, hy, res_bind_ok]
  obtain ⟨z, hz, hza, hzc⟩ := Lg.setL_zero h1 (by omega) y (p + w) (by omega) (by omega)
  refine ⟨z, by rw [show ((p : Nat) : Int) + w = ((p + w : Nat) : Int) by omega]; exact hz, fun q hq => ?_,
    fun hs hx => hzc hs (hyc hs hx)⟩
  rw [hza q hq, hya q hq]
  by_cases c1 : p ≤ q ∧ q < p + w
  · rw [if_neg (by omega), if_pos (by omega), if_pos (by omega), if_pos (by omega),
      show min p (p + w - 1) = p by omega]
  · by_cases c2 : q = p + w
    · rw [if_pos c2, if_neg (by omega), if_pos (by omega)]
    · rw [if_neg c2, if_neg (by omega), if_neg (by omega), if_neg (by omega)]

/-- the same update at the end of a 64-bit value shifts by 64 -/
theorem Lg.update_over_fault (hw0 : 0 < w) (hn : n = 64) {p : Nat} (hp : p + w = n) (x : Lg n s) (v : Lg w u) :
    x.update (Rng.down n) (p : Int) ((p : Int) + w) (Rng.down w) v = .error .shift := by
  subst hn
  obtain ⟨l1, l2, l3, l4⟩ := Rng.down_lo' w hw0
  have key := Lg.update_snoc (s := s) (t := u) (n := 64) (Rng.down 64) (Rng.down w)
  rw [l4] at key
  rw [key x v (by rw [l3]; rfl) l1 (by rw [l2]; omega)]
  obtain ⟨y, hy, -, -⟩ := C55_update_partial (s := s) (t := u) (n := 64) (m := w) (by omega) hw0 (by omega) (by omega)
    x v p (p + w - 1) (by omega) (by omega) (fun j _ h hj => by omega)
  rw [show ((p : Nat) : Int) + w - 1 = ((p + w - 1 : Nat) : Int) by omega, hy, res_bind_ok, Lg.setL]
  have hz : Lg.hold1 Lg.zero1.value = false ∧ Lg.hold1 Lg.zero1.xz = false := by decide
  rw [hz.1, show ((p : Nat) : Int) + w = 64 by omega, Bits.set_clear_fault]
  rfl

/-- **C78, writing, exact.** `update(i, v)` writes `v` to element `i` and also clears the
lowest bit of element `i + 1`. -/
theorem C78_update_exact (hw0 : 0 < w) (hb : ra.size * w < 2 ^ 31) (x : PArr w s ra) (op : Lg m t) (i : Nat)
    (hI : PArr.Idx w ra op i) (v : Lg w u) (hv : ∀ j, 64 ≤ j → j < w → (v.at j).isKnown = true)
    (h1 : 1 < ra.size * w) (h64 : i + 1 < ra.size ∨ ra.size * w ≠ 64) :
    ∃ y, x.update op (Rng.down w) v = .ok y ∧
      (∀ p, p < ra.size * w → y.at p =
        if i * w ≤ p ∧ p < (i + 1) * w then v.at (p - i * w)
        else if p = (i + 1) * w then .b0 else x.at p) ∧
      (s = false → x.Clean → y.Clean) := by
  have hle : (i + 1) * w ≤ ra.size * w := Nat.mul_le_mul_right w hI.lt
  have hs : (i + 1) * w = i * w + w := by ring
  have ea : ((i : Int) * w) = ((i * w : Nat) : Int) := by push_cast; ring
  have eb : (((i : Int) + 1) * w) = ((i * w : Nat) : Int) + w := by push_cast; ring
  have hlast : i + 1 < ra.size → i * w + w < ra.size * w := by
    intro h
    have : (i + 2) * w ≤ ra.size * w := Nat.mul_le_mul_right w h
    have hs2 : (i + 2) * w = i * w + w + w := by ring
    omega
  have hup : x.update op (Rng.down w) v =
      Lg.update (Rng.down (ra.size * w)) x ((i * w : Nat) : Int) (((i * w : Nat) : Int) + w) (Rng.down w) v := by
    rw [PArr.update, hI.guard hb, res_bind_ok]
    simp only [Bool.false_eq_true, if_false]
    rw [hI.bounds hw0 hb, res_bind_ok, PArr.rng, ea, eb]
  rw [hup, hs]
  exact Lg.update_over hw0 hb h1 (by omega) (h64.imp hlast id) x v hv

/-- **C78.** After `update(i, v)` element `i` reads `v`; every element other than `i` and
`i + 1` reads as before; so do all bits but the lowest of element `i + 1`. When `i` is
the last element every other element is unchanged. Missing: the lowest bit of element `i + 1`, which
is cleared (`C78_update_exact`, `C78_refuted`). -/
theorem C78_update_partial (hw0 : 0 < w) (hb : ra.size * w < 2 ^ 31) (x : PArr w s ra) (op : Lg m t) (i : Nat)
    (hI : PArr.Idx w ra op i) (v : Lg w u) (hv : ∀ j, 64 ≤ j → j < w → (v.at j).isKnown = true)
    (h1 : 1 < ra.size * w) (h64 : i + 1 < ra.size ∨ ra.size * w ≠ 64)
    (h : 64 < ra.size * w ∨ (1 < w ∧ (i + 1) * w < hw (ra.size * w))) :
    ∃ y, x.update op (Rng.down w) v = .ok y ∧
      (∃ z, PArr.get y op = .ok z ∧ ∀ j, j < w → z.at j = v.at j) ∧
      ∀ {m' : Nat} {t' : Bool} (op' : Lg m' t') (i' : Nat), PArr.Idx w ra op' i' → i' ≠ i →
        (64 < ra.size * w ∨ (1 < w ∧ (i' + 1) * w < hw (ra.size * w))) →
        ∃ a b, x.get op' = .ok a ∧ PArr.get y op' = .ok b ∧
          ∀ j, j < w → i' ≠ i + 1 ∨ 0 < j → b.at j = a.at j := by
  obtain ⟨y, hy, hya, -⟩ := C78_update_exact hw0 hb x op i hI v hv h1 h64
  have hle : ∀ {i'}, i' < ra.size → (i' + 1) * w ≤ ra.size * w := fun h => Nat.mul_le_mul_right w h
  have hs : ∀ i, (i + 1) * w = i * w + w := fun i => by ring
  refine ⟨y, hy, ?_, ?_⟩
  · obtain ⟨z, hz, hzv⟩ := C78_read_partial hw0 hb y op i hI h
    refine ⟨z, hz, fun j hj => ?_⟩
    have := hle hI.lt
    have := hs i
    rw [hzv j hj, hya _ (by omega), if_pos (by omega), show i * w + j - i * w = j by omega]
  · intro m' t' op' i' hI' hne h'
    obtain ⟨a, ha, hav⟩ := C78_read_partial hw0 hb x op' i' hI' h'
    obtain ⟨b, hb', hbv⟩ := C78_read_partial hw0 hb y op' i' hI' h'
    refine ⟨a, b, ha, hb', fun j hj hc => ?_⟩
    have e1 := hle hI'.lt
    have e2 := hs i'
    have e3 := hs i
    rw [hav j hj, hbv j hj, hya _ (by omega)]
    have hcmp : i' * w + w ≤ i * w ∨ (i' = i + 1 ∧ i' * w = i * w + w) ∨ i * w + w + w ≤ i' * w := by
      rcases Nat.lt_trichotomy i' i with hl | hl | hl
      · left; rw [← e2]; exact Nat.mul_le_mul_right w hl
      · exact absurd hl hne
      · rcases Nat.eq_or_lt_of_le (show i + 1 ≤ i' from hl) with he | he
        · right; left; exact ⟨he.symm, by rw [← he, e3]⟩
        · right; right
          have : (i + 2) * w ≤ i' * w := Nat.mul_le_mul_right w he
          have e4 : (i + 2) * w = i * w + w + w := by ring
          omega
    rw [if_neg (by omega), if_neg (by omega)]

/-- **C78, one-bit elements of a native unsigned array.** Reading element `i` gives on
each plane the disjunction of the bits `i` and `i + 1`. -/
theorem C78_one_bit (hb : ra.size * 1 ≤ 64) (x : PArr 1 false ra) (op : Lg m t) (i : Nat)
    (hI : PArr.Idx 1 ra op i) (hi : i + 1 < ra.size) :
    ∃ z, x.get op = .ok z ∧
      z.at 0 = V4.mk (x.value.raw i || x.value.raw (i + 1)) (x.xz.raw i || x.xz.raw (i + 1)) := by
  have plane : ∀ x : Bits (ra.size * 1) false,
      ∃ z, x.sliceRt (Rng.down (ra.size * 1)) 1 ((i : Int) * (1 : Nat)) (((i : Int) + 1) * (1 : Nat)) = .ok z ∧
        z.bv.getLsbD 0 = (x.raw i || x.raw (i + 1)) := by
    intro x
    have hl := Rng.lo_down (show 0 < ra.size * 1 by omega)
    have hwn := le_hw hb
    obtain ⟨v, hv, hbits⟩ := Bits.sliceRt_native hb (by omega) (Rng.down (ra.size * 1)) x (by decide : 1 ≤ 64)
      (a := (i : Int) * (1 : Nat)) (b := ((i : Int) + 1) * (1 : Nat)) (p := i) (q := i + 1)
      (by rw [hl]; omega) (by rw [hl]; omega) (by omega) (by omega)
    refine ⟨_, hv, ?_⟩
    rw [Bits.getLsbD_bv, Bits.raw_mkN_one]
    have h0 := hbits 0
    have h1 := hbits 1
    rw [if_pos (by omega)] at h0 h1
    rw [Nat.add_zero] at h0
    rw [← h0, ← h1]
    have hz : v.v = 0 ↔ (ibit v.v 0 || ibit v.v 1) = false := by
      constructor
      · intro e; rw [e, ibit_zero, ibit_zero]; rfl
      · intro e
        rw [Bool.or_eq_false_iff] at e
        apply ibit_ext
        intro j
        rw [ibit_zero]
        by_cases h2 : j ≤ 1
        · rcases (by omega : j = 0 ∨ j = 1) with rfl | rfl
          · exact e.1
          · exact e.2
        · rw [hbits, if_neg (by omega)]; simp
    by_cases hv0 : v.v = 0
    · rw [hz.1 hv0]; simp [hv0]
    · have : (ibit v.v 0 || ibit v.v 1) = true := by
        rw [← Bool.not_eq_false]; exact fun e => hv0 (hz.2 e)
      rw [this]; simp [hv0]
  obtain ⟨a, ha, hav⟩ := plane x.value
  obtain ⟨b, hb', hbv⟩ := plane x.xz
  refine ⟨⟨a, b⟩, ?_, ?_⟩
  · rw [PArr.get, hI.guard (by omega), res_bind_ok]
    simp only [Bool.false_eq_true, if_false]
    rw [hI.bounds (by omega) (by omega), res_bind_ok, Lg.sliceRt, PArr.rng, ha, res_bind_ok, hb', res_map_ok]
  · rw [Lg.at, hav, hbv]

/-- **C78 is false as stated.** (1) Whenever element `i + 1` has a lowest bit other than 0,
`update(i, v)` changes it. (2) Reading the last element of an array that fills its native
holder has undefined behaviour. (3) So does writing the last element of a 64-bit array. -/
theorem C78_refuted :
    (∀ (w : Nat) (s u : Bool) (ra : Rng) (m : Nat) (t : Bool) (x : PArr w s ra) (op : Lg m t) (i : Nat) (v : Lg w u),
      0 < w → ra.size * w < 2 ^ 31 → PArr.Idx w ra op i → i + 1 < ra.size →
      (∀ j, 64 ≤ j → j < w → (v.at j).isKnown = true) → x.at ((i + 1) * w) ≠ .b0 →
      ∃ y, x.update op (Rng.down w) v = .ok y ∧ Lg.at y ((i + 1) * w) = .b0) ∧
    (∀ (w : Nat) (s : Bool) (ra : Rng) (m : Nat) (t : Bool) (x : PArr w s ra) (op : Lg m t) (i : Nat),
      0 < w → 1 < ra.size * w → ra.size * w ≤ 64 → hw (ra.size * w) = ra.size * w → PArr.Idx w ra op i →
      i + 1 = ra.size → x.get op = .error .shift) ∧
    (∀ (w : Nat) (s u : Bool) (ra : Rng) (m : Nat) (t : Bool) (x : PArr w s ra) (op : Lg m t) (i : Nat) (v : Lg w u),
      0 < w → ra.size * w = 64 → PArr.Idx w ra op i → i + 1 = ra.size →
      x.update op (Rng.down w) v = .error .shift) := by
  refine ⟨?_, ?_, ?_⟩
  · intro w s u ra m t x op i v hw0 hb hI hi hv hx
    have hle : (i + 2) * w ≤ ra.size * w := Nat.mul_le_mul_right w hi
    have e1 : (i + 2) * w = (i + 1) * w + w := by ring
    have e2 : (i + 1) * w = i * w + w := by ring
    obtain ⟨y, hy, hya, -⟩ := C78_update_exact hw0 hb x op i hI v hv (by omega) (Or.inl hi)
    refine ⟨y, hy, ?_⟩
    rw [hya _ (by omega), if_neg (by omega), if_pos rfl]
  · intro w s ra m t x op i hw0 h1 h64 hfull hI hi
    have hle : (i + 1) * w = ra.size * w := by rw [hi]
    have e2 : (i + 1) * w = i * w + w := by ring
    have ea : ((i : Int) * w) = ((i * w : Nat) : Int) := by push_cast; ring
    have eb : (((i : Int) + 1) * w) = ((i * w + w : Nat) : Int) := by push_cast; ring
    have hl := Rng.lo_down (show 0 < ra.size * w by omega)
    rw [PArr.get, hI.guard (by omega), res_bind_ok]
    simp only [Bool.false_eq_true, if_false]
    rw [hI.bounds (by omega) (by omega), res_bind_ok, Lg.sliceRt, PArr.rng, ea, eb,
      Bits.sliceRt_native_fault h64 h1 _ x.value (by omega) (p := i * w) (q := i * w + w) (by rw [hl]; omega)
        (by rw [hl]; omega) (by omega) (by omega) (by omega)]
    rfl
  · intro w s u ra m t x op i v hw0 h64 hI hi
    have hle : (i + 1) * w = ra.size * w := by rw [hi]
    have e2 : (i + 1) * w = i * w + w := by ring
    have ea : ((i : Int) * w) = ((i * w : Nat) : Int) := by push_cast; ring
    have eb : (((i : Int) + 1) * w) = ((i * w : Nat) : Int) + w := by push_cast; ring
    rw [PArr.update, hI.guard (by omega), res_bind_ok]
    simp only [Bool.false_eq_true, if_false]
    rw [hI.bounds (by omega) (by omega), res_bind_ok, PArr.rng, ea, eb]
    exact Lg.update_over_fault hw0 h64 (by omega) x v

example : PArr.Idx 4 ⟨3, 0⟩ (Lg.ofInt 2 : Lg 3 true) 2 :=
  ⟨by decide, by decide, by decide, by decide, by decide, by decide, by decide, by decide⟩

/-- a 4-element array of 3-bit elements, all ones: writing 5 to element 1 clears bit 6 -/
example : Lg.bits (PArr.update (w := 3) (ra := ⟨3, 0⟩) (Lg.ofInt 4095 : Lg 12 false) (Lg.ofInt 1 : Lg 2 false)
    (Rng.down 3) (Lg.ofInt 5 : Lg 3 false)) =
    some [.b1, .b1, .b1, .b1, .b0, .b1, .b0, .b1, .b1, .b1, .b1, .b1] := by decide +kernel

/-! ### C79: indices outside the array -/

theorem PArr.get_out (hn : 0 < w) (x : PArr w s ra) (op : Lg m t) (h : PArr.guard w ra op = .ok true) :
    ∃ z, x.get op = .ok z ∧ ∀ j, j < w → z.at j = .x := by
  obtain ⟨z, hz, hx⟩ := Lg.dflt_at (n := w) (s := false) hn
  exact ⟨z, by rw [PArr.get, h, res_bind_ok]; exact hz, hx⟩

theorem PArr.update_out (x : PArr w s ra) (op : Lg m t) (rv : Rng) (v : Lg k u)
    (h : PArr.guard w ra op = .ok true) : x.update op rv v = .ok x := by
  rw [PArr.update, h, res_bind_ok]; rfl

/-- **C79.** An index with an x/z bit, a negative index, or an index not below the number
of *bits* of the array reads all x, and a write there changes nothing. Missing: indices between the
number of elements and the number of bits, for which it is false (`C79_refuted`, `C79_native_exact`,
`C79_write_wide_exact`, `C79_write_native_exact`). -/
theorem C79_out_of_range_partial (hw0 : 0 < w) (hb : ra.size * w < 2 ^ 32) (hm0 : 0 < m) (hm : m ≤ 64)
    (x : PArr w s ra) (op : Lg m t) (ho : op.Clean)
    (h : (∃ i, i < m ∧ (op.at i).isKnown = false) ∨ numOf t op.value.bv < 0 ∨
      ((ra.size * w : Nat) : Int) ≤ numOf t op.value.bv) :
    (∃ z, x.get op = .ok z ∧ ∀ j, j < w → z.at j = .x) ∧
    ∀ {k : Nat} {u : Bool} (rv : Rng) (v : Lg k u), x.update op rv v = .ok x := by
  have hg : PArr.guard w ra op = .ok true := by
    by_cases hk : ∃ i, i < m ∧ (op.at i).isKnown = false
    · exact PArr.guard_unknown hm op ho hk
    · have hkn : op.Known := ⟨ho.2, fun i hi => by
        by_contra hc
        exact hk ⟨i, hi, by simpa using hc⟩⟩
      rw [PArr.guard_known hm0 hm hb op ho.1 hkn, decide_eq_true (h.resolve_left hk)]
  exact ⟨PArr.get_out hw0 x op hg, fun rv v => PArr.update_out x op rv v hg⟩

/-- **C79, consequence.** The guard compares the index with the number of bits before the
low bound is subtracted: if the low bound of the array is at least the number of bits,
every element reads x and every write is lost. -/
theorem C79_high_base (hw0 : 0 < w) (hb : ra.size * w < 2 ^ 32) (hm0 : 0 < m) (hm : m ≤ 64)
    (hbase : ((ra.size * w : Nat) : Int) ≤ ra.lo) (x : PArr w s ra) (op : Lg m t) (ho : op.Clean) (i : Nat)
    (hN : numOf t op.value.bv = ra.lo + i) :
    (∃ z, x.get op = .ok z ∧ ∀ j, j < w → z.at j = .x) ∧
    ∀ {k : Nat} {u : Bool} (rv : Rng) (v : Lg k u), x.update op rv v = .ok x :=
  C79_out_of_range_partial hw0 hb hm0 hm x op ho (Or.inr (Or.inr (by omega)))

/-- an element slice past the end of a wide plane is zero -/
theorem Bits.elem_past (hw0 : 0 < w) {i : Nat} (h64 : ¬ n ≤ 64) (hi : n ≤ i * w) (hb : i * w + w < 2 ^ 32)
    (x : Bits n s) :
    ∃ z, x.sliceRt (Rng.down n) w ((i : Int) * w) (((i : Int) + 1) * w) = .ok z ∧ ∀ j, z.bv.getLsbD j = false := by
  have ea : ((i : Int) * w) = ((i * w : Nat) : Int) := by push_cast; ring
  have eb : (((i : Int) + 1) * w) = ((i * w + w : Nat) : Int) := by push_cast; ring
  rw [ea, eb]
  generalize hp : i * w = p at *
  have e1 : (tU64.conv ((p : Nat) : Int)).toNat = p := by
    rw [tU64_conv_of (a := ((p : Nat) : Int)) (by omega) (by omega)]; omega
  have e2 : (tU64.conv ((p + w : Nat) : Int)).toNat = p + w := by
    rw [tU64_conv_of (a := ((p + w : Nat) : Int)) (by omega) (by omega)]; omega
  obtain ⟨v, hv, hc, hg⟩ := Big.sliceRt_get (x.bg h64) w p (p + w) (by omega)
  have hg' : ∀ j, v.get j = false := by
    intro j
    rw [hg, Big.get_eq]
    rw [decide_eq_false (show ¬ min p (p + w) + j < n by omega)]
    simp
  by_cases hk64 : w ≤ 64
  · refine ⟨_, by rw [Bits.sliceRt, dif_neg h64, e1, e2, hv, res_map_ok, dif_pos hk64], fun j => ?_⟩
    rw [Bits.getLsbD_bv, Bits.limb0_bits hk64 hw0 hc, hg' j]
    simp
  · refine ⟨_, by rw [Bits.sliceRt, dif_neg h64, e1, e2, hv, res_map_ok, dif_neg hk64], fun j => ?_⟩
    rw [Bits.getLsbD_bv, Bits.raw_big hk64]
    show (_ && v.raw j) = _
    rw [← hc.get, hg' j]
    simp

/-- **C79 is false as stated.** (1) In a wide array any index from the number of elements up
to the number of bits reads known zeros, not x. (2) In a native array such a read can be
undefined, and (3) such a write leaves an object that no longer equals itself before the
write although no bit of it changed. -/
theorem C79_refuted :
    (∀ (w : Nat) (s : Bool) (ra : Rng) (m : Nat) (t : Bool) (x : PArr w s ra) (op : Lg m t) (i : Nat),
      0 < w → 64 < ra.size * w → ra.lo = 0 → ra.size ≤ i → i < ra.size * w → (i + 1) * w < 2 ^ 31 →
      ra.size * w < 2 ^ 31 → 0 < m → m ≤ 64 → op.value.Clean → op.Known → numOf t op.value.bv = i →
      ∃ z, x.get op = .ok z ∧ ∀ j, j < w → z.at j = .b0) ∧
    PArr.get (w := 4) (ra := ⟨2, 0⟩) (Lg.ofInt 5 : Lg 12 false) (Lg.ofInt 3 : Lg 2 false) = .error .shift ∧
    (∃ y : Lg 12 false, PArr.update (w := 4) (ra := ⟨2, 0⟩) (Lg.ofInt 5 : Lg 12 false) (Lg.ofInt 3 : Lg 2 false)
      (Rng.down 4) (Lg.ofInt 7 : Lg 4 false) = .ok y ∧ (∀ i, i < 12 → y.at i = (Lg.ofInt 5 : Lg 12 false).at i) ∧
      y.matches' (Lg.ofInt 5 : Lg 12 false) = false) := by
  refine ⟨?_, by decide +kernel, ⟨⟨Bits.ofInt 0x7005, Bits.zero⟩, by decide +kernel, by decide +kernel, by decide +kernel⟩⟩
  intro w s ra m t x op i hw0 h64 hlo hi hin hb hb2 hm0 hm ho hk hN
  have hmul : ra.size * w ≤ i * w := Nat.mul_le_mul_right w hi
  have e2 : (i + 1) * w = i * w + w := by ring
  obtain ⟨a, ha, hav⟩ := Bits.elem_past hw0 (by omega) hmul (by omega) x.value
  obtain ⟨b, hb', hbv⟩ := Bits.elem_past hw0 (by omega) hmul (by omega) x.xz
  refine ⟨⟨a, b⟩, ?_, fun j hj => ?_⟩
  · have h4 : i + 1 ≤ (i + 1) * w := Nat.le_mul_of_pos_right _ hw0
    have hbd := PArr.bounds_ok (w := w) (ra := ra) hm op ho i (by omega) (by omega) (by omega) hb (by omega)
    rw [PArr.get, PArr.guard_known hm0 hm (by omega) op ho hk, hN, decide_eq_false (by omega), res_bind_ok]
    simp only [Bool.false_eq_true, if_false]
    rw [hbd, res_bind_ok, Lg.sliceRt, PArr.rng, ha, res_bind_ok, hb', res_map_ok]
  · rw [Lg.at, hav j, hbv j]; rfl

example : (Lg.ofInt 12 : Lg 4 false).Clean ∧ numOf false (Lg.ofInt 12 : Lg 4 false).value.bv = 12 := by decide

/-! ### C80: constant slices of packed arrays -/

/-- **C80, reading.** `slice_array<hi, lo>()` of an unsigned packed array: element `e` of
the slice is element `min hi lo - base + e` of the array. Slices of 65 bits in all do
not compile (`C49_65_bits`). Missing: signed arrays, for which it can be undefined
(`C80_refuted_all`). -/
theorem C80_slice_partial (hw0 : 0 < w) (x : PArr w false ra) (hi lo : Int) (hh : ra.lo ≤ hi ∧ hi ≤ ra.hi)
    (hl : ra.lo ≤ lo ∧ lo ≤ ra.hi) (h65 : (max hi lo - min hi lo + 1) * w ≠ 65) :
    ∃ z, x.sliceArray hi lo = .ok z ∧ z.Clean ∧
      ∀ e j : Nat, (e : Int) ≤ max hi lo - min hi lo → j < w →
        z.at (e * w + j) = x.at (((min hi lo - ra.lo).toNat + e) * w + j) := by
  obtain ⟨A, hA⟩ : ∃ A : Nat, min hi lo - ra.lo = A := ⟨_, (Int.toNat_of_nonneg (by omega)).symm⟩
  obtain ⟨D, hD⟩ : ∃ D : Nat, max hi lo - ra.lo = A + D := ⟨(max hi lo - min hi lo).toNat, by omega⟩
  have hsz : A + D < ra.size := by simp only [Rng.lo, Rng.hi, Rng.size] at *; omega
  have hle : (A + D + 1) * w ≤ ra.size * w := Nat.mul_le_mul_right w hsz
  have ea : (((max hi lo - ra.lo) + 1) * w - 1).toNat = (A + D + 1) * w - 1 := by
    rw [hD, show (((A : Int) + D) + 1) * w = (((A + D + 1) * w : Nat) : Int) by push_cast; ring]
    omega
  have eb : ((min hi lo - ra.lo) * w).toNat = A * w := by
    rw [hA, show (A : Int) * w = ((A * w : Nat) : Int) by push_cast; ring]
    omega
  have hs1 : (A + D + 1) * w = A * w + D * w + w := by ring
  obtain ⟨z, hz, hc, hv⟩ := C49_slice_logic (n := ra.size * w) x (((max hi lo - ra.lo) + 1) * w - 1).toNat
    ((min hi lo - ra.lo) * w).toNat (by rw [ea]; omega) (by rw [eb]; omega) (by
      rw [ea, eb]
      have e1 : (max hi lo - min hi lo + 1) * w = ((D * w + w : Nat) : Int) := by
        rw [show max hi lo - min hi lo = (D : Int) by omega]; push_cast; ring
      rw [e1] at h65
      omega)
  refine ⟨z, hz, hc, fun e j he hj => ?_⟩
  have heD : e * w ≤ D * w := Nat.mul_le_mul_right w (by omega)
  rw [hv (e * w + j) (by rw [ea, eb]; omega), ea, eb, hA]
  congr 1
  have : ((A : Int).toNat + e) * w = A * w + e * w := by rw [Int.toNat_natCast]; ring
  rw [this]
  omega

/-- **C80, writing.** `update<hi, lo>(v)` with a value as wide as the addressed elements:
element `lo + e` receives bits `e*w ..` of `v`, all other elements are unchanged. Missing: values of
another width, and values with an x or z from bit 64 on, for which the update is undefined
(`C55_fault`). -/
theorem C80_update_partial (hw0 : 0 < w) (hb : ra.size * w ≤ 2 ^ 31) (x : PArr w s ra) (hi lo : Int)
    (hh : ra.lo ≤ hi ∧ hi ≤ ra.hi) (hl : ra.lo ≤ lo ∧ lo ≤ ra.hi) (v : Lg k u)
    (hk : (k : Int) = (max hi lo - min hi lo + 1) * w)
    (hv : ∀ j, 64 ≤ j → j < k → (v.at j).isKnown = true) :
    ∃ y, x.updateSlice hi lo (Rng.down k) v = .ok y ∧
      (∀ i j : Nat, i < ra.size → j < w → y.at (i * w + j) =
        if min hi lo ≤ ra.lo + i ∧ ra.lo + i ≤ max hi lo then v.at ((i - (min hi lo - ra.lo).toNat) * w + j)
        else x.at (i * w + j)) ∧
      (s = false → x.Clean → y.Clean) := by
  obtain ⟨A, hA⟩ : ∃ A : Nat, min hi lo - ra.lo = A := ⟨_, (Int.toNat_of_nonneg (by omega)).symm⟩
  obtain ⟨D, hD⟩ : ∃ D : Nat, max hi lo - ra.lo = A + D := ⟨(max hi lo - min hi lo).toNat, by omega⟩
  have hsz : A + D < ra.size := by simp only [Rng.lo, Rng.hi, Rng.size] at *; omega
  have hle : (A + D + 1) * w ≤ ra.size * w := Nat.mul_le_mul_right w hsz
  have hs1 : (A + D + 1) * w = A * w + D * w + w := by ring
  have hkn : k = D * w + w := by
    have : (max hi lo - min hi lo + 1) * w = ((D * w + w : Nat) : Int) := by
      rw [show max hi lo - min hi lo = D by omega]; push_cast; ring
    omega
  have ea : (((max hi lo - ra.lo) + 1) * w - 1) = (((A + D + 1) * w - 1 : Nat) : Int) := by
    rw [hD, show (((A : Int) + D) + 1) * w = (((A + D + 1) * w : Nat) : Int) by push_cast; ring]
    omega
  have eb : ((min hi lo - ra.lo) * w) = ((A * w : Nat) : Int) := by
    rw [hA]; push_cast; ring
  obtain ⟨y, hy, hya, hyc⟩ := C55_update_partial (n := ra.size * w) (m := k) (s := s) (t := u) (by omega) (by omega) hb
    (by omega) x v ((A + D + 1) * w - 1) (A * w) (by omega) (by omega) (fun j _ h1 h2 => hv j h1 h2)
  refine ⟨y, by rw [PArr.updateSlice, PArr.rng, ea, eb]; exact hy, fun i j hi' hj => ?_, hyc⟩
  have hin : (i + 1) * w ≤ ra.size * w := Nat.mul_le_mul_right w hi'
  have hs2 : (i + 1) * w = i * w + w := by ring
  rw [hya (i * w + j) (by omega)]
  by_cases hc : min hi lo ≤ ra.lo + i ∧ ra.lo + i ≤ max hi lo
  · have h1 : A * w ≤ i * w := Nat.mul_le_mul_right w (by omega)
    have h2 : i * w ≤ (A + D) * w := Nat.mul_le_mul_right w (by omega)
    have h3 : (A + D) * w = A * w + D * w := by ring
    have h4 : (i - (min hi lo - ra.lo).toNat) * w = i * w - A * w := by
      rw [hA, Int.toNat_natCast, Nat.sub_mul]
    rw [if_pos (by omega), if_pos (by omega), if_pos hc, h4]
    congr 1
    omega
  · rw [if_neg hc, if_neg]
    rcases Nat.lt_or_ge i A with h | h
    · have : (i + 1) * w ≤ A * w := Nat.mul_le_mul_right w h
      omega
    · have : (A + D + 1) * w ≤ i * w := Nat.mul_le_mul_right w (by omega)
      omega

/-- **C80 is false for signed native arrays**: slicing off the top of an array of signed
elements that fills its holder is undefined. -/
theorem C80_refuted :
    (PArr.sliceArray (w := 4) (s := true) (ra := ⟨3, 0⟩) (Lg.ofInt 0x1234 : Lg 16 true) 3 2).toOption.isNone = true := by
  decide +kernel

example : (PArr.sliceArray (w := 4) (s := false) (ra := ⟨5, 2⟩) (Lg.ofInt 0x1234 : Lg 16 false) 4 3).map
    (fun z => z.value.bv.toNat) = .ok 0x23 := by decide +kernel

/-! ### C81: unpacked arrays -/

namespace UArr

variable {α : Type} {r : Rng}

/-- the element an in-range index names -/
def elem (dflt : α) (x : UArr α r) (idx : Int) : α := x.vals.getD (idx - r.lo).toNat dflt

end UArr

/-- **C81, reading.** An in-range index reads its element, any other the default value. -/
theorem C81_get {α : Type} {r : Rng} (dflt : α) (x : UArr α r) (idx : Int)
    (hd : -2 ^ 31 ≤ idx - r.lo ∧ idx - r.lo < 2 ^ 31) (hs : r.size ≤ 2 ^ 31) :
    x.get dflt idx = if r.lo ≤ idx ∧ idx ≤ r.hi then x.elem dflt idx else dflt := by
  have hsz : (r.size : Int) = r.hi - r.lo + 1 := by simp only [Rng.lo, Rng.hi, Rng.size]; omega
  rw [UArr.get]
  by_cases h : r.lo ≤ idx ∧ idx ≤ r.hi
  · have e : tU32.conv (idx - r.lo) = idx - r.lo := by simp only [CTy.conv]; omega
    simp only [e]
    rw [if_neg (by omega), if_pos h, UArr.elem]
  · have e : (r.size : Int) ≤ tU32.conv (idx - r.lo) := by simp only [CTy.conv]; omega
    rw [if_pos (by omega), if_neg h]

/-- **C81, writing, exact.** `update<idx>(v)` with an in-range index takes effect exactly
when `0 ≤ idx < size`; otherwise it is dropped. -/
theorem C81_update_exact {α : Type} {r : Rng} (dflt : α) (x : UArr α r) (idx : Int) (v : α)
    (hi : -2 ^ 31 ≤ idx ∧ idx < 2 ^ 31) (hs : r.size ≤ 2 ^ 31) (hr : r.lo ≤ idx ∧ idx ≤ r.hi) :
    (0 ≤ idx ∧ idx < r.size → ∃ y, x.update idx v = .ok y ∧ y.elem dflt idx = v ∧
      ∀ j, r.lo ≤ j → j ≤ r.hi → j ≠ idx → y.elem dflt j = x.elem dflt j) ∧
    (¬ (0 ≤ idx ∧ idx < r.size) → x.update idx v = .ok x) := by
  have hsz : (r.size : Int) = r.hi - r.lo + 1 := by simp only [Rng.lo, Rng.hi, Rng.size]; omega
  constructor
  · intro h
    have e1 : tU64.conv idx = idx := tU64_conv_of (by omega) (by omega)
    have e2 : tU64.conv (idx - r.lo) = idx - r.lo := tU64_conv_of (by omega) (by omega)
    have hlt : (idx - r.lo).toNat < r.size := by omega
    refine ⟨⟨x.vals.set (idx - r.lo).toNat v, by simpa using x.len⟩, ?_, ?_, ?_⟩
    · rw [UArr.update, e1, if_neg (by omega)]
      simp only [e2]
      rw [if_pos hlt]
    · have : (idx - r.lo).toNat < x.vals.length := by rw [x.len]; exact hlt
      simp [UArr.elem, List.getD_eq_getElem?_getD, this]
    · intro j h1 h2 hne
      have : ¬ (idx - r.lo).toNat = (j - r.lo).toNat := by omega
      simp [UArr.elem, List.getD_eq_getElem?_getD, List.getElem?_set, this]
  · intro h
    rw [UArr.update, if_pos]
    simp only [CTy.conv]
    omega

/-- **C81, arrays that start at index 0**: after `update<i>(v)`, `arr[i]` is `v` and every
other index reads as before; the default value outside the array. Missing: arrays that start
elsewhere, which drop updates (`C81_update_exact`, `C81_refuted`). -/
theorem C81_update_partial {α : Type} {r : Rng} (h0 : r.lo = 0) (hs : r.size ≤ 2 ^ 31) (dflt : α) (x : UArr α r)
    (idx : Int) (v : α) (hr : 0 ≤ idx ∧ idx ≤ r.hi) :
    ∃ y, x.update idx v = .ok y ∧ y.get dflt idx = v ∧
      ∀ j, -2 ^ 31 ≤ j → j < 2 ^ 31 → j ≠ idx → y.get dflt j = x.get dflt j := by
  have hsz : (r.size : Int) = r.hi - r.lo + 1 := by simp only [Rng.lo, Rng.hi, Rng.size]; omega
  obtain ⟨y, hy, hyv, hyo⟩ := (C81_update_exact dflt x idx v (by omega) hs (by omega)).1 (by omega)
  refine ⟨y, hy, ?_, fun j hj1 hj2 hne => ?_⟩
  · rw [C81_get dflt y idx (by omega) hs, if_pos (by omega), hyv]
  · rw [C81_get dflt y j (by omega) hs, C81_get dflt x j (by omega) hs]
    by_cases h : r.lo ≤ j ∧ j ≤ r.hi
    · rw [if_pos h, if_pos h, hyo j h.1 h.2 hne]
    · rw [if_neg h, if_neg h]

/-- the value an array index holds after a list of writes -/
def lastStore {α : Type} (init : Int → α) : List (Int × α) → Int → α
  | [], i => init i
  | (j, v) :: ws, i => lastStore (fun k => if k = j then v else init k) ws i

theorem lastStore_congr {α : Type} {f g : Int → α} {i : Int} (ws : List (Int × α)) (h : f i = g i) :
    lastStore f ws i = lastStore g ws i := by
  induction ws generalizing f g with
  | nil => exact h
  | cons w ws ih =>
    apply ih
    rw [h]

/-- **C81, histories.** After any sequence of in-range updates of an array that starts at
index 0 every index reads the last value written there, or what it read before. Missing: arrays that
start elsewhere, which drop updates (`C81_refuted`). -/
theorem C81_history_partial {α : Type} {r : Rng} (h0 : r.lo = 0) (hs : r.size ≤ 2 ^ 31) (dflt : α)
    (ws : List (Int × α)) (hw : ∀ p ∈ ws, 0 ≤ p.1 ∧ p.1 ≤ r.hi) (x : UArr α r) :
    ∃ y, ws.foldlM (fun (a : UArr α r) p => a.update p.1 p.2) x = .ok y ∧
      ∀ i, -2 ^ 31 ≤ i → i < 2 ^ 31 → y.get dflt i = lastStore (fun j => x.get dflt j) ws i := by
  induction ws generalizing x with
  | nil => exact ⟨x, rfl, fun _ _ _ => rfl⟩
  | cons p ws ih =>
    obtain ⟨y, hy, hyv, hyo⟩ := C81_update_partial h0 hs dflt x p.1 p.2 (hw p (by simp))
    obtain ⟨z, hz, hzv⟩ := ih (fun q hq => hw q (by simp [hq])) y
    refine ⟨z, ?_, fun i h1 h2 => ?_⟩
    · rw [List.foldlM_cons, hy]; exact hz
    · rw [hzv i h1 h2]
      apply lastStore_congr
      by_cases h : i = p.1
      · simp only [h, if_true, hyv]
      · simp only [h, if_false]
        exact hyo i h1 h2 h

/-- **C81 is false for arrays that do not start at 0**: in every such array some in-range
update is dropped. -/
theorem C81_refuted {α : Type} (r : Rng) (hb : -2 ^ 31 ≤ r.lo ∧ r.hi < 2 ^ 31) (hs : r.size ≤ 2 ^ 31) (h0 : r.lo ≠ 0) :
    ∃ idx, r.lo ≤ idx ∧ idx ≤ r.hi ∧ ∀ (x : UArr α r) (v : α), x.update idx v = .ok x := by
  have hsz : (r.size : Int) = r.hi - r.lo + 1 := by simp only [Rng.lo, Rng.hi, Rng.size]; omega
  have hlh : r.lo ≤ r.hi := by simp only [Rng.lo, Rng.hi]; omega
  rcases Int.lt_or_gt_of_ne h0 with h | h
  · exact ⟨r.lo, le_refl _, hlh, fun x v => (C81_update_exact v x r.lo v (by omega) hs (by omega)).2 (by omega)⟩
  · exact ⟨r.hi, hlh, le_refl _, fun x v => (C81_update_exact v x r.hi v (by omega) hs (by omega)).2 (by omega)⟩

/-- `unpacked_array<int, 7, 4>`: `update<5>` is dropped -/
example : (UArr.update (r := ⟨7, 4⟩) ⟨[10, 11, 12, 13], rfl⟩ 5 99).map (·.vals) = .ok [10, 11, 12, 13] := by decide
/-- `unpacked_array<int, 3, 0>`: `update<2>` -/
example : (UArr.update (r := ⟨3, 0⟩) ⟨[10, 11, 12, 13], rfl⟩ 2 99).map (·.vals) = .ok [10, 11, 99, 13] := by decide

/-! ### C82: fields of packed structs and unions -/

/-- a field write `v.update<hi, lo>(val)` -/
structure FieldWrite where
  hi : Nat
  lo : Nat
  wid : Nat
  sgn : Bool
  val : Lg wid sgn

/-- the write is inside an `n`-bit struct, `val` is as wide as the field, and bits above
the 64th are not x/z (reading those is undefined, C02) -/
structure FieldWrite.Ok (n : Nat) (f : FieldWrite) : Prop where
  le : f.lo ≤ f.hi
  lt : f.hi < n
  wid : f.wid = f.hi - f.lo + 1
  known : ∀ j, 64 ≤ j → j < f.wid → (f.val.at j).isKnown = true

/-- the struct after a write -/
def FieldWrite.run (x : Lg n s) (f : FieldWrite) : Res (Lg n s) :=
  x.update (Rng.down n) f.hi f.lo (Rng.down f.wid) f.val

/-- the bits of the struct after a list of field writes -/
def fieldBits (init : Nat → V4) : List FieldWrite → Nat → V4
  | [], i => init i
  | f :: fs, i => fieldBits (fun j => if f.lo ≤ j ∧ j ≤ f.hi then f.val.at (j - f.lo) else init j) fs i

theorem fieldBits_congr {f g : Nat → V4} {i : Nat} (ws : List FieldWrite) (h : f i = g i) :
    fieldBits f ws i = fieldBits g ws i := by
  induction ws generalizing f g with
  | nil => exact h
  | cons w ws ih => apply ih; rw [h]

theorem fieldBits_untouched (init : Nat → V4) (ws : List FieldWrite) (i : Nat)
    (h : ∀ f ∈ ws, ¬ (f.lo ≤ i ∧ i ≤ f.hi)) : fieldBits init ws i = init i := by
  induction ws generalizing init with
  | nil => rfl
  | cons w ws ih =>
    rw [fieldBits, ih _ (fun f hf => h f (by simp [hf]))]
    rw [if_neg (h w (by simp))]

theorem fieldBits_append (init : Nat → V4) (a b : List FieldWrite) (i : Nat) :
    fieldBits init (a ++ b) i = fieldBits (fieldBits init a) b i := by
  induction a generalizing init with
  | nil => rfl
  | cons w ws ih => exact ih _

/-- **C82, histories of field writes** of a 4-state packed struct or union: every bit holds
the last value written to it. Missing: 2-state structs, for which it is false (`C82_2state_exact`).
-/
theorem C82_history_partial (hn : 0 < n) (hN : n ≤ 2 ^ 31) (ws : List FieldWrite) (hw : ∀ f ∈ ws, f.Ok n) (x : Lg n s) :
    ∃ y, ws.foldlM FieldWrite.run x = .ok y ∧ (∀ i, i < n → y.at i = fieldBits x.at ws i) ∧
      (s = false → x.Clean → y.Clean) := by
  induction ws generalizing x with
  | nil => exact ⟨x, rfl, fun _ _ => rfl, fun _ h => h⟩
  | cons f ws ih =>
    have hf := hw f (by simp)
    have h1 := hf.le
    have h2 := hf.lt
    have h3 := hf.wid
    obtain ⟨y, hy, hya, hyc⟩ := C55_update_partial hn (by omega) hN (by omega) x f.val f.hi f.lo h2 (by omega)
      (fun k _ h64 hk => hf.known k h64 hk)
    obtain ⟨z, hz, hza, hzc⟩ := ih (fun g hg => hw g (by simp [hg])) y
    refine ⟨z, ?_, fun i hi => ?_, fun hs hx => hzc hs (hyc hs hx)⟩
    · rw [List.foldlM_cons, FieldWrite.run, hy]; exact hz
    · rw [hza i hi]
      apply fieldBits_congr
      rw [hya i hi]
      by_cases hc : f.lo ≤ i ∧ i ≤ f.hi
      · rw [if_pos (by omega), if_pos (by omega), if_pos hc]
        congr 1; omega
      · rw [if_neg (by omega), if_neg hc]

/-- **C82.** In any history of field writes, reading a field after a write to it and any
number of writes to fields disjoint from it gives the value written; reading a field no
write has touched gives what it held at the start. Fields of 65 bits do not compile
(`C49_65_bits`). Missing: 2-state structs, for which it is false (`C82_refuted`,
`C82_2state_exact`). -/
theorem C82_fields_partial (hN : n ≤ 2 ^ 31) (x : Lg n false) (before after : List FieldWrite) (f : FieldWrite)
    (hf : f.Ok n) (h65 : f.wid ≠ 65) (hb : ∀ g ∈ before, g.Ok n) (ha : ∀ g ∈ after, g.Ok n ∧ (g.hi < f.lo ∨ f.hi < g.lo)) :
    ∃ y, (before ++ f :: after).foldlM FieldWrite.run x = .ok y ∧
      (∃ z, y.slice (Rng.down n) f.hi f.lo = .ok z ∧ z.Clean ∧ ∀ j, j < f.wid → z.at j = f.val.at j) ∧
      ∀ hi lo, lo ≤ hi → hi < n → hi - lo ≠ 64 → (∀ g ∈ before ++ f :: after, g.hi < lo ∨ hi < g.lo) →
        ∃ z z0, y.slice (Rng.down n) hi lo = .ok z ∧ x.slice (Rng.down n) hi lo = .ok z0 ∧
          ∀ j, j ≤ hi - lo → z.at j = z0.at j := by
  have h1 := hf.le
  have h2 := hf.lt
  have h3 := hf.wid
  obtain ⟨y, hy, hya, -⟩ := C82_history_partial (by omega) hN (before ++ f :: after) (by
    intro g hg
    rcases List.mem_append.1 hg with h | h
    · exact hb g h
    · rcases List.mem_cons.1 h with h | h
      · rw [h]; exact hf
      · exact (ha g h).1) x
  refine ⟨y, hy, ?_, ?_⟩
  · obtain ⟨z, hz, hzc, hzv⟩ := C49_slice_logic y f.hi f.lo h2 (by omega) (by omega)
    refine ⟨z, hz, hzc, fun j hj => ?_⟩
    rw [hzv j (by omega), hya _ (by omega), fieldBits_append, fieldBits, fieldBits_untouched]
    · rw [if_pos (by omega)]
      congr 1; omega
    · intro g hg
      have := (ha g hg).2
      omega
  · intro hi lo hle hlt h64 hdis
    obtain ⟨z, hz, -, hzv⟩ := C49_slice_logic y hi lo hlt (by omega) (by omega)
    obtain ⟨z0, hz0, -, hz0v⟩ := C49_slice_logic x hi lo hlt (by omega) (by omega)
    refine ⟨z, z0, hz, hz0, fun j hj => ?_⟩
    rw [hzv j (by omega), hz0v j (by omega), hya _ (by omega), fieldBits_untouched]
    intro g hg
    have := hdis g hg
    omega

/-- **C82 is false for 2-state structs**: in `packed_struct<8, false>` writing 15 to the
field `[7:4]` leaves the struct unchanged (the source is indexed with the destination
position, C57). -/
theorem C82_refuted :
    ((Bits.ofInt 0 : Bits 8 false).update (Rng.down 8) 7 4 (Rng.down 4) (Bits.ofInt 15 : Bits 4 false)).map
      (·.bv) = .ok 0#8 := C57_refuted.2.1

/-- the struct of `tests/test_struct.cc`: fields `[4:0]` and `[9:5]` -/
example : (FieldWrite.mk 4 0 5 false (Lg.ofInt 10)).Ok 10 ∧ (FieldWrite.mk 9 5 5 false (Lg.ofInt 21)).Ok 10 :=
  ⟨⟨by decide, by decide, by decide, by decide⟩, ⟨by decide, by decide, by decide, by decide⟩⟩

end Verif
