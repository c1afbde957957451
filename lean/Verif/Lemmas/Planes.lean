import Verif.Lemmas.Shift
import Verif.Lemmas.Access

/-! The two planes of 4-state values: x/z tests, default values, known values. -/

namespace Verif

theorem isKnown_mk (v k : Bool) : (V4.mk v k).isKnown = !k := by cases v <;> cases k <;> rfl

namespace Bits

variable {n m : Nat} {s t : Bool}

theorem nv_eq_zero_iff (h : n ≤ 64) (x : Bits n s) : x.nv.v = 0 ↔ ∀ i, x.raw i = false := by
  constructor
  · intro hx i
    by_cases hi : i < hw n
    · rw [raw_nv h x hi, hx]; simp
    · exact raw_of_ge_native h x (by omega)
  · intro hx
    have : x.hold = 0 := by
      apply BitVec.eq_of_getLsbD_eq
      intro i hi
      rw [← raw_native h, hx]; simp
    rw [nv_v h, this]; simp

theorem anySet_iff (x : Bits n s) : x.anySet = true ↔ ∃ i, seen n i ∧ x.raw i = true := by
  by_cases h : n ≤ 64
  · rw [anySet, dif_pos h, bne_iff_ne, ne_eq, nv_eq_zero_iff h]
    simp [seen, h]
  · rw [anySet, dif_neg h, Big.anySet_spec]
    simp [seen, h, raw_big h]

theorem anySet_false_of {x : Bits n s} (hx : ∀ i, x.raw i = false) : x.anySet = false := by
  rw [← Bool.not_eq_true, anySet_iff]
  rintro ⟨i, _, hi⟩
  rw [hx] at hi; exact absurd hi (by decide)

theorem clean_of_raw_zero {x : Bits n false} (hx : ∀ i, x.raw i = false) : x.Clean :=
  (clean_unsigned_iff x).2 fun i _ => hx i

/-- truth of a clean value -/
theorem anySet_native (h : n ≤ 64) {x : Bits n s} (hx : x.Clean) : x.anySet = decide (x.bv ≠ 0) := by
  rw [anySet, dif_pos h, Bool.eq_iff_iff, decide_eq_true_iff, bne_iff_ne, (clean_native h x).1 hx]
  apply not_congr
  rw [numOf]
  split_ifs
  · rw [show (0 : Int) = (0#n).toInt by simp, BitVec.toInt_inj]; rfl
  · rw [show (0 : BitVec n) = BitVec.ofNat n 0 from rfl]
    constructor
    · intro e
      apply BitVec.eq_of_toNat_eq
      simpa using e
    · intro e; rw [e]; simp

theorem raw_toSign' (x : Bits n s) (t : Bool) (i : Nat) : (x.toSign t).raw i = x.raw i := raw_toSign x i

end Bits

namespace Lg

variable {n m : Nat} {s t : Bool}

theorem Known.raw {x : Lg n s} (hx : x.Known) (i : Nat) : x.xz.raw i = false := by
  by_cases hi : i < n
  · have := hx.2 i hi
    rw [at_lt x hi, isKnown_mk] at this
    simpa using this
  · exact (Bits.clean_unsigned_iff _).1 hx.1 i (by omega)

theorem Known.anySet {x : Lg n s} (hx : x.Known) : x.xz.anySet = false :=
  Bits.anySet_false_of hx.raw

theorem known_of_raw {x : Lg n s} (hx : ∀ i, x.xz.raw i = false) : x.Known :=
  ⟨Bits.clean_of_raw_zero hx, fun i hi => by rw [at_lt x hi, hx i, isKnown_mk]; rfl⟩

theorem known_iff {x : Lg n s} : x.Known ↔ ∀ i, x.xz.raw i = false := ⟨fun h => h.raw, known_of_raw⟩

theorem Known.at {x : Lg n s} (hx : x.Known) {i : Nat} (hi : i < n) :
    x.at i = V4.ofBool (x.value.bv.getLsbD i) := by
  rw [at_lt x hi, hx.raw i, Bits.getLsbD_bv]
  simp only [hi, decide_true, Bool.true_and]
  cases x.value.raw i <;> rfl

theorem known_zero (v : Bits n s) : (⟨v, Bits.zero⟩ : Lg n s).Known :=
  known_of_raw fun i => Bits.raw_zero i

/-- an x/z bit at a position that the emptiness test sees -/
theorem anySet_of_unknown {x : Lg n s} {i : Nat} (hi : i < n) (hs : seen n i)
    (hk : (x.at i).isKnown = false) : x.xz.anySet = true := by
  rw [Bits.anySet_iff]
  refine ⟨i, hs, ?_⟩
  rw [at_lt x hi, isKnown_mk] at hk
  simpa using hk

theorem dflt_at (hn : 0 < n) : ∃ y : Lg n s, dflt = .ok y ∧ ∀ i, i < n → y.at i = .x := by
  obtain ⟨y, hy, h1, h2⟩ := dflt_ok (n := n) (s := s) hn
  refine ⟨y, hy, fun i hi => ?_⟩
  rw [at_lt y hi, h1, h2]
  simp [hi, V4.mk]

theorem x1_at : x1.at 0 = .x := by decide

/-- the shape of all shifts: x when x/z is seen -/
theorem shiftWith_x (hn : 0 < n) (f : {s' : Bool} → Bits n s' → Bits m t → Res (Bits n (s' && t)))
    (x : Lg n s) (y : Lg m t) (h : y.xz.anySet = true ∨ x.xz.anySet = true) :
    ∃ z, shiftWith f x y = .ok z ∧ ∀ i, i < n → z.at i = .x := by
  obtain ⟨d, hd, h1, h2⟩ := dflt_ok (n := n) (s := s && t) hn
  obtain ⟨k, hk, hk2⟩ := Bits.mask_ok hn d.xz
  refine ⟨⟨d.value, k⟩, ?_, ?_⟩
  · rw [shiftWith, hd, res_bind_ok, if_pos (by simpa using h), hk]; rfl
  · intro i hi
    rw [at_lt _ hi, h1, hk2]
    simp [hi, V4.mk]

theorem shiftWith_known (hn : 0 < n)
    (f : {s' : Bool} → Bits n s' → Bits m t → Res (Bits n (s' && t)))
    {x : Lg n s} {y : Lg m t} (hx : x.Known) (hy : y.Known) {v : Bits n (s && t)} {k : Bits n false}
    (hv : f x.value y.value = .ok v) (hk : f x.xz y.value = .ok k) :
    shiftWith f x y = .ok ⟨v, k⟩ := by
  obtain ⟨d, hd, h1, h2⟩ := dflt_ok (n := n) (s := s && t) hn
  rw [shiftWith, hd, res_bind_ok, if_neg (by simp [hx.anySet, hy.anySet]), hv, res_bind_ok]
  have : f x.xz y.value = .ok k := hk
  rw [this]; rfl

theorem Known.bv_xz {x : Lg n s} (hx : x.Known) : x.xz.bv = 0 := by
  apply BitVec.eq_of_getLsbD_eq
  intro i hi
  rw [Bits.getLsbD_bv, hx.raw]; simp

end Lg
end Verif
