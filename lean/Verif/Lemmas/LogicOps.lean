import Verif.Lemmas.BitOps

/-! Bit-wise description of the basic 4-state operations. -/

namespace Verif
namespace Lg

variable {n m : Nat} {s t : Bool}

theorem at_lt (x : Lg n s) {i : Nat} (hi : i < n) :
    x.at i = V4.mk (x.value.raw i) (x.xz.raw i) := by
  rw [Lg.at, Bits.getLsbD_bv, Bits.getLsbD_bv]; simp [hi]

theorem at_ge (x : Lg n s) {i : Nat} (hi : n ≤ i) : x.at i = .b0 := by
  have : ¬ i < n := by omega
  rw [Lg.at, Bits.getLsbD_bv, Bits.getLsbD_bv]; simp [this, V4.mk]

theorem dflt_ok (hn : 0 < n) : ∃ y : Lg n s, dflt = .ok y ∧ (∀ i, y.value.raw i = false) ∧
    (∀ i, y.xz.raw i = decide (i < n)) := by
  obtain ⟨k, hk, hr⟩ := Bits.mask_ok hn (Bits.zero : Bits n false)
  exact ⟨⟨Bits.zero, k⟩, by rw [dflt, hk]; rfl, fun i => Bits.raw_zero i, hr⟩

theorem raw_knownMask (hn : 0 < n) (x : Lg n s) (y : Lg n t) {i : Nat} (hi : i < n) :
    (knownMask x y).raw i =
      (((x.xz.raw i ^^ y.xz.raw i) && !x.xz.raw i && x.value.raw i) ||
       ((y.xz.raw i ^^ x.xz.raw i) && !y.xz.raw i && !x.value.raw i)) := by
  simp only [knownMask]
  rw [Bits.raw_or, Bits.raw_and hn _ _ hi, Bits.raw_and hn _ _ hi, Bits.raw_and hn _ _ hi,
    Bits.raw_and hn _ _ hi, Bits.raw_xor, Bits.raw_xor, Bits.raw_not_lt hn _ hi,
    Bits.raw_not_lt hn _ hi, Bits.raw_not_lt hn _ hi]

theorem xor_ok (hn : 0 < n) (x : Lg n s) (y : Lg n t) : ∃ z, x.xor y = .ok z ∧
    (∀ i, z.value.raw i = (decide (i < n) && ((x.value.raw i ^^ y.value.raw i) &&
      !(x.xz.raw i || y.xz.raw i)))) ∧
    (∀ i, z.xz.raw i = (x.xz.raw i || y.xz.raw i)) := by
  obtain ⟨v, hv, hr⟩ := Bits.andAssign_ok hn (x.value.xor y.value) (x.xz.or y.xz).not
  refine ⟨⟨v, x.xz.or y.xz⟩, ?_, ?_, ?_⟩
  · simp only [xor]; rw [hv]; rfl
  · intro i
    rw [hr, Bits.raw_xor]
    by_cases hi : i < n
    · rw [Bits.raw_not_lt hn _ hi, Bits.raw_or]
    · simp [hi]
  · intro i; exact Bits.raw_or _ _ i

theorem not_ok (hn : 0 < n) (x : Lg n s) : ∃ z, x.not = .ok z ∧
    (∀ i, z.value.raw i = (decide (i < n) && (!x.value.raw i && !x.xz.raw i))) ∧
    (∀ i, z.xz.raw i = x.xz.raw i) := by
  obtain ⟨v, hv, hr⟩ := Bits.andAssign_ok hn x.value.not x.xz.not
  refine ⟨⟨v, x.xz⟩, ?_, ?_, fun _ => rfl⟩
  · simp only [not]; rw [hv]; rfl
  · intro i
    rw [hr]
    by_cases hi : i < n
    · rw [Bits.raw_not_lt hn _ hi, Bits.raw_not_lt hn _ hi]
    · simp [hi]

theorem and_ok (hn : 0 < n) (x : Lg n s) (y : Lg n t) : ∃ z, x.and y = .ok z ∧
    (∀ i, z.value.raw i = (decide (i < n) && ((x.value.raw i && y.value.raw i) &&
      !(knownMask x y).raw i))) ∧
    (∀ i, z.xz.raw i = (decide (i < n) && ((x.xz.raw i && y.xz.raw i) ||
      (knownMask x y).raw i))) := by
  obtain ⟨v, hv, hr⟩ := Bits.andAssign_ok hn (x.value.and y.value) (knownMask x y).not
  obtain ⟨k, hk, hkr⟩ := Bits.orAssign_ok hn (x.xz.and y.xz : Bits n false) (knownMask x y)
  refine ⟨⟨v, k⟩, ?_, ?_, ?_⟩
  · simp only [and]; rw [hv, res_bind_ok, hk]; rfl
  · intro i
    rw [hr]
    by_cases hi : i < n
    · rw [Bits.raw_not_lt hn _ hi, Bits.raw_and hn _ _ hi]
    · simp [hi]
  · intro i
    rw [hkr]
    by_cases hi : i < n
    · rw [Bits.raw_and hn _ _ hi]
    · simp [hi]

theorem or_ok (hn : 0 < n) (x : Lg n s) (y : Lg n t) : ∃ z, x.or y = .ok z ∧
    (∀ i, z.value.raw i = (decide (i < n) && (((x.value.raw i || y.value.raw i) &&
      !(x.xz.raw i || y.xz.raw i)) || (knownMask x y).raw i))) ∧
    (∀ i, z.xz.raw i = (decide (i < n) && ((x.xz.raw i || y.xz.raw i) &&
      !(knownMask x y).raw i))) := by
  obtain ⟨v, hv, hr⟩ := Bits.andAssign_ok hn (x.value.or y.value) (x.xz.or y.xz).not
  obtain ⟨v2, hv2, hr2⟩ := Bits.orAssign_ok hn v (knownMask x y)
  obtain ⟨k, hk, hkr⟩ := Bits.andAssign_ok hn (x.xz.or y.xz) (knownMask x y).not
  refine ⟨⟨v2, k⟩, ?_, ?_, ?_⟩
  · simp only [or]; rw [hv, res_bind_ok, hv2, res_bind_ok, hk]; rfl
  · intro i
    rw [hr2, hr]
    by_cases hi : i < n
    · rw [Bits.raw_not_lt hn _ hi, Bits.raw_or, Bits.raw_or]; simp [hi]
    · simp [hi]
  · intro i
    rw [hkr]
    by_cases hi : i < n
    · rw [Bits.raw_not_lt hn _ hi, Bits.raw_or]
    · simp [hi]

end Lg
end Verif
