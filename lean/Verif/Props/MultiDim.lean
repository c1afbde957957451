import Verif.Model.MultiDim
import Verif.Props.Array
import Verif.Props.Access
import Verif.Props.Slice
import Verif.Props.XSound
import Verif.Show

/-!
# Packed arrays of packed arrays (C192)
-/

namespace Verif

variable {w m : Nat} {s t u : Bool} {r : Rng} {ds : List Rng}

/-- the position of an element by the rule of SystemVerilog (the last dimension varies fastest): indices, counted from 0, as a number in mixed radix -/
def dimPos (w : Nat) : List Rng → List Nat → Nat
  | [], _ => 0
  | _ :: _, [] => 0
  | r :: ds, i :: l => i * (w * (ds.map Rng.size).prod) + dimPos w ds l

/-- one index below the size for each dimension -/
def DimIdx (ds : List Rng) (l : List Nat) : Prop := List.Forall₂ (fun (r : Rng) i => i < r.size) ds l

theorem dimBits_eq (w : Nat) (ds : List Rng) : dimBits w ds = w * (ds.map Rng.size).prod := by
  induction ds with
  | nil => simp [dimBits]
  | cons r ds ih => rw [dimBits, ih, List.map_cons, List.prod_cons]; ring

theorem dimBits_pos (hw : 0 < w) (ds : List Rng) : 0 < dimBits w ds := by
  induction ds with
  | nil => exact hw
  | cons r ds ih => exact Nat.mul_pos (by simp only [Rng.size]; omega) ih

theorem le_dimBits (w : Nat) (ds : List Rng) : w ≤ dimBits w ds := by
  induction ds with
  | nil => exact le_rfl
  | cons r ds ih => exact le_trans ih (Nat.le_mul_of_pos_left _ (by simp only [Rng.size]; omega))

theorem dimPos_cons (r : Rng) (ds : List Rng) (i : Nat) (l : List Nat) : dimPos w (r :: ds) (i :: l) = i * dimBits w ds + dimPos w ds l := by
  rw [dimPos, dimBits_eq]

theorem dimPos_lt {ds : List Rng} {l : List Nat} (h : DimIdx ds l) : dimPos w ds l + w ≤ dimBits w ds := by
  induction h with
  | nil => simp [dimPos, dimBits]
  | @cons r i ds l hi hl ih =>
    rw [dimPos_cons, dimBits]
    have : (i + 1) * dimBits w ds ≤ r.size * dimBits w ds := Nat.mul_le_mul_right _ hi
    have e : (i + 1) * dimBits w ds = i * dimBits w ds + dimBits w ds := by ring
    omega

/-- **C192, places.** An array of arrays has as many bits as its elements together; every bit belongs to exactly one element and one place in it. -/
theorem C192_places (hw : 0 < w) (ds : List Rng) :
    dimBits w ds = w * (ds.map Rng.size).prod ∧
    (∀ l j, DimIdx ds l → j < w → dimPos w ds l + j < dimBits w ds) ∧
    ∀ p, p < dimBits w ds → ∃! q : List Nat × Nat, DimIdx ds q.1 ∧ q.2 < w ∧ dimPos w ds q.1 + q.2 = p := by
  refine ⟨dimBits_eq w ds, fun l j hl hj => by have := dimPos_lt (w := w) hl; omega, ?_⟩
  induction ds with
  | nil =>
    intro p hp
    refine ⟨([], p), ⟨.nil, hp, by simp [dimPos]⟩, ?_⟩
    rintro ⟨l, j⟩ ⟨h1, -, h3⟩
    cases h1
    simp only [dimPos, Nat.zero_add] at h3
    rw [h3]
  | cons r ds ih =>
    intro p hp
    have hD := dimBits_pos hw ds
    obtain ⟨⟨l, j⟩, ⟨h1, h2, h3⟩, huniq⟩ := ih (p % dimBits w ds) (Nat.mod_lt _ hD)
    refine ⟨(p / dimBits w ds :: l, j), ⟨.cons (Nat.div_lt_of_lt_mul (by rw [Nat.mul_comm]; exact hp)) h1, h2, ?_⟩, ?_⟩
    · show dimPos w (r :: ds) (_ :: l) + j = p
      rw [dimPos_cons, Nat.add_assoc]
      have := Nat.div_add_mod p (dimBits w ds)
      rw [show dimPos w ds l + j = p % dimBits w ds from h3, Nat.mul_comm]; exact this
    · rintro ⟨l', j'⟩ ⟨g1, g2, g3⟩
      cases g1 with
      | @cons _ i _ l'' hi hl =>
        have g3 : dimPos w (r :: ds) (i :: l'') + j' = p := g3
        have g2 : j' < w := g2
        rw [dimPos_cons, Nat.add_assoc] at g3
        have hlt : dimPos w ds l'' + j' < dimBits w ds := by have := dimPos_lt (w := w) hl; omega
        have e1 : p / dimBits w ds = i := by
          rw [← g3, Nat.add_comm, Nat.add_mul_div_right _ _ hD, Nat.div_eq_of_lt hlt, Nat.zero_add]
        have e2 : p % dimBits w ds = dimPos w ds l'' + j' := by
          rw [← g3, Nat.add_comm, Nat.add_mul_mod_self_right, Nat.mod_eq_of_lt hlt]
        have := huniq (l'', j') ⟨hl, g2, e2.symm⟩
        simp only [Prod.mk.injEq] at this
        rw [e1, this.1, this.2]

theorem MArr.walk_ok (hw : 1 < w) : ∀ (ds : List Rng) (l : List Nat), DimIdx ds l → dimBits w ds ≤ 2 ^ 31 → ∀ z : Lg (dimBits w ds) false,
    ∃ e, MArr.walk ds l z = .ok e ∧ ∀ j, j < w → e.at j = z.at (dimPos w ds l + j) := by
  intro ds
  induction ds with
  | nil => intro l _ _ z; exact ⟨z, rfl, fun j _ => by rw [dimPos, Nat.zero_add]; rfl⟩
  | cons r ds ih =>
    intro l hl hb z
    cases hl with
    | @cons _ i _ l hi hl =>
      have hD := le_dimBits w ds
      have hs : (i + 1) * dimBits w ds ≤ r.size * dimBits w ds := Nat.mul_le_mul_right _ hi
      have e1 : (i + 1) * dimBits w ds = i * dimBits w ds + dimBits w ds := by ring
      have hle : dimBits w ds ≤ r.size * dimBits w ds := by omega
      have hb : r.size * dimBits w ds ≤ 2 ^ 31 := hb
      obtain ⟨a, ha, -, hat⟩ := C51_slice_logic_partial (n := r.size * dimBits w ds) (by omega) (by omega) z (dimBits w ds) (i * dimBits w ds)
        (i * dimBits w ds + dimBits w ds - 1) (by omega) (by omega) (by omega)
      obtain ⟨e, he, hv⟩ := ih l hl (by omega) a
      refine ⟨e, ?_, fun j hj => ?_⟩
      · exact (congrArg (fun q => Except.bind q fun z => MArr.walk ds l z) ha).trans he
      · have := dimPos_lt (w := w) hl
        refine (hv j hj).trans ((hat _ (by omega)).trans (congrArg (Lg.at z) ?_))
        rw [dimPos_cons]; omega

/-- **C192, reading, partial.** Any number of dimensions, elements of more than one bit: the first index gives the row, and slices of the row give the element at its SystemVerilog place, for
arrays of more than 64 bits or with spare storage bits (`C78_read_partial`). Missing: the other native arrays, where the read is undefined behaviour (`C78_refuted`), and
`a[i][j]`, which is not the element (`C192_second_index`). -/
theorem C192_read_partial (hw : 1 < w) (hb : dimBits w (r :: ds) < 2 ^ 31) (x : MArr w s (r :: ds)) (op : Lg m t) (i : Nat)
    (hI : PArr.Idx (dimBits w ds) r op i) (l : List Nat) (hl : DimIdx ds l)
    (h : 64 < dimBits w (r :: ds) ∨ (i + 1) * dimBits w ds < Verif.hw (dimBits w (r :: ds))) :
    ∃ z e, x.row op = .ok z ∧ MArr.walk ds l z = .ok e ∧ ∀ j, j < w → e.at j = x.at (dimPos w (r :: ds) (i :: l) + j) := by
  have hD := le_dimBits w ds
  obtain ⟨z, hz, hzv⟩ := C78_read_partial (w := dimBits w ds) (ra := r) (by omega) hb x op i hI (h.imp id fun h => ⟨by omega, h⟩)
  have hle : dimBits w ds ≤ 2 ^ 31 := by
    have : 1 * dimBits w ds ≤ r.size * dimBits w ds := Nat.mul_le_mul_right _ (by simp only [Rng.size]; omega)
    have hb : r.size * dimBits w ds < 2 ^ 31 := hb
    omega
  obtain ⟨e, he, hev⟩ := MArr.walk_ok hw ds l hl hle z
  refine ⟨z, e, hz, he, fun j hj => ?_⟩
  have := dimPos_lt (w := w) hl
  refine (hev j hj).trans ((hzv _ (by omega)).trans (congrArg (Lg.at x) ?_))
  rw [dimPos_cons, Nat.add_assoc]

/-- **C192 is false for a second index**: `a[i][j]` is not element `j` of row `i` but bit `j` of the row, which is bit `j mod w` of the row's element
`j / w` (in the order of the places), or undefined behaviour if that bit is x or z and `j` at least 64. For every array of arrays with elements of more than one bit. -/
theorem C192_second_index (hw : 1 < w) (hb : dimBits w (r :: ds) < 2 ^ 31) (x : MArr w s (r :: ds)) (op : Lg m t) (i : Nat)
    (hI : PArr.Idx (dimBits w ds) r op i) (h : 64 < dimBits w (r :: ds) ∨ (i + 1) * dimBits w ds < Verif.hw (dimBits w (r :: ds)))
    (j : Nat) (hj : j < dimBits w ds) :
    (x.rowIndex op j).map (·.at 0) = if j < 64 ∨ (x.at (i * dimBits w ds + j)).isKnown = true then .ok (x.at (i * dimBits w ds + j)) else .error .shift := by
  have hD := le_dimBits w ds
  obtain ⟨z, hz, hzv⟩ := C78_read_partial (w := dimBits w ds) (ra := r) (by omega) hb x op i hI (h.imp id fun h => ⟨by omega, h⟩)
  have hle : dimBits w ds ≤ 2 ^ 31 := by
    have : 1 * dimBits w ds ≤ r.size * dimBits w ds := Nat.mul_le_mul_right _ (by simp only [Rng.size]; omega)
    have hb : r.size * dimBits w ds < 2 ^ 31 := hb
    omega
  rw [MArr.rowIndex, show x.row op = .ok z from hz, res_bind_ok, C02_read_exact (by omega) (by omega) z j hj, hzv j hj]
  rfl

/-- **C192, refuted.** In every array of arrays of more than 64 bits, `a[i][1]` reads the second bit of the row's first element: there is a content for which that bit is 0 and the
element the indices name is all ones. -/
theorem C192_refuted (hw : 1 < w) {q : Rng} (hq : 1 < q.size) (h64 : 64 < dimBits w [r, q]) (hb : dimBits w [r, q] < 2 ^ 31) (op : Lg m t) (i : Nat)
    (hI : PArr.Idx (dimBits w [q]) r op i) :
    ∃ x : MArr w s [r, q], (∀ j, j < w → x.at (dimPos w [r, q] [i, 1] + j) = .b1) ∧ (x.rowIndex op 1).map (·.at 0) = .ok .b0 := by
  obtain ⟨x, -, hx⟩ := Lg.exists_at (n := dimBits w [r, q]) (s := s) fun p => if p = i * dimBits w [q] + 1 then .b0 else .b1
  have eq : dimBits w [q] = q.size * w := rfl
  have h2 : 2 * w ≤ q.size * w := Nat.mul_le_mul_right w hq
  have hs : (i + 1) * dimBits w [q] ≤ r.size * dimBits w [q] := Nat.mul_le_mul_right _ hI.lt
  have e1 : (i + 1) * dimBits w [q] = i * dimBits w [q] + dimBits w [q] := by ring
  have e2 : dimBits w [r, q] = r.size * dimBits w [q] := rfl
  refine ⟨x, fun j hj => ?_, ?_⟩
  · have e : dimPos w [r, q] [i, 1] = i * dimBits w [q] + w := by
      rw [dimPos_cons, dimPos_cons]; simp [dimPos, dimBits]
    rw [e, hx _ (by omega), if_neg (by omega)]
  · rw [C192_second_index hw hb x op i hI (Or.inl h64) 1 (by omega), if_pos (Or.inl (by omega)), hx _ (by omega), if_pos rfl]

/-- **C192, writing a row, exactly.** The elements of the row become those of the value and the other elements stay, but the first element of the next row loses its lowest bit. -/
theorem C192_write_exact (hw : 1 < w) (hb : dimBits w (r :: ds) < 2 ^ 31) (x : MArr w s (r :: ds)) (op : Lg m t) (i : Nat)
    (hI : PArr.Idx (dimBits w ds) r op i) (v : Lg (dimBits w ds) u) (hv : ∀ j, 64 ≤ j → j < dimBits w ds → (v.at j).isKnown = true)
    (h64 : i + 1 < r.size ∨ dimBits w (r :: ds) ≠ 64) :
    ∃ y : MArr w s (r :: ds), x.setRow op v = .ok y ∧ ∀ k l j, DimIdx (r :: ds) (k :: l) → j < w →
      y.at (dimPos w (r :: ds) (k :: l) + j) =
        if k = i then v.at (dimPos w ds l + j) else if k = i + 1 ∧ dimPos w ds l = 0 ∧ j = 0 then .b0 else x.at (dimPos w (r :: ds) (k :: l) + j) := by
  have hD := le_dimBits w ds
  have e0 : dimBits w (r :: ds) = r.size * dimBits w ds := rfl
  have h1 : 1 * dimBits w ds ≤ r.size * dimBits w ds := Nat.mul_le_mul_right _ (by simp only [Rng.size]; omega)
  obtain ⟨y, hy, hyv, -⟩ := C78_update_exact (w := dimBits w ds) (ra := r) (by omega) hb x op i hI v hv (by omega) h64
  replace hyv : ∀ p, p < r.size * dimBits w ds → Lg.at (n := dimBits w (r :: ds)) y p = _ := hyv
  refine ⟨y, hy, fun k l j hkl hj => ?_⟩
  cases hkl with
  | cons hk hl =>
    have hp := dimPos_lt (w := w) hl
    have hs : (k + 1) * dimBits w ds ≤ r.size * dimBits w ds := Nat.mul_le_mul_right _ hk
    have e1 : ∀ k, (k + 1) * dimBits w ds = k * dimBits w ds + dimBits w ds := fun k => by ring
    rw [dimPos_cons, hyv _ (by rw [e1] at hs; omega)]
    rw [e1] at hs ⊢
    rcases Nat.lt_trichotomy k i with hki | hki | hki
    · have : (k + 1) * dimBits w ds ≤ i * dimBits w ds := Nat.mul_le_mul_right _ hki
      rw [e1] at this
      rw [if_neg (by omega), if_neg (by omega), if_neg (by omega), if_neg (by omega)]; rfl
    · subst hki
      rw [if_pos (by omega), if_pos rfl]; congr 1; omega
    · have h2 : (i + 1) * dimBits w ds ≤ k * dimBits w ds := Nat.mul_le_mul_right _ hki
      rw [e1] at h2
      rw [if_neg (by omega), if_neg (show ¬ k = i by omega)]
      by_cases hk1 : k = i + 1
      · subst hk1
        rw [e1] at *
        congr 1
        rw [eq_iff_iff]; constructor <;> intro h <;> omega
      · have h3 : (i + 2) * dimBits w ds ≤ k * dimBits w ds := Nat.mul_le_mul_right _ (by omega)
        have e3 : (i + 2) * dimBits w ds = i * dimBits w ds + dimBits w ds + dimBits w ds := by ring
        rw [if_neg (by omega), if_neg (by omega)]; rfl

-- the array of the project's test, `packed_array<packed_array<logic<15,0>, 3, 0>, 1, 0>`: 128 bits, element [1][2] at bit 96
example : dimBits 16 [⟨1, 0⟩, ⟨3, 0⟩] = 128 ∧ dimPos 16 [⟨1, 0⟩, ⟨3, 0⟩] [1, 2] = 96 := by decide

-- its row 1 holds 0x1234 in element 2 and ones in element 0: the slice finds the former, the index [1][2] a one of the latter
example :
    let x : MArr 16 false [⟨1, 0⟩, ⟨3, 0⟩] := ⟨.big (by decide) ⟨[0, 0x000012340000FFFF], by decide⟩, Bits.zero⟩
    ((x.row (Lg.ofInt 1 : Lg 4 false)).bind fun z => MArr.walk [⟨3, 0⟩] [2] z).map (·.value.bv.toNat) = .ok 0x1234 ∧
    (x.rowIndex (Lg.ofInt 1 : Lg 4 false) 2).map (·.at 0) = .ok .b1 := by decide +kernel

end Verif
