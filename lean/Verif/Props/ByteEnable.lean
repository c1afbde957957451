import Verif.Props.Gates
import Verif.Props.Slice
import Verif.Props.Update

/-!
# A program: writing with byte enables (C205)

`for (b = 0; b < B; b++) if (en[b]) x.update(g*b+g-1, g*b, v.slice<g>(g*b+g-1, g*b));` on 4-state vectors of
`B` groups of `g` bits. An enable that is x or z does not write.
-/

namespace Verif

variable {g B : Nat} {s t : Bool}

/-- one group -/
def Lg.enableStep (en : Lg B t) (v : Lg (g * B) false) (b : Nat) (x : Lg (g * B) s) : Res (Lg (g * B) s) :=
  (en.get (Rng.down B) b).bind fun e =>
  if e.toBool then
    (v.sliceRt (Rng.down (g * B)) g (g * b + (g - 1) : Nat) (g * b : Nat)).bind fun p =>
      x.updateRt (Rng.down (g * B)) (g * b + (g - 1) : Nat) (g * b : Nat) (Rng.down g) p
  else .ok x

/-- all groups -/
def Lg.enableWrite (en : Lg B t) (v : Lg (g * B) false) (x : Lg (g * B) s) : Res (Lg (g * B) s) :=
  loopM 0 B x fun b x => Lg.enableStep en v b x

theorem Lg.toBool_bit (x : Lg 1 false) : x.toBool = decide (x.at 0 = .b1) := by
  have h : ∀ y : Bits 1 false, y.anySet = y.bv.getLsbD 0 := by
    intro y
    rw [Bits.anySet_native (by decide) (Bits.clean_one (by decide) (by decide) y)]
    generalize y.bv = b
    revert b; decide
  rw [Lg.toBool, Lg.at, h, h]
  cases x.value.bv.getLsbD 0 <;> cases x.xz.bv.getLsbD 0 <;> decide

theorem Lg.enableStep_spec (h1 : 1 < g * B) (hg : 0 < g) (hN : g * B ≤ 2 ^ 31) (en : Lg B t) (v : Lg (g * B) false) {b : Nat}
    (hb : b < B) (he : b < 64 ∨ (en.at b).isKnown = true)
    (hv : ∀ j, 64 ≤ j → j < g → (v.at (g * b + j)).isKnown = true) (x : Lg (g * B) s) :
    ∃ y, Lg.enableStep en v b x = .ok y ∧ ∀ k j, k < B → j < g →
      y.at (g * k + j) = if k = b ∧ en.at b = .b1 then v.at (g * k + j) else x.at (g * k + j) := by
  have hB : B ≤ g * B := Nat.le_mul_of_pos_left _ hg
  have hgB : ∀ k, k < B → g * k + g ≤ g * B := fun k hk => by
    have : g * (k + 1) ≤ g * B := Nat.mul_le_mul_left g hk
    rwa [Nat.mul_succ] at this
  obtain ⟨e, hee, eb⟩ := Lg.get_down (by omega) (by omega) en b hb he
  rw [Lg.enableStep, hee, res_bind_ok, Lg.toBool_bit, eb]
  by_cases h : en.at b = .b1
  · rw [decide_eq_true h, if_pos rfl]
    have := hgB b hb
    obtain ⟨p, hp, -, pb⟩ := C51_slice_logic_partial h1 (by omega) v g (g * b + (g - 1)) (g * b) (by omega) (by omega) (by omega)
    rw [show min (g * b + (g - 1)) (g * b) = g * b by omega] at pb
    obtain ⟨y, hy, yb⟩ := C56_update_rt_bits (by omega) hg hN (by omega) x p (g * b + (g - 1)) (g * b) (by omega) (by omega)
      (fun k _ h64 hkg => by rw [pb k hkg]; exact hv k h64 hkg)
    refine ⟨y, by rw [hp, res_bind_ok, hy], fun k j hk hj => ?_⟩
    rw [show min (g * b + (g - 1)) (g * b) = g * b by omega, show max (g * b + (g - 1)) (g * b) = g * b + (g - 1) by omega] at yb
    have hkk := hgB k hk
    rw [yb _ (by omega)]
    by_cases hkb : k = b
    · subst hkb
      rw [if_pos (by omega), if_pos (by omega), if_pos ⟨rfl, h⟩, Nat.add_sub_cancel_left, pb j hj]
    · rw [if_neg (show ¬ (k = b ∧ en.at b = .b1) from fun a => hkb a.1), if_neg]
      rintro ⟨ha, hc⟩
      rcases Nat.lt_or_gt_of_ne hkb with hl | hl
      · have : g * (k + 1) ≤ g * b := Nat.mul_le_mul_left g hl
        rw [Nat.mul_succ] at this; omega
      · have : g * (b + 1) ≤ g * k := Nat.mul_le_mul_left g hl
        rw [Nat.mul_succ] at this; omega
  · rw [decide_eq_false h]
    exact ⟨x, rfl, fun k j _ _ => by rw [if_neg (fun a => h a.2)]⟩

/-- **C205, partial.** Every group whose enable is 1 receives the group of `v`, x and z included; every other
group, also one whose enable is x or z, keeps its contents; no undefined behaviour. Missing: enables with
an x or z at an index from 64 on and groups wider than 64 bits with an x or z at such a position, where
reading the bit is undefined (C02). -/
theorem C205_enable_partial (h1 : 1 < g * B) (hg : 0 < g) (hN : g * B ≤ 2 ^ 31) (en : Lg B t) (v : Lg (g * B) false)
    (x : Lg (g * B) s) (he : ∀ b, 64 ≤ b → b < B → (en.at b).isKnown = true)
    (hv : ∀ b j, b < B → 64 ≤ j → j < g → (v.at (g * b + j)).isKnown = true) :
    ∃ y, Lg.enableWrite en v x = .ok y ∧
      ∀ i, i < g * B → y.at i = if en.at (i / g) = .b1 then v.at i else x.at i := by
  obtain ⟨y, hy, yb⟩ := loopM_induct 0 B x (fun b x => Lg.enableStep en v b x)
    (fun c y => ∀ k j, k < B → j < g →
      y.at (g * k + j) = if k < c ∧ en.at k = .b1 then v.at (g * k + j) else x.at (g * k + j)) (by omega)
    (fun k j _ _ => by rw [if_neg (by omega)])
    (by
      intro b z _ hb hz
      obtain ⟨y, hy, yb⟩ := Lg.enableStep_spec h1 hg hN en v hb (by
        by_cases h : b < 64
        · exact Or.inl h
        · exact Or.inr (he b (by omega) hb)) (fun j => hv b j hb) z
      refine ⟨y, hy, fun k j hk hj => ?_⟩
      rw [yb k j hk hj, hz k j hk hj]
      by_cases hkb : k = b
      · subst hkb
        simp only [Nat.lt_irrefl, false_and, if_false, true_and, Nat.lt_succ_self]
      · simp only [hkb, false_and, if_false]
        by_cases hl : k < b
        · simp only [hl, show k < b + 1 by omega]
        · simp only [hl, show ¬ k < b + 1 by omega])
  refine ⟨y, hy, fun i hi => ?_⟩
  have hk : i / g < B := Nat.div_lt_of_lt_mul hi
  have := yb (i / g) (i % g) hk (Nat.mod_lt _ hg)
  rw [Nat.div_add_mod] at this
  rw [this]
  simp only [hk, true_and]

/-- three bytes; the enables are 1, x, 0 from the left, and the vector written has an x in its top byte -/
example : (Lg.enableWrite (g := 8) (B := 3) (⟨Bits.ofInt 0b100, Bits.ofInt 0b010⟩ : Lg 3 false)
      (⟨Bits.ofInt 0xABCDEF, Bits.ofInt 0x100000⟩ : Lg (8 * 3) false) (Lg.ofInt 0x123456 : Lg (8 * 3) false)).map
      (fun y => (y.value.bv.toNat, y.xz.bv.toNat)) = .ok (0xAB3456, 0x100000) := by decide +kernel

/-- **C205, the missing case**: an enable that is x at index 64 is undefined behaviour, whatever else is written. -/
theorem C205_enable_refuted (h64 : 64 < B) (h1 : 0 < g) (hN : g * B ≤ 2 ^ 31) (en : Lg B t) (v : Lg (g * B) false)
    (x : Lg (g * B) s) (he : (en.at 64).isKnown = false) (hv : ∀ b j, b < B → 64 ≤ j → j < g → (v.at (g * b + j)).isKnown = true) :
    Lg.enableWrite en v x = .error .shift := by
  have hB : B ≤ g * B := Nat.le_mul_of_pos_left _ h1
  obtain ⟨y, hy, -⟩ := loopM_induct 0 64 x (fun b x => Lg.enableStep en v b x) (fun _ _ => True) (by omega) trivial
    (by
      intro b z _ hb _
      obtain ⟨y, hy, -⟩ := Lg.enableStep_spec (by omega) h1 hN en v (show b < B by omega) (Or.inl hb) (fun j => hv b j (by omega)) z
      exact ⟨y, hy, trivial⟩)
  have hget : en.get (Rng.down B) (64 : Nat) = .error .shift := by
    have := C02_read_exact (by omega) (by omega) en 64 h64
    rw [if_neg (by rw [he]; simp)] at this
    cases e : en.get (Rng.down B) (64 : Nat) with
    | error f => rw [e] at this; cases this; rfl
    | ok b => rw [e] at this; cases this
  have hstep : Lg.enableStep en v 64 y = .error .shift := by
    rw [Lg.enableStep, hget]; rfl
  have key : ∀ k, loopM 0 (0 + (65 + k)) x (fun b x => Lg.enableStep en v b x) = .error .shift := by
    intro k
    induction k with
    | zero =>
      have := loopM_succ 0 64 x (fun b x => Lg.enableStep en v b x)
      rw [show (0 : Nat) + 64 = 64 from rfl, hy, res_bind_ok, hstep] at this
      exact this
    | succ k ih => rw [← Nat.add_assoc 65, loopM_succ, ih]; rfl
  have := key (B - 65)
  rwa [show 0 + (65 + (B - 65)) = B by omega] at this

/-- 65 groups of one bit, the top enable x -/
example : (Lg.mk Bits.zero (.big (by decide) ⟨[0, 1], rfl⟩) : Lg 65 false).at 64 = .x := by decide +kernel

end Verif
