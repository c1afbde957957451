import Verif.Props.Reduction
import Verif.Props.Bitwise
import Verif.Props.Compare

/-!
# A program: a comparator made of gates (C215)

`(a ^ b).r_nor()` on `logic<n-1, 0>` against `a == b`.
-/

namespace Verif

variable {n : Nat} {s t : Bool}

/-- `(a ^ b).r_nor()` -/
def Lg.gateEq (x : Lg n s) (y : Lg n t) : Res (Lg 1 false) := (x.xor y).bind fun z => z.rNor (Rng.down n)

/-- **C215, exactly.** At every width the comparator answers 1 exactly if both vectors are known and equal, 0 exactly if the
lowest position that is not both known and equal holds two known different bits, and x otherwise. -/
theorem C215_exact (hn : 0 < n) (hN : n ≤ 2 ^ 32) (x : Lg n s) (y : Lg n t) :
    ∃ z, x.gateEq y = .ok z ∧
      (z.at 0 = .b1 ↔ ∀ i, i < n → (x.at i).isKnown = true ∧ x.at i = y.at i) ∧
      (z.at 0 = .b0 ↔ ∃ j, j < n ∧ (∀ i, i < j → (x.at i).isKnown = true ∧ x.at i = y.at i) ∧
        (x.at j).isKnown = true ∧ (y.at j).isKnown = true ∧ x.at j ≠ y.at j) ∧
      z.at 0 ≠ .z := by
  obtain ⟨w, hw, ew⟩ := C08_xor_table hn x y
  have hle : (Rng.down n).lsb ≤ (Rng.down n).msb := by simp [Rng.down]; omega
  have hs : ∀ k, (Rng.down n).scan k = k := fun k => by rw [Rng.scan, if_pos hle]
  have h := Lg.rOrLoop_eq (Rng.down n) (Rng.size_down hn) hN (Or.inl hle) w n 0 (by omega)
  simp only [hs] at h
  obtain ⟨-, hc, -⟩ := C20_complement (Rng.down n) w
  rw [show w.rOr (Rng.down n) = w.rOrLoop (Rng.down n) 0 n from rfl, h, res_map_ok] at hc
  cases e : w.rNor (Rng.down n) with
  | error f => rw [e] at hc; exact absurd hc (by simp [Except.map])
  | ok z =>
    rw [e, res_map_ok] at hc
    injection hc with hc
    refine ⟨z, by rw [Lg.gateEq, hw, res_bind_ok, e], ?_⟩
    have t0 : ∀ a b : V4, V4.xor a b = .b0 ↔ a.isKnown = true ∧ a = b := by intro a b; cases a <;> cases b <;> decide
    have t1 : ∀ a b : V4, V4.xor a b = .b1 ↔ a.isKnown = true ∧ b.isKnown = true ∧ a ≠ b := by
      intro a b; cases a <;> cases b <;> decide
    by_cases hall : ∀ i, i < n → w.at i = .b0
    · rw [firstNot_all .b0 _ n 0 (fun j _ hj => hall j (by omega))] at hc
      rw [hc]
      have ha : ∀ i, i < n → (x.at i).isKnown = true ∧ x.at i = y.at i := fun i hi => by
        rw [← t0, ← ew i hi]; exact hall i hi
      refine ⟨iff_of_true rfl ha, iff_of_false (by decide) ?_, by decide⟩
      rintro ⟨j, hj, -, -, -, hne⟩
      exact hne (ha j hj).2
    · push Not at hall
      obtain ⟨p, ⟨hp, hpn⟩, hmin⟩ : ∃ p, (p < n ∧ w.at p ≠ .b0) ∧ ∀ j, j < p → w.at j = .b0 := by
        refine ⟨Nat.find hall, Nat.find_spec hall, fun j hj => ?_⟩
        have := Nat.find_min hall hj
        have h2 := (Nat.find_spec hall).1
        by_contra hne
        exact this ⟨by omega, hne⟩
      rw [firstNot_at .b0 (fun j => w.at j) hpn n 0 (by omega) (by omega) (fun j _ h => hmin j h)] at hc
      have hlow : ∀ i, i < p → (x.at i).isKnown = true ∧ x.at i = y.at i := fun i hi => by
        rw [← t0, ← ew i (by omega)]; exact hmin i hi
      have hnp : ¬ ((x.at p).isKnown = true ∧ x.at p = y.at p) := by rw [← t0, ← ew p hp]; exact hpn
      have n1 : ¬ ∀ i, i < n → (x.at i).isKnown = true ∧ x.at i = y.at i := fun h => hnp (h p hp)
      by_cases hk : (w.at p).isKnown = true
      · have h1 : w.at p = .b1 := by
          generalize w.at p = a at *
          cases a <;> first | rfl | exact absurd rfl hpn | exact absurd hk (by decide)
        rw [if_pos hk, h1] at hc
        rw [hc]
        refine ⟨iff_of_false (by decide) n1, iff_of_true rfl ⟨p, hp, hlow, ?_⟩, by decide⟩
        rw [← t1, ← ew p hp]; exact h1
      · rw [if_neg hk] at hc
        rw [hc]
        refine ⟨iff_of_false (by decide) n1, iff_of_false (by decide) ?_, by decide⟩
        rintro ⟨j, hj, hl, h1⟩
        rw [← t1, ← ew j hj] at h1
        have : j = p := by
          rcases Nat.lt_trichotomy j p with c | c | c
          · rw [hmin j c] at h1; cases h1
          · exact c
          · exact absurd (hl p c) hnp
        subst this
        rw [h1] at hk; exact hk rfl

/-- **C215, against `==`.** Wherever all bits are known the comparator and `==` agree, at every width. -/
theorem C215_agree (hn : 0 < n) (hN : n ≤ 2 ^ 32) (x y : Lg n false) (hx : x.Clean) (hy : y.Clean) (kx : x.Known) (ky : y.Known) :
    ∃ z w, x.gateEq y = .ok z ∧ x.eq y = .ok w ∧ z.at 0 = w.at 0 := by
  obtain ⟨z, hz, e1, e0, -⟩ := C215_exact hn hN x y
  obtain ⟨w, hw, ew⟩ := (C43_rel_known x y kx ky (x.value.eq y.value)).1.1 rfl
  refine ⟨z, w, hz, hw, ?_⟩
  have ofB : ∀ a b : Bool, V4.ofBool a = V4.ofBool b ↔ a = b := by decide
  have hb := C38_eq_same_sign hn (by simp) x.value y.value hx.1 hy.1
  rw [ew]
  by_cases h : ∀ i, i < n → x.value.bv.getLsbD i = y.value.bv.getLsbD i
  · rw [hb.2 h]
    exact e1.2 fun i hi => ⟨kx.2 i hi, by rw [kx.at hi, ky.at hi, h i hi]⟩
  · rw [Bool.eq_false_iff.2 fun e => h (hb.1 e)]
    push Not at h
    have hsp := Nat.find_spec h
    refine e0.2 ⟨Nat.find h, hsp.1, fun i hi => ?_, kx.2 _ hsp.1, ky.2 _ hsp.1, ?_⟩
    · refine ⟨kx.2 i (by omega), ?_⟩
      rw [kx.at (by omega), ky.at (by omega), ofB]
      by_contra hne
      exact Nat.find_min h hi ⟨by omega, hne⟩
    · rw [kx.at hsp.1, ky.at hsp.1, Ne, ofB]
      exact hsp.2

/-- **C215, unknown bits.** If a bit is unknown and `==` sees it, `==` is x; the comparator answers 0 if a known difference
stands below, so it is never less precise than `==` there. -/
theorem C215_finer (hn : 0 < n) (hN : n ≤ 2 ^ 32) (x y : Lg n false) (h : x.SeenXZ ∨ y.SeenXZ) (j : Nat) (hj : j < n)
    (hl : ∀ i, i < j → (x.at i).isKnown = true ∧ x.at i = y.at i) (k1 : (x.at j).isKnown = true) (k2 : (y.at j).isKnown = true)
    (hne : x.at j ≠ y.at j) :
    ∃ z w, x.gateEq y = .ok z ∧ z.at 0 = .b0 ∧ x.eq y = .ok w ∧ w.at 0 = .x := by
  obtain ⟨z, hz, -, e0, -⟩ := C215_exact hn hN x y
  obtain ⟨w, hw, ew⟩ := C43_rel_x_partial x y h (x.eq y) (by simp)
  exact ⟨z, w, hz, e0.2 ⟨j, hj, hl, k1, k2, hne⟩, hw, ew⟩

/-- a known difference at bit 0 and an x at bit 3: 0 from the gates, x from `==`; the other way around x from both -/
def gateCase (lo : Bool) : Option (List V4) × Option (List V4) :=
  let a := ((Lg.ofInt 5 : Lg 8 false).setX (Rng.down 8) (if lo then 0 else 3)).toOption.get!
  let b : Lg 8 false := Lg.ofInt (if lo then 13 else 4)
  (Lg.bits (a.gateEq b), Lg.bits (a.eq b))

example : gateCase false = (some [.b0], some [.x]) ∧ gateCase true = (some [.x], some [.x]) := by decide +kernel

-- 70 bits, an x at bit 40: `==` answers 1 (C43), the gates answer x
example : Lg.bits ((((Lg.ofInt 5 : Lg 70 false).setX (Rng.down 70) 40).toOption.get!).gateEq (Lg.ofInt 5 : Lg 70 false)) =
    some [.x] := by decide +kernel

end Verif
