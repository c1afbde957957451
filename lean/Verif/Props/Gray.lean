import Verif.Props.Programs

/-!
# C170: Gray codes computed with vectors

`g = x ^ (x >> 1)` and the decoder that halves the distance in every step,
`for (k = 1; k < n; k = 2 * k) g = g ^ (g >> k)`.
-/

namespace Verif

variable {n : Nat}

/-- `x ^ (x >> k)` -/
def Bits.fold (x : Bits n false) (k : Nat) : Res (Bits n false) :=
  (x.shr (amount k)).map fun y => x.xor y

/-- `x ^ (x >> 1)` -/
def Bits.gray (x : Bits n false) : Res (Bits n false) := x.fold 1

/-- `for (; k < n; k = 2 * k) g = g ^ (g >> k)`, with fuel -/
def Bits.grayBack : Nat → Nat → Bits n false → Res (Bits n false)
  | 0, _, _ => .error .diverge
  | fuel + 1, k, g => if k < n then (g.fold k).bind fun g => g.grayBack fuel (2 * k) else .ok g

theorem Bits.fold_spec (hN : n ≤ 2 ^ 32) (x : Bits n false) {k : Nat} (hk : k < n) :
    ∃ z, x.fold k = .ok z ∧ z.bv = x.bv ^^^ (x.bv >>> k) := by
  obtain ⟨ca, na⟩ := amount_spec (i := k) (by omega)
  obtain ⟨y, hy, e⟩ := C24_shr_partial (by omega) hN x (amount k) ca k na (fun _ => ⟨by decide, hk⟩)
  exact ⟨_, by rw [Bits.fold, hy]; rfl, by rw [Bits.bv_xor, e]⟩

/-- **C170, the code.** Bit `i` of the code is the exclusive or of the bits `i` and `i + 1`, and the highest
bit is kept. -/
theorem C170_code (h1 : 1 < n) (hN : n ≤ 2 ^ 32) (x : Bits n false) :
    ∃ g, x.gray = .ok g ∧ ∀ i, i < n →
      g.bv.getLsbD i = if i = n - 1 then x.bv.getLsbD i else (x.bv.getLsbD i ^^ x.bv.getLsbD (i + 1)) := by
  obtain ⟨g, hg, e⟩ := Bits.fold_spec hN x h1
  refine ⟨g, hg, fun i hi => ?_⟩
  rw [e, BitVec.getLsbD_xor, BitVec.getLsbD_ushiftRight, Nat.add_comm 1 i]
  split
  · rw [BitVec.getLsbD_of_ge _ (i + 1) (by omega), Bool.xor_false]
  · rfl

theorem Bits.grayBack_spec (hN : n ≤ 2 ^ 32) (b : BitVec n) : (fuel k : Nat) → (g : Bits n false) → 0 < k →
    n < k + fuel → 0 < fuel → g.bv = b ^^^ (b >>> k) → ∃ z, g.grayBack fuel k = .ok z ∧ z.bv = b
  | 0, _, _, _, _, h, _ => by omega
  | fuel + 1, k, g, hk, hf, _, e => by
    rw [Bits.grayBack]
    by_cases h : k < n
    · rw [if_pos h]
      obtain ⟨z, hz, ez⟩ := Bits.fold_spec hN g h
      rw [hz, res_bind_ok]
      apply Bits.grayBack_spec hN b fuel (2 * k) z (by omega) (by omega) (by omega)
      rw [ez, e]
      apply BitVec.eq_of_getLsbD_eq
      intro i hi
      simp only [BitVec.getLsbD_xor, BitVec.getLsbD_ushiftRight]
      rw [show k + (k + i) = 2 * k + i by omega]
      cases b.getLsbD i <;> cases b.getLsbD (k + i) <;> cases b.getLsbD (2 * k + i) <;> rfl
    · rw [if_neg h]
      refine ⟨g, rfl, ?_⟩
      rw [e]
      apply BitVec.eq_of_getLsbD_eq
      intro i hi
      rw [BitVec.getLsbD_xor, BitVec.getLsbD_ushiftRight, BitVec.getLsbD_of_ge b (k + i) (by omega), Bool.xor_false]

/-- **C170, decoding.** The decoder gives back the bits of the vector that was encoded. -/
theorem C170_decode (h1 : 1 < n) (hN : n ≤ 2 ^ 32) (x g : Bits n false) (hg : x.gray = .ok g) :
    ∃ z, g.grayBack n 1 = .ok z ∧ z.bv = x.bv := by
  obtain ⟨g', hg', e⟩ := Bits.fold_spec hN x h1
  rw [Bits.gray, hg'] at hg
  rw [← Except.ok.inj hg]
  exact Bits.grayBack_spec hN x.bv n 1 g' (by omega) (by omega) (by omega) e

theorem getLsbD_succ (b : BitVec n) {i : Nat} (hi : i < n) :
    (b + 1).getLsbD i = (b.getLsbD i ^^ decide (∀ j, j < i → b.getLsbD j = true)) := by
  rw [BitVec.getLsbD_add hi]
  cases i with
  | zero => simp [hi]
  | succ i =>
    rw [show (1 : BitVec n) = 1#n from rfl, BitVec.carry_succ_one _ _ (by omega)]
    have : (1#n).getLsbD (i + 1) = false := by simp [BitVec.getLsbD_one]
    rw [this, Bool.false_xor]
    congr 1
    simp

/-- **C170, neighbours.** The codes of `x` and of its successor `x + 1` differ in exactly one bit, also when
the addition wraps from all ones to zero. -/
theorem C170_neighbours (h1 : 1 < n) (hN : n ≤ 2 ^ 32) (x : Bits n false) :
    ∃ y g k, x.add (Bits.oneN n) = .ok y ∧ x.gray = .ok g ∧ y.gray = .ok k ∧
      ∃! i, i < n ∧ g.bv.getLsbD i ≠ k.bv.getLsbD i := by
  obtain ⟨y, hy, ey⟩ := C28_add_partial h1 x (Bits.oneN n) (fun h => absurd h (by decide))
  obtain ⟨g, hg, eg⟩ := Bits.fold_spec hN x h1
  obtain ⟨k, hk, ek⟩ := Bits.fold_spec hN (y : Bits n false) h1
  refine ⟨y, g, k, hy, hg, hk, ?_⟩
  have e1 : (Bits.oneN n).bv = 1 := (Bits.oneN_spec (n := n) (by omega)).2
  rw [e1] at ey
  have hd : ∀ i, i < n → (g.bv.getLsbD i ≠ k.bv.getLsbD i ↔
      (∀ j, j < i → x.bv.getLsbD j = true) ∧ (i = n - 1 ∨ x.bv.getLsbD i = false)) := by
    intro i hi
    rw [eg, ek, ey, BitVec.getLsbD_xor, BitVec.getLsbD_xor, BitVec.getLsbD_ushiftRight,
      BitVec.getLsbD_ushiftRight, getLsbD_succ _ hi, Nat.add_comm 1 i]
    have hsucc : (∀ j, j < i + 1 → x.bv.getLsbD j = true) ↔
        (∀ j, j < i → x.bv.getLsbD j = true) ∧ x.bv.getLsbD i = true := by
      constructor
      · exact fun h => ⟨fun j hj => h j (by omega), h i (by omega)⟩
      · rintro ⟨h, h'⟩ j hj
        by_cases e : j = i
        · rw [e]; exact h'
        · exact h j (by omega)
    by_cases hl : i = n - 1
    · rw [BitVec.getLsbD_of_ge _ (i + 1) (by omega), BitVec.getLsbD_of_ge _ (i + 1) (by omega)]
      by_cases hp : ∀ j, j < i → x.bv.getLsbD j = true
      · rw [decide_eq_true hp]
        exact iff_of_true (by cases x.bv.getLsbD i <;> decide) ⟨hp, Or.inl hl⟩
      · simp [hp]
    · rw [getLsbD_succ _ (show i + 1 < n by omega)]
      by_cases hp : ∀ j, j < i → x.bv.getLsbD j = true
      · cases hb : x.bv.getLsbD i
        · have : ¬ ∀ j, j < i + 1 → x.bv.getLsbD j = true := by
            rw [hsucc, hb]; simp
          rw [decide_eq_true hp, decide_eq_false this]
          exact iff_of_true (by cases x.bv.getLsbD (i + 1) <;> decide) ⟨hp, Or.inr rfl⟩
        · have : ∀ j, j < i + 1 → x.bv.getLsbD j = true := hsucc.mpr ⟨hp, hb⟩
          rw [decide_eq_true hp, decide_eq_true this]
          cases x.bv.getLsbD (i + 1) <;> simp [hl]
      · have : ¬ ∀ j, j < i + 1 → x.bv.getLsbD j = true := fun h => hp (hsucc.mp h).1
        rw [decide_eq_false hp, decide_eq_false this]
        simp [hp]
  have huniq : ∀ i j, i < n → j < n → g.bv.getLsbD i ≠ k.bv.getLsbD i → g.bv.getLsbD j ≠ k.bv.getLsbD j → ¬ i < j := by
    intro i j hi hj a b hij
    have a' := ((hd i hi).mp a).2
    have b' := ((hd j hj).mp b).1 i hij
    rcases a' with h | h
    · omega
    · rw [h] at b'; exact absurd b' (by decide)
  by_cases hex : ∃ i, i < n ∧ x.bv.getLsbD i = false
  · have hmin := Nat.find_spec hex
    refine ⟨Nat.find hex, ⟨hmin.1, (hd _ hmin.1).mpr ⟨fun j hj => ?_, Or.inr hmin.2⟩⟩, ?_⟩
    · have := Nat.find_min hex hj
      rw [not_and] at this
      simpa using this (by omega)
    · rintro j ⟨hj, hne⟩
      have h0 : g.bv.getLsbD (Nat.find hex) ≠ k.bv.getLsbD (Nat.find hex) :=
        (hd _ hmin.1).mpr ⟨fun j hj => by
          have := Nat.find_min hex hj
          rw [not_and] at this
          simpa using this (by omega), Or.inr hmin.2⟩
      have a := huniq _ _ hj hmin.1 hne h0
      have b := huniq _ _ hmin.1 hj h0 hne
      omega
  · push Not at hex
    have h0 : g.bv.getLsbD (n - 1) ≠ k.bv.getLsbD (n - 1) :=
      (hd _ (by omega)).mpr ⟨fun j hj => by simpa using hex j (by omega), Or.inl rfl⟩
    refine ⟨n - 1, ⟨by omega, h0⟩, ?_⟩
    rintro j ⟨hj, hne⟩
    have a := huniq _ _ hj (by omega) hne h0
    omega

example : ((Bits.ofInt 11 : Bits 8 false).gray).toOption.map (·.bv) = some 14#8 := by decide +kernel
example : ((Bits.ofInt 14 : Bits 8 false).grayBack 8 1).toOption.map (·.bv) = some 11#8 := by decide +kernel
example : ((Bits.ofInt (-1) : Bits 70 false).gray).toOption.map (·.bv.toNat) = some (2 ^ 63) := by decide +kernel

end Verif
