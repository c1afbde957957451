import Verif.Props.CanonHistory
import Verif.Show

/-!
# When wide results are canonical, signed or not (C16)

A wide object is canonical if the bits of its last limb above the width are 0, signed objects included. So sums of negative
numbers are hardly ever canonical: `-1 + 1` carries out of the width and its object is not that of 0.
-/

namespace Verif

variable {n : Nat} {s t : Bool}

/-- **C16 for wide `+`, `-` and `~`, exactly, for all signednesses.** -/
theorem C16_wide_iff (h : 64 < n) (x : Bits n s) (y : Bits n t) (hx : x.Clean) (hy : y.Clean) :
    (∃ z, x.add y = .ok z ∧ (z.Clean ↔ 64 ∣ n ∨ x.bv.toNat + y.bv.toNat < 2 ^ n)) ∧
    (∃ z, x.sub y = .ok z ∧ (z.Clean ↔ 64 ∣ n ∨ y.bv.toNat ≤ x.bv.toNat)) ∧
    (x.not.Clean ↔ 64 ∣ n) := by
  have hb : ¬ n ≤ 64 := by omega
  rw [Bits.clean_big hb] at hx hy
  have vx : x.bv.toNat = val (x.bg hb).vals := by rw [Bits.bv_big hb, hx.toNat_bv]
  have vy : y.bv.toNat = val (y.bg hb).vals := by rw [Bits.bv_big hb, hy.toNat_bv]
  have lx : val (x.bg hb).vals < 2 ^ n := hx
  have ly : val (y.bg hb).vals < 2 ^ n := hy
  have l1 := le_limbs n
  have l2 := limbs_lt n
  have hcase : (64 ∣ n ∧ 64 * limbs n = n) ∨ (¬ 64 ∣ n ∧ n + 1 ≤ 64 * limbs n) := by
    by_cases hd : 64 ∣ n
    · obtain ⟨k, rfl⟩ := hd
      left; refine ⟨⟨k, rfl⟩, ?_⟩; omega
    · right; refine ⟨hd, ?_⟩
      rcases Nat.eq_or_lt_of_le l1 with e | e
      · exact absurd ⟨limbs n, by omega⟩ hd
      · omega
  refine ⟨⟨.big hb ((x.bg hb).add (y.bg hb)), by rw [Bits.add, dif_neg hb], ?_⟩,
    ⟨.big hb ((x.bg hb).sub (y.bg hb)), by rw [Bits.sub, dif_neg hb], ?_⟩, ?_⟩
  · rw [Bits.clean_big hb]
    show val ((x.bg hb).add (y.bg hb)).vals < 2 ^ n ↔ _
    rw [Big.add_spec, vx, vy]
    rcases hcase with ⟨hd, e⟩ | ⟨hd, e⟩
    · rw [e]; exact ⟨fun _ => .inl hd, fun _ => Nat.mod_lt _ (Nat.pow_pos (by decide))⟩
    · have : 2 ^ (n + 1) ≤ 2 ^ (64 * limbs n) := Nat.pow_le_pow_right (by decide) e
      rw [pow_succ] at this
      rw [Nat.mod_eq_of_lt (by omega)]
      exact ⟨.inr, fun h => h.resolve_left hd⟩
  · rw [Bits.clean_big hb]
    show val ((x.bg hb).sub (y.bg hb)).vals < 2 ^ n ↔ _
    rw [Big.sub_spec (by omega), vx, vy]
    rcases hcase with ⟨hd, e⟩ | ⟨hd, e⟩
    · rw [e]; exact ⟨fun _ => .inl hd, fun _ => Nat.mod_lt _ (Nat.pow_pos (by decide))⟩
    · have : 2 ^ (n + 1) ≤ 2 ^ (64 * limbs n) := Nat.pow_le_pow_right (by decide) e
      rw [pow_succ] at this
      generalize 2 ^ (64 * limbs n) = W at this
      generalize 2 ^ n = N at *
      by_cases hle : val (y.bg hb).vals ≤ val (x.bg hb).vals
      · rw [show val (x.bg hb).vals + (W - val (y.bg hb).vals) = val (x.bg hb).vals - val (y.bg hb).vals + W by omega,
          Nat.add_mod_right, Nat.mod_eq_of_lt (by omega)]
        exact ⟨fun _ => .inr hle, fun _ => by omega⟩
      · rw [Nat.mod_eq_of_lt (by omega)]
        exact ⟨fun h => by omega, fun h => absurd (h.resolve_left hd) hle⟩
  · rw [Bits.clean_big hb]
    have e0 : val (x.not.bg hb).vals = val (x.bg hb).not.vals := by rw [Bits.not, dif_neg hb]; rfl
    show val (x.not.bg hb).vals < 2 ^ n ↔ _
    rw [e0]
    have := Big.not_spec (x.bg hb)
    rcases hcase with ⟨hd, e⟩ | ⟨hd, e⟩
    · rw [e] at this; exact ⟨fun _ => hd, fun _ => by omega⟩
    · have h2 : 2 ^ (n + 1) ≤ 2 ^ (64 * limbs n) := Nat.pow_le_pow_right (by decide) e
      rw [pow_succ] at h2
      exact ⟨fun h => by omega, fun h => absurd h hd⟩

/-- **C16 is false for every wide signed sum that cancels**: at every width that is no multiple of 64, the sum of a negative canonical
number and its opposite reads 0 at every index and is not canonical, so it is not the object 0; its truth value (`any_set`) is true if
the carry lies in the lower half of its limb. -/
theorem C16_wide_cancel (h : 64 < n) (hd : ¬ 64 ∣ n) (x y : Bits n true) (hx : x.Clean) (hy : y.Clean) (h0 : x.bv ≠ 0)
    (he : y.bv = -x.bv) : ∃ z, x.add y = .ok z ∧ z.bv = 0 ∧ ¬ z.Clean ∧ z ≠ Bits.zero ∧ (z.anySet = true ↔ n % 64 < 32) := by
  obtain ⟨⟨z, hz, hc⟩, -⟩ := C16_wide_iff h x y hx hy
  have hbv : z.bv = 0 := by
    obtain ⟨w, hw, e⟩ := C28_add_partial (by omega) x y (by omega)
    rw [hz] at hw; injection hw with hw; subst hw
    rw [e, he]; exact BitVec.add_right_neg _
  have hn : ¬ z.Clean := by
    rw [hc]
    rintro (h | h)
    · exact hd h
    · rw [he, BitVec.toNat_neg] at h
      have := x.bv.isLt
      have h0' : x.bv.toNat ≠ 0 := fun e => h0 (BitVec.eq_of_toNat_eq (by simpa using e))
      rw [Nat.mod_eq_of_lt (by omega)] at h
      omega
  have hb : ¬ n ≤ 64 := by omega
  refine ⟨z, hz, hbv, hn, fun e => hn (by rw [e, Bits.clean_big hb, Bits.zero, dif_neg hb]; exact Big.clean_zero), ?_⟩
  have hv : val (z.bg hb).vals = 2 ^ n := by
    rw [Bits.add, dif_neg hb] at hz
    have hz' : (Bits.big hb ((x.bg hb).add (y.bg hb)) : Bits n true) = z := Except.ok.inj hz
    rw [Bits.clean_big hb] at hx hy
    rw [← hz']
    show val ((x.bg hb).add (y.bg hb)).vals = _
    have l1 := le_limbs n
    have hlt : n < 64 * limbs n := lt_of_le_of_ne (by omega) fun e => hd ⟨limbs n, e⟩
    have : x.bv.toNat + y.bv.toNat = 2 ^ n := by
      have := x.bv.isLt
      have h0' : x.bv.toNat ≠ 0 := fun e => h0 (BitVec.eq_of_toNat_eq (by simpa using e))
      rw [he, BitVec.toNat_neg, Nat.mod_eq_of_lt (by omega)]
      omega
    rw [Big.add_spec, ← hx.toNat_bv, ← hy.toNat_bv, ← Bits.bv_big hb, ← Bits.bv_big hb, this,
      Nat.mod_eq_of_lt (Nat.pow_lt_pow_right (by decide) hlt)]
  rw [Bits.anySet, dif_neg hb, Big.anySet_spec]
  constructor
  · rintro ⟨i, hi, hr⟩
    rw [← Big.testBit_val', hv, Nat.testBit_two_pow, decide_eq_true_iff] at hr
    omega
  · intro hlow
    exact ⟨n, hlow, by rw [← Big.testBit_val', hv, Nat.testBit_two_pow]; simp⟩

example : ∃ x y : Bits 100 true, x.Clean ∧ y.Clean ∧ x.bv = -1 ∧ y.bv = -x.bv := by
  obtain ⟨x, cx, ex⟩ := Bits.exists_clean (s := true) (-1 : BitVec 100)
  obtain ⟨y, cy, ey⟩ := Bits.exists_clean (s := true) (1 : BitVec 100)
  exact ⟨x, y, cx, cy, ex, by rw [ex, ey]; decide⟩

end Verif
