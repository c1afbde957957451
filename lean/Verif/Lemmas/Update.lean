import Verif.Lemmas.Access
import Verif.Lemmas.BigMul

/-! Slice assignment loops. -/

namespace Verif

variable {n m : Nat} {s t : Bool}

namespace Lg

/-- what the update loop stores for the operand index `k` -/
def src (ro : Rng) (op : Lg m t) (k : Nat) : V4 := if (k : Int) ≤ ro.hi then op.at (ro.pos k) else .b0

theorem at_of_raw {y : Lg n s} {i : Nat} (hi : i < n) : y.at i = V4.mk (y.value.raw i) (y.xz.raw i) := by
  rw [Lg.at, Bits.getLsbD_bv, Bits.getLsbD_bv]; simp [hi]

/-- one step: index `start + k` receives operand index `k` -/
theorem updateStep_eq (r ro : Rng) (op : Lg ro.size t) (he : r.bigEndian = ro.bigEndian) (ho : ro.lo = 0)
    (hM : ro.hi < 2 ^ 31) (start : Int) (k : Nat) (hk : k < 2 ^ 32) (x : Lg n s) :
    updateStep r start ro op (start + k) x =
      if (k : Int) ≤ ro.hi then (op.get ro k).bind fun b => x.setL r (start + k) b
      else x.setL r (start + k) zero1 := by
  have hi0 : 0 ≤ ro.hi := by simp only [Rng.lo, Rng.hi] at *; omega
  have e1 : tU64.conv (start + k - start) = k := by
    rw [show start + (k : Int) - start = k by omega]
    exact tU64_conv_of (by omega) (by omega)
  have e2 : tU64.conv ro.hi = ro.hi := tU64_conv_of hi0 (by omega)
  have e3 : tU64.conv ro.lo = 0 := by rw [ho]; exact tU64_conv_of (by omega) (by omega)
  have hx : (ro.bigEndian ^^ r.bigEndian) = false := by rw [he]; simp
  simp only [updateStep, hx, Bool.false_eq_true, if_false, e1, e2, e3]
  by_cases h : (k : Int) ≤ ro.hi
  · rw [if_neg (by omega), if_pos h, tInt_conv_of (by omega) (by omega)]
  · rw [if_pos (by omega), if_neg h]

theorem size_hi {ro : Rng} (ho : ro.lo = 0) : (ro.size : Int) = ro.hi + 1 := by
  simp only [Rng.lo, Rng.hi, Rng.size] at *; omega

/-- reading an operand bit that does not fault -/
theorem get_src (ro : Rng) (op : Lg ro.size t) (ho : ro.lo = 0) (hM : ro.hi < 2 ^ 31) (k : Nat)
    (hk : (k : Int) ≤ ro.hi) (h64 : k < 64 ∨ (op.at (ro.pos k)).isKnown = true) :
    ∃ b, op.get ro k = .ok b ∧ b.at 0 = src ro op k := by
  have hs := size_hi ho
  have hp : Bits.physIdx ro k = ro.pos k := Bits.physIdx_pos ho (by omega) hk
  have := get_exact ro op k (ro.pos k) hp (Rng.pos_lt (by omega) hk) (by omega) (by omega) hk (by omega) (by omega)
  rw [if_pos (h64.imp (fun h => by omega) id)] at this
  cases hg : op.get ro k with
  | error e => rw [hg] at this; exact absurd this (by simp [Except.map])
  | ok b =>
    rw [hg, res_map_ok] at this
    injection this with this
    exact ⟨b, rfl, by rw [this, src, if_pos hk]⟩

theorem get_fault (ro : Rng) (op : Lg ro.size t) (ho : ro.lo = 0) (hM : ro.hi < 2 ^ 31) (k : Nat)
    (hk : (k : Int) ≤ ro.hi) (h64 : ¬ (k < 64 ∨ (op.at (ro.pos k)).isKnown = true)) :
    op.get ro k = .error .shift := by
  have hs := size_hi ho
  have hp : Bits.physIdx ro k = ro.pos k := Bits.physIdx_pos ho (by omega) hk
  have := get_exact ro op k (ro.pos k) hp (Rng.pos_lt (by omega) hk) (by omega) (by omega) hk (by omega) (by omega)
  rw [if_neg (fun h => h64 (h.imp (fun h => by omega) id))] at this
  cases hg : op.get ro k with
  | error e =>
    rw [hg] at this
    simp only [Except.map] at this
    injection this with this
    rw [this]
  | ok b => rw [hg, res_map_ok] at this; exact absurd this (by simp)

theorem zero1_at : zero1.at 0 = .b0 := by decide

/-- the whole loop, when no operand read faults -/
theorem update_ok (r ro : Rng) (x : Lg r.size s) (op : Lg ro.size t) (he : r.bigEndian = ro.bigEndian)
    (hr : r.lo = 0) (ho : ro.lo = 0) (hR : r.hi < 2 ^ 31) (hM : ro.hi < 2 ^ 31) {a b : Int}
    (ha : 0 ≤ a ∧ a ≤ r.hi) (hb : 0 ≤ b ∧ b ≤ r.hi)
    (hk : ∀ k : Nat, (k : Int) ≤ max a b - min a b → (k : Int) ≤ ro.hi →
      k < 64 ∨ (op.at (ro.pos k)).isKnown = true) :
    ∃ y, x.update r a b ro op = .ok y ∧
      (∀ k : Nat, (k : Int) ≤ max a b - min a b → y.at (r.pos (min a b + k)) = src ro op k) ∧
      ∀ j, (∀ k : Nat, (k : Int) ≤ max a b - min a b → j ≠ r.pos (min a b + k)) →
        y.value.raw j = x.value.raw j ∧ y.xz.raw j = x.xz.raw j := by
  have hs := size_hi hr
  have hmin : 0 ≤ min a b := by omega
  have hmax : max a b ≤ r.hi := by omega
  generalize hst : min a b = st at *
  generalize hen : max a b = en at *
  have hle : st ≤ en := by omega
  obtain ⟨y, hy, hP⟩ := loopM_induct 0 (en + 1 - st).toNat x
    (fun k x => updateStep r st ro op (st + k) x)
    (fun K y => (∀ k : Nat, k < K → y.at (r.pos (st + k)) = src ro op k) ∧
      ∀ j, (∀ k : Nat, k < K → j ≠ r.pos (st + k)) → y.value.raw j = x.value.raw j ∧ y.xz.raw j = x.xz.raw j)
    (by omega) ⟨fun k hk => absurd hk (by omega), fun j _ => ⟨rfl, rfl⟩⟩ (by
      rintro i z - hi ⟨h1, h2⟩
      have hin : st + i ≤ r.hi := by omega
      have hps : r.pos (st + i) < r.size := Rng.pos_lt (by omega) hin
      have hphys : Bits.physIdx r (st + i) - r.lo = r.pos (st + i) := by
        rw [Bits.physIdx_pos hr (by omega) hin, hr]; omega
      have key : ∃ (b : Lg 1 false), updateStep r st ro op (st + i) z = z.setL r (st + i) b ∧ b.at 0 = src ro op i := by
        rw [updateStep_eq r ro op he ho hM st i (by omega) z]
        by_cases hio : (i : Int) ≤ ro.hi
        · obtain ⟨b, hb1, hb2⟩ := get_src ro op ho hM i hio (hk i (by omega) hio)
          exact ⟨b, by rw [if_pos hio, hb1, res_bind_ok], hb2⟩
        · exact ⟨zero1, by rw [if_neg hio], by rw [zero1_at, src, if_neg hio]⟩
      obtain ⟨b, hb1, hb2⟩ := key
      obtain ⟨w, hw, hwv, hwk⟩ := setL_phys r z (st + i) _ hphys hps (by omega) b
      refine ⟨w, by rw [hb1, hw], fun k hk' => ?_, fun j hj => ?_⟩
      · rw [at_write hps hwv hwk, hold1_at, hb2]
        by_cases hki : k = i
        · subst hki; rw [if_pos rfl]
        · rw [if_neg, h1 k (by omega)]
          intro e
          have := Rng.pos_inj (r := r) (by omega) (by omega) (by omega) hin e
          omega
      · have hj' := hj i (by omega)
        rw [hwv, hwk, if_neg hj', if_neg hj']
        exact h2 j fun k hk => hj k (by omega))
  refine ⟨y, ?_, fun k hk' => hP.1 k (by omega), fun j hj => hP.2 j fun k hk' => hj k (by omega)⟩
  rw [Lg.update]
  simp only [hst, hen]
  exact hy

/-- the loop faults as soon as one operand read does -/
theorem update_fault (r ro : Rng) (x : Lg r.size s) (op : Lg ro.size t) (he : r.bigEndian = ro.bigEndian)
    (hr : r.lo = 0) (ho : ro.lo = 0) (hR : r.hi < 2 ^ 31) (hM : ro.hi < 2 ^ 31) {a b : Int}
    (ha : 0 ≤ a ∧ a ≤ r.hi) (hb : 0 ≤ b ∧ b ≤ r.hi) {k : Nat} (hk : (k : Int) ≤ max a b - min a b)
    (hko : (k : Int) ≤ ro.hi) (hu : ¬ (k < 64 ∨ (op.at (ro.pos k)).isKnown = true)) :
    x.update r a b ro op = .error .shift := by
  have hs := size_hi hr
  have hmin : 0 ≤ min a b := by omega
  have hmax : max a b ≤ r.hi := by omega
  rw [Lg.update]
  generalize hst : min a b = st at *
  generalize hen : max a b = en at *
  have hstep : ∀ i : Nat, i < (en + 1 - st).toNat → ∀ z : Lg r.size s,
      (∃ w, updateStep r st ro op (st + i) z = .ok w) ∨ updateStep r st ro op (st + i) z = .error .shift := by
    intro i hi z
    have hin : st + i ≤ r.hi := by omega
    have hps : r.pos (st + i) < r.size := Rng.pos_lt (by omega) hin
    have hphys : Bits.physIdx r (st + i) - r.lo = r.pos (st + i) := by
      rw [Bits.physIdx_pos hr (by omega) hin, hr]; omega
    rw [updateStep_eq r ro op he ho hM st i (by omega) z]
    by_cases hio : (i : Int) ≤ ro.hi
    · rw [if_pos hio]
      by_cases h64 : i < 64 ∨ (op.at (ro.pos i)).isKnown = true
      · obtain ⟨b, hb1, -⟩ := get_src ro op ho hM i hio h64
        obtain ⟨w, hw, -⟩ := setL_phys r z (st + i) _ hphys hps (by omega) b
        exact Or.inl ⟨w, by rw [hb1, res_bind_ok, hw]⟩
      · right; rw [get_fault ro op ho hM i hio h64]; rfl
    · rw [if_neg hio]
      obtain ⟨w, hw, -⟩ := setL_phys r z (st + i) _ hphys hps (by omega) zero1
      exact Or.inl ⟨w, hw⟩
  have hall : ∀ K : Nat, K ≤ (en + 1 - st).toNat →
      (K ≤ k → (∃ w, loopM 0 K x (fun i z => updateStep r st ro op (st + i) z) = .ok w) ∨
        loopM 0 K x (fun i z => updateStep r st ro op (st + i) z) = .error .shift) ∧
      (k < K → loopM 0 K x (fun i z => updateStep r st ro op (st + i) z) = .error .shift) := by
    intro K
    induction K with
    | zero => intro _; exact ⟨fun _ => Or.inl ⟨x, loopM_zero _ _ _ _ (by omega)⟩, fun h => absurd h (by omega)⟩
    | succ K ih =>
      intro hK
      obtain ⟨i1, i2⟩ := ih (by omega)
      have hsucc := loopM_succ 0 K x (fun (i : Nat) z => updateStep r st ro op (st + i) z)
      rw [Nat.zero_add, Nat.zero_add] at hsucc
      rw [hsucc]
      constructor
      · intro h
        rcases i1 (by omega) with ⟨w, hw⟩ | hw
        · rw [hw]; exact hstep K (by omega) w
        · rw [hw]; exact Or.inr rfl
      · intro h
        by_cases hkK : k < K
        · rw [i2 hkK]; rfl
        · obtain rfl : k = K := by omega
          rcases i1 (le_refl _) with ⟨w, hw⟩ | hw
          · rw [hw, res_bind_ok, updateStep_eq r ro op he ho hM st k (by omega) w, if_pos hko,
              get_fault ro op ho hM k hko hu]
            rfl
          · rw [hw]; rfl
  exact (hall _ (le_refl _)).2 (by omega)

end Lg

namespace Bits

/-- the bit read at operand index `k` -/
def src (ro : Rng) (op : Bits m t) (k : Int) : Bool := decide (k ≤ ro.hi) && op.bv.getLsbD (ro.pos k)

theorem get_src (ro : Rng) (op : Bits ro.size t) (ho : ro.lo = 0) (hM : ro.hi < 2 ^ 31) (k : Int) (h0 : 0 ≤ k)
    (hk2 : k < 2 ^ 32) (hk : k ≤ ro.hi ∨ 64 < ro.size) : op.get ro k = .ok (src ro op k) := by
  have hs := Lg.size_hi ho
  by_cases h : k ≤ ro.hi
  · rw [get_phys ro op k (ro.pos k) (physIdx_pos ho (by omega) h) (Rng.pos_lt (by omega) h) (by omega), src]
    simp [h]
  · have hw : ¬ ro.size ≤ 64 := by omega
    rw [Bits.get]
    simp only [hw, dite_false]
    rw [Big.get, if_neg, src, decide_eq_false h, Bool.false_and]
    have : (ro.size : Int) ≤ tU64.conv (physIdx ro k) := by
      rw [physIdx]
      split
      · rw [tU64_conv_of h0 (by omega)]; omega
      · rename_i hbe
        have hlsb : ro.lsb = ro.hi := by simp [Rng.bigEndian, Rng.hi] at *; omega
        have e : tU64.conv (ro.lsb - k) = ro.lsb - k + 2 ^ 64 := by
          have : tU64.conv (ro.lsb - k) = (ro.lsb - k) % 2 ^ 64 := by
            simp [CTy.conv]
          rw [this, ← Int.add_emod_right, Int.emod_eq_of_lt (by omega) (by omega)]
        rw [e]; omega
    omega

/-- an update loop that reads operand index `c + k` for target index `start + k` -/
theorem update_loop (r ro : Rng) (x : Bits r.size s) (op : Bits ro.size t)
    (hr : r.lo = 0) (ho : ro.lo = 0) (hR : r.hi < 2 ^ 31) (hM : ro.hi < 2 ^ 31) (st c : Int) (d : Nat)
    (h0 : 0 ≤ st) (hd : st + d ≤ r.hi + 1) (hc : 0 ≤ c) (hc2 : c ≤ r.hi)
    (hk : c + d ≤ ro.hi + 1 ∨ 64 < ro.size) :
    ∃ y, (loopM 0 d x fun k x => (op.get ro (c + (k : Nat))).bind fun b => x.setBit r (st + (k : Nat)) b) = .ok y ∧
      (∀ k : Nat, k < d → y.raw (r.pos (st + k)) = src ro op (c + k)) ∧
      ∀ j, (∀ k : Nat, k < d → j ≠ r.pos (st + k)) → y.raw j = x.raw j := by
  have hs := Lg.size_hi hr
  refine loopM_induct 0 d x _ (fun K (y : Bits r.size s) =>
    (∀ k : Nat, k < K → y.raw (r.pos (st + k)) = src ro op (c + k)) ∧
      ∀ j, (∀ k : Nat, k < K → j ≠ r.pos (st + k)) → y.raw j = x.raw j) (Nat.zero_le _)
    ⟨fun k hk => absurd hk (by omega), fun j _ => rfl⟩ ?_
  rintro i z - hi ⟨h1, h2⟩
  have hin : st + i ≤ r.hi := by omega
  have hps : r.pos (st + i) < r.size := Rng.pos_lt (by omega) hin
  obtain ⟨w, hw, hwr⟩ := setBit_phys r z (st + i) _ (physIdx_pos hr (by omega) hin) hr hps (by omega)
    (src ro op (c + i))
  refine ⟨w, by rw [get_src ro op ho hM _ (by omega) (by omega) (by omega), res_bind_ok, hw], fun k hk' => ?_, fun j hj => ?_⟩
  · rw [hwr]
    by_cases hki : k = i
    · subst hki; rw [if_pos rfl]
    · rw [if_neg, h1 k (by omega)]
      intro e
      have := Rng.pos_inj (r := r) (by omega) (by omega) (by omega) hin e
      omega
  · rw [hwr, if_neg (hj i (by omega))]
    exact h2 j fun k hk => hj k (by omega)

end Bits
end Verif
