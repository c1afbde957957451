import Verif.Model.Alias
import Verif.Props.UpdateExact
import Verif.Show

/-!
# Slice assignment from the object itself (C124)

`x[hi:lo] = x` in SystemVerilog evaluates the right side first: index `start + k` receives
what index `k` held before. The C++ operand is a reference, and the loop reads bits it has
already written.
-/

namespace Verif

variable {n : Nat} {s : Bool}

private theorem mod_ge {st K : Nat} (h : st ≤ K) : (K - st) % st = K % st := by
  conv_rhs => rw [← Nat.sub_add_cancel h, Nat.add_mod_right]

private theorem mod_le' (k st : Nat) : k % st ≤ k := Nat.mod_le _ _

/-- positions of the source indices are never positions written earlier unless they are the
shifted ones -/
private theorem Bits.self_loop (r : Rng) (x : Bits r.size s) (hr : r.lo = 0) (hR : r.hi < 2 ^ 31)
    (st d : Nat) (hd : (st : Int) + d ≤ r.hi + 1) :
    ∃ y, (loopM 0 d x fun k x => (x.get r ((st : Int) + (k : Nat) - st)).bind fun b => x.setBit r (st + (k : Nat)) b) = .ok y ∧
      (∀ k : Nat, k < d → y.raw (r.pos (st + k)) = x.raw (r.pos ((k % st : Nat) : Int))) ∧
      ∀ j, (∀ k : Nat, k < d → j ≠ r.pos (st + k)) → y.raw j = x.raw j := by
  have hs := Lg.size_hi hr
  refine loopM_induct 0 d x _ (fun K (y : Bits r.size s) =>
    (∀ k : Nat, k < K → y.raw (r.pos (st + k)) = x.raw (r.pos ((k % st : Nat) : Int))) ∧
      ∀ j, (∀ k : Nat, k < K → j ≠ r.pos (st + k)) → y.raw j = x.raw j) (Nat.zero_le _)
    ⟨fun k hk => absurd hk (by omega), fun j _ => rfl⟩ ?_
  rintro i z - hi ⟨h1, h2⟩
  have hin : (st : Int) + i ≤ r.hi := by omega
  have hps : r.pos (st + i) < r.size := Rng.pos_lt (by omega) hin
  have hpi : r.pos (i : Int) < r.size := Rng.pos_lt (by omega) (by omega)
  have hread : z.raw (r.pos (i : Int)) = x.raw (r.pos ((i % st : Nat) : Int)) := by
    by_cases hlt : i < st ∨ st = 0
    · have hmod : i % st = i := by
        rcases hlt with h | rfl
        · exact Nat.mod_eq_of_lt h
        · exact Nat.mod_zero i
      rw [hmod]
      refine h2 _ fun k hk e => ?_
      have := Rng.pos_inj (r := r) (by omega) (by omega) (by omega) (by omega) e
      omega
    · have := h1 (i - st) (by omega)
      rw [mod_ge (by omega)] at this
      rw [← this]
      congr 2
      omega
  have hg : z.get r ((st : Int) + i - st) = .ok (x.raw (r.pos ((i % st : Nat) : Int))) := by
    rw [show (st : Int) + i - st = i by omega,
      Bits.get_phys r z i _ (Bits.physIdx_pos hr (by omega) (by omega)) hpi (by omega), Bits.getLsbD_bv, ← hread]
    simp [hpi]
  obtain ⟨w, hw, hwr⟩ := Bits.setBit_phys r z (st + i) _ (Bits.physIdx_pos hr (by omega) hin) hr hps (by omega)
    (x.raw (r.pos ((i % st : Nat) : Int)))
  refine ⟨w, by rw [hg, res_bind_ok, hw], fun k hk' => ?_, fun j hj => ?_⟩
  · rw [hwr]
    by_cases hki : k = i
    · subst hki; rw [if_pos rfl]
    · rw [if_neg, h1 k (by omega)]
      intro e
      have := Rng.pos_inj (r := r) (by omega) (by omega) (by omega) hin e
      omega
  · rw [hwr, if_neg (hj i (by omega))]
    exact h2 j fun k hk => hj k (by omega)

/-- C124, 2-state run time form: what the code does at every range based at 0, for every
value (canonical or not). With `st` the lower bound, index `st + k` receives what index
`k % st` held, so the low `st` bits are repeated over the slice; with `st = 0` nothing changes.
Every bit outside the slice, holder bits included, is kept. -/
theorem C124_runtime_exact (r : Rng) (x : Bits r.size s) (hr : r.lo = 0) (hR : r.hi < 2 ^ 31) (st en : Nat)
    (hse : st ≤ en) (he : (en : Int) ≤ r.hi) :
    ∃ y, x.updateRtSelf r en st = .ok y ∧ x.updateRtSelf r st en = .ok y ∧
      (∀ k : Nat, k ≤ en - st → y.bv.getLsbD (r.pos (st + k)) = x.bv.getLsbD (r.pos ((k % st : Nat) : Int))) ∧
      ∀ j, (∀ k : Nat, k ≤ en - st → j ≠ r.pos (st + k)) → y.raw j = x.raw j := by
  have hs := Lg.size_hi hr
  obtain ⟨y, hy, h1, h2⟩ := Bits.self_loop r x hr hR st (en + 1 - st) (by omega)
  refine ⟨y, ?_, ?_, fun k hk => ?_, fun j hj => h2 j fun k hk => hj k (by omega)⟩
  · rw [Bits.updateRtSelf]
    simp only
    rw [show min (en : Int) st = st by omega, show (max (en : Int) st + 1 - st).toNat = en + 1 - st by omega]
    exact hy
  · rw [Bits.updateRtSelf]
    simp only
    rw [show min (st : Int) en = st by omega, show (max (st : Int) en + 1 - st).toNat = en + 1 - st by omega]
    exact hy
  · have := mod_le' k st
    have p1 : r.pos ((st : Int) + k) < r.size := Rng.pos_lt (by omega) (by omega)
    have p2 : r.pos ((k % st : Nat) : Int) < r.size := Rng.pos_lt (by omega) (by omega)
    rw [Bits.getLsbD_bv y, Bits.getLsbD_bv x, h1 k (by omega), decide_eq_true p1, decide_eq_true p2]

/-- C124, where it holds: the slice starts at 0, or is not longer than its offset, so that
source and destination do not overlap. Missing: overlapping slices, for which it is false
(`C124_runtime_iff`, `C124_runtime_refuted`), and the constant form (`C124_constant_exact`). -/
theorem C124_runtime_partial (r : Rng) (x : Bits r.size s) (hr : r.lo = 0) (hR : r.hi < 2 ^ 31) (st en : Nat)
    (hse : st ≤ en) (he : (en : Int) ≤ r.hi) (hov : st = 0 ∨ en < 2 * st) :
    ∃ y, x.updateRtSelf r en st = .ok y ∧
      (∀ k : Nat, k ≤ en - st → y.bv.getLsbD (r.pos (st + k)) = x.bv.getLsbD (r.pos k)) ∧
      ∀ j, (∀ k : Nat, k ≤ en - st → j ≠ r.pos (st + k)) → y.raw j = x.raw j := by
  obtain ⟨y, hy, -, h1, h2⟩ := C124_runtime_exact r x hr hR st en hse he
  refine ⟨y, hy, fun k hk => ?_, h2⟩
  rw [h1 k hk]
  have : k % st = k := by
    rcases hov with rfl | h
    · exact Nat.mod_zero k
    · exact Nat.mod_eq_of_lt (by omega)
  rw [this]

/-- C124 is true of exactly the values whose low bits repeat with period `st` -/
theorem C124_runtime_iff (r : Rng) (x : Bits r.size s) (hr : r.lo = 0) (hR : r.hi < 2 ^ 31) (st en : Nat)
    (hse : st ≤ en) (he : (en : Int) ≤ r.hi) :
    (∃ y, x.updateRtSelf r en st = .ok y ∧
      ∀ k : Nat, k ≤ en - st → y.bv.getLsbD (r.pos (st + k)) = x.bv.getLsbD (r.pos k)) ↔
    ∀ k : Nat, k ≤ en - st → x.bv.getLsbD (r.pos k) = x.bv.getLsbD (r.pos ((k % st : Nat) : Int)) := by
  obtain ⟨y, hy, -, h1, -⟩ := C124_runtime_exact r x hr hR st en hse he
  constructor
  · rintro ⟨y', hy', h⟩ k hk
    rw [hy] at hy'
    injection hy' with hy'
    subst hy'
    rw [← h k hk, h1 k hk]
  · intro h
    exact ⟨y, hy, fun k hk => by rw [h1 k hk, h k hk]⟩

/-- every overlapping slice of every range has a canonical value it gets wrong -/
theorem C124_runtime_refuted (r : Rng) (hr : r.lo = 0) (hR : r.hi < 2 ^ 31) (st en : Nat)
    (h0 : 0 < st) (hov : 2 * st ≤ en) (he : (en : Int) ≤ r.hi) :
    ∃ x : Bits r.size s, x.Clean ∧
      ¬ ∃ y, x.updateRtSelf r en st = .ok y ∧
        ∀ k : Nat, k ≤ en - st → y.bv.getLsbD (r.pos (st + k)) = x.bv.getLsbD (r.pos k) := by
  have hs := Lg.size_hi hr
  have p0 : r.pos ((0 : Nat) : Int) < r.size := Rng.pos_lt (by omega) (by omega)
  obtain ⟨x, hx, hb⟩ := Bits.exists_clean (s := s) (BitVec.twoPow r.size (r.pos ((0 : Nat) : Int)))
  refine ⟨x, hx, ?_⟩
  rw [C124_runtime_iff r x hr hR st en (by omega) he]
  intro h
  have := h st (by omega)
  rw [Nat.mod_self, hb, BitVec.getLsbD_twoPow, BitVec.getLsbD_twoPow] at this
  simp only [p0, decide_true, Bool.true_and] at this
  have e : r.pos ((0 : Nat) : Int) = r.pos (st : Int) := by simpa using this
  have := Rng.pos_inj (r := r) (by omega) (by omega) (by omega) (by omega) e
  omega

/-- C124, 2-state constant form: the operand is read at the written index (C57), so the
assignment changes nothing at all; it agrees with the property only at `lo = 0` -/
theorem C124_constant_exact (r : Rng) (x : Bits r.size s) (hr : r.lo = 0) (hR : r.hi < 2 ^ 31) (st en : Nat)
    (hse : st ≤ en) (he : (en : Int) ≤ r.hi) :
    ∃ y, x.updateSelf r en st = .ok y ∧ ∀ j, y.raw j = x.raw j := by
  have hs := Lg.size_hi hr
  obtain ⟨y, hy, hP⟩ := loopM_induct 0 (en + 1 - st) x
    (fun k x => (x.get r ((st : Int) + (k : Nat))).bind fun b => x.setBit r (st + (k : Nat)) b)
    (fun _ y => ∀ j, y.raw j = x.raw j) (Nat.zero_le _) (fun _ => rfl) (by
      rintro i z - hi h1
      have hin : (st : Int) + i ≤ r.hi := by omega
      have hps : r.pos (st + i) < r.size := Rng.pos_lt (by omega) hin
      have hp := Bits.physIdx_pos hr (i := (st : Int) + i) (by omega) hin
      obtain ⟨w, hw, hwr⟩ := Bits.setBit_phys r z (st + i) _ hp hr hps (by omega) (z.raw (r.pos (st + i)))
      refine ⟨w, ?_, fun j => ?_⟩
      · rw [Bits.get_phys r z _ _ hp hps (by omega), res_bind_ok, ← hw, Bits.getLsbD_bv]
        simp [hps]
      · rw [hwr, ← h1 j]; split_ifs with e
        · rw [e]
        · rfl)
  refine ⟨y, ?_, hP⟩
  rw [Bits.updateSelf]
  simp only
  rw [show min (en : Int) st = st by omega, show (max (en : Int) st + 1 - st).toNat = en + 1 - st by omega]
  exact hy

/-! ## 4-state -/

private theorem Lg.self_loop (r : Rng) (x : Lg r.size s) (hr : r.lo = 0) (hR : r.hi < 2 ^ 31)
    (st d : Nat) (hd : (st : Int) + d ≤ r.hi + 1)
    (hk : ∀ k : Nat, k < d → k < 64 ∨ (x.at (r.pos ((k % st : Nat) : Int))).isKnown = true) :
    ∃ y, (loopM 0 d x fun k x => Lg.updateStep r st r x (st + (k : Nat)) x) = .ok y ∧
      (∀ k : Nat, k < d → y.at (r.pos (st + k)) = x.at (r.pos ((k % st : Nat) : Int))) ∧
      ∀ j, (∀ k : Nat, k < d → j ≠ r.pos (st + k)) → y.value.raw j = x.value.raw j ∧ y.xz.raw j = x.xz.raw j := by
  have hs := Lg.size_hi hr
  refine loopM_induct 0 d x _ (fun K (y : Lg r.size s) =>
    (∀ k : Nat, k < K → y.at (r.pos (st + k)) = x.at (r.pos ((k % st : Nat) : Int))) ∧
      ∀ j, (∀ k : Nat, k < K → j ≠ r.pos (st + k)) → y.value.raw j = x.value.raw j ∧ y.xz.raw j = x.xz.raw j)
    (Nat.zero_le _) ⟨fun k hk => absurd hk (by omega), fun j _ => ⟨rfl, rfl⟩⟩ ?_
  rintro i z - hi ⟨h1, h2⟩
  have hin : (st : Int) + i ≤ r.hi := by omega
  have hps : r.pos (st + i) < r.size := Rng.pos_lt (by omega) hin
  have hpi : r.pos (i : Int) < r.size := Rng.pos_lt (by omega) (by omega)
  have hphys : Bits.physIdx r (st + i) - r.lo = r.pos (st + i) := by
    rw [Bits.physIdx_pos hr (by omega) hin, hr]; omega
  have hread : z.at (r.pos (i : Int)) = x.at (r.pos ((i % st : Nat) : Int)) := by
    by_cases hlt : i < st ∨ st = 0
    · have hmod : i % st = i := by
        rcases hlt with h | rfl
        · exact Nat.mod_eq_of_lt h
        · exact Nat.mod_zero i
      rw [hmod, Lg.at_of_raw hpi, Lg.at_of_raw hpi]
      have := h2 (r.pos (i : Int)) fun k hk e => by
        have := Rng.pos_inj (r := r) (by omega) (by omega) (by omega) (by omega) e
        omega
      rw [this.1, this.2]
    · have := h1 (i - st) (by omega)
      rw [mod_ge (by omega)] at this
      rw [← this]
      congr 2
      omega
  have hkn : i < 64 ∨ (z.at (r.pos (i : Int))).isKnown = true := by rw [hread]; exact hk i hi
  obtain ⟨b, hb1, hb2⟩ := Lg.get_src r z hr hR i (by omega) hkn
  have hb3 : b.at 0 = x.at (r.pos ((i % st : Nat) : Int)) := by
    rw [hb2, Lg.src, if_pos (by omega), hread]
  obtain ⟨w, hw, hwv, hwk⟩ := Lg.setL_phys r z (st + i) _ hphys hps (by omega) b
  refine ⟨w, ?_, fun k hk' => ?_, fun j hj => ?_⟩
  · rw [Lg.updateStep_eq r r z rfl hr hR st i (by omega) z, if_pos (by omega), hb1, res_bind_ok, hw]
  · rw [Lg.at_write hps hwv hwk, Lg.hold1_at, hb3]
    by_cases hki : k = i
    · subst hki; rw [if_pos rfl]
    · rw [if_neg, h1 k (by omega)]
      intro e
      have := Rng.pos_inj (r := r) (by omega) (by omega) (by omega) hin e
      omega
  · have hj' := hj i (by omega)
    rw [hwv, hwk, if_neg hj', if_neg hj']
    exact h2 j fun k hk => hj k (by omega)

private theorem Lg.self_fault (r : Rng) (x : Lg r.size s) (hr : r.lo = 0) (hR : r.hi < 2 ^ 31)
    (st d : Nat) (hd : (st : Int) + d ≤ r.hi + 1) (hk : ∃ k : Nat, k < d ∧
      ¬ (k < 64 ∨ (x.at (r.pos ((k % st : Nat) : Int))).isKnown = true)) :
    (loopM 0 d x fun k x => Lg.updateStep r st r x (st + (k : Nat)) x) = .error .shift := by
  classical
  have hs := Lg.size_hi hr
  obtain ⟨hd0, hbad⟩ := Nat.find_spec hk
  have hmin : ∀ k, k < Nat.find hk → k < 64 ∨ (x.at (r.pos ((k % st : Nat) : Int))).isKnown = true := by
    intro k hk'
    have := Nat.find_min hk hk'
    by_contra hc
    exact this ⟨by omega, hc⟩
  generalize Nat.find hk = d0 at *
  obtain ⟨y, hy, h1, h2⟩ := Lg.self_loop r x hr hR st d0 (by omega) hmin
  have hpi : r.pos (d0 : Int) < r.size := Rng.pos_lt (by omega) (by omega)
  have hread : y.at (r.pos (d0 : Int)) = x.at (r.pos ((d0 % st : Nat) : Int)) := by
    by_cases hlt : d0 < st ∨ st = 0
    · have hmod : d0 % st = d0 := by
        rcases hlt with h | rfl
        · exact Nat.mod_eq_of_lt h
        · exact Nat.mod_zero d0
      rw [hmod, Lg.at_of_raw hpi, Lg.at_of_raw hpi]
      have := h2 (r.pos (d0 : Int)) fun k hk e => by
        have := Rng.pos_inj (r := r) (by omega) (by omega) (by omega) (by omega) e
        omega
      rw [this.1, this.2]
    · have := h1 (d0 - st) (by omega)
      rw [mod_ge (by omega)] at this
      rw [← this]
      congr 2
      omega
  have hf : Lg.updateStep r st r y (st + (d0 : Nat)) y = .error .shift := by
    rw [Lg.updateStep_eq r r y rfl hr hR st d0 (by omega) y, if_pos (by omega),
      Lg.get_fault r y hr hR d0 (by omega) (by rw [hread]; exact hbad)]
    rfl
  obtain ⟨j, rfl⟩ : ∃ j, d = d0 + (j + 1) := ⟨d - d0 - 1, by omega⟩
  clear hd hd0 hk
  induction j with
  | zero =>
    have := loopM_succ 0 d0 x (fun (k : Nat) x => Lg.updateStep r st r x (st + (k : Nat)) x)
    rw [Nat.zero_add, Nat.zero_add] at this
    rw [this, hy, res_bind_ok, hf]
  | succ j ih =>
    have := loopM_succ 0 (d0 + (j + 1)) x (fun (k : Nat) x => Lg.updateStep r st r x (st + (k : Nat)) x)
    rw [Nat.zero_add, Nat.zero_add] at this
    rw [show d0 + (j + 1 + 1) = d0 + (j + 1) + 1 by omega, this, ih]; rfl

/-- C124, 4-state, both forms: the low `st` bits are repeated over the slice, x and z
included, and nothing else changes; undefined behaviour exactly when an x or z is
read at an index of 64 or more (C02) -/
theorem C124_logic_exact (r : Rng) (x : Lg r.size s) (hr : r.lo = 0) (hR : r.hi < 2 ^ 31) (st en : Nat)
    (hse : st ≤ en) (he : (en : Int) ≤ r.hi) :
    ((∀ k : Nat, k ≤ en - st → 64 ≤ k → (x.at (r.pos ((k % st : Nat) : Int))).isKnown = true) →
      ∃ y, x.updateSelf r en st = .ok y ∧
        (∀ k : Nat, k ≤ en - st → y.at (r.pos (st + k)) = x.at (r.pos ((k % st : Nat) : Int))) ∧
        ∀ j, (∀ k : Nat, k ≤ en - st → j ≠ r.pos (st + k)) →
          y.value.raw j = x.value.raw j ∧ y.xz.raw j = x.xz.raw j) ∧
    ((∃ k : Nat, k ≤ en - st ∧ 64 ≤ k ∧ (x.at (r.pos ((k % st : Nat) : Int))).isKnown = false) →
      x.updateSelf r en st = .error .shift) := by
  have hs := Lg.size_hi hr
  have hun : x.updateSelf r en st = loopM 0 (en + 1 - st) x fun k x => Lg.updateStep r st r x (st + (k : Nat)) x := by
    rw [Lg.updateSelf]
    rw [show min (en : Int) st = st by omega, show (max (en : Int) st + 1 - st).toNat = en + 1 - st by omega]
  rw [hun]
  constructor
  · intro h
    obtain ⟨y, hy, h1, h2⟩ := Lg.self_loop r x hr hR st (en + 1 - st) (by omega) fun k hk => by
      by_cases h64 : k < 64
      · exact Or.inl h64
      · exact Or.inr (h k (by omega) (by omega))
    exact ⟨y, hy, fun k hk => h1 k (by omega), fun j hj => h2 j fun k hk => hj k (by omega)⟩
  · rintro ⟨k, hk1, hk2, hk3⟩
    exact Lg.self_fault r x hr hR st _ (by omega) ⟨k, by omega, by rw [hk3]; simp; omega⟩

/-- C124, 4-state, where it holds. Missing: overlapping slices, for which it is false
(`C124_logic_exact`, `C124_logic_refuted`), and x or z at an index of 64 and more, which is
undefined. -/
theorem C124_logic_partial (r : Rng) (x : Lg r.size s) (hr : r.lo = 0) (hR : r.hi < 2 ^ 31) (st en : Nat)
    (hse : st ≤ en) (he : (en : Int) ≤ r.hi) (hov : st = 0 ∨ en < 2 * st)
    (hk : ∀ k : Nat, k ≤ en - st → 64 ≤ k → (x.at (r.pos k)).isKnown = true) :
    ∃ y, x.updateSelf r en st = .ok y ∧
      (∀ k : Nat, k ≤ en - st → y.at (r.pos (st + k)) = x.at (r.pos k)) ∧
      ∀ j, (∀ k : Nat, k ≤ en - st → j ≠ r.pos (st + k)) →
        y.value.raw j = x.value.raw j ∧ y.xz.raw j = x.xz.raw j := by
  have hmod : ∀ k : Nat, k ≤ en - st → k % st = k := by
    intro k hk
    rcases hov with rfl | h
    · exact Nat.mod_zero k
    · exact Nat.mod_eq_of_lt (by omega)
  obtain ⟨y, hy, h1, h2⟩ := (C124_logic_exact r x hr hR st en hse he).1 fun k h1 h2 => by
    rw [hmod k h1]; exact hk k h1 h2
  exact ⟨y, hy, fun k hk => by rw [h1 k hk, hmod k hk], h2⟩

/-- every overlapping slice of every range has a canonical value without x or z it gets wrong -/
theorem C124_logic_refuted (r : Rng) (hr : r.lo = 0) (hR : r.hi < 2 ^ 31) (st en : Nat)
    (h0 : 0 < st) (hov : 2 * st ≤ en) (he : (en : Int) ≤ r.hi) :
    ∃ x : Lg r.size s, x.Clean ∧ (∀ i, i < r.size → (x.at i).isKnown = true) ∧
      ∃ y, x.updateSelf r en st = .ok y ∧
        ∃ k : Nat, k ≤ en - st ∧ y.at (r.pos (st + k)) ≠ x.at (r.pos k) := by
  have hs := Lg.size_hi hr
  obtain ⟨x, hx, hb⟩ := Lg.exists_clean r.size s fun i => if i = r.pos ((0 : Nat) : Int) then .b1 else .b0
  have hk : ∀ i, i < r.size → (x.at i).isKnown = true := by
    intro i hi; rw [hb i hi]; split_ifs <;> rfl
  refine ⟨x, hx, hk, ?_⟩
  obtain ⟨y, hy, h1, -⟩ := (C124_logic_exact r x hr hR st en (by omega) he).1 fun k hk1 _ =>
    hk _ (Rng.pos_lt (by omega) (by have := mod_le' k st; omega))
  refine ⟨y, hy, st, by omega, ?_⟩
  have p0 : r.pos ((0 : Nat) : Int) < r.size := Rng.pos_lt (by omega) (by omega)
  have p1 : r.pos (st : Int) < r.size := Rng.pos_lt (by omega) (by omega)
  rw [h1 st (by omega), Nat.mod_self, hb _ p0, if_pos rfl, hb _ p1, if_neg]
  · decide
  · intro e
    have := Rng.pos_inj (r := r) (by omega) (by omega) (by omega) (by omega) e
    omega

/-- `logic<7, 0> x = 8'b0000_0110; x.slice_ref(7, 2) = x` gives `8'b1010_1010`, not `8'b0001_1010` -/
example : (((Bits.mkN (n := 8) (s := false) (by decide) (.int 6)).updateRtSelf ⟨7, 0⟩ 7 2).map (·.bv)) = .ok 0xAA#8 := by
  decide +kernel

/-- the disjoint half: `x.slice_ref(7, 4) = x` copies the low half -/
example : (((Bits.mkN (n := 8) (s := false) (by decide) (.int 6)).updateRtSelf ⟨7, 0⟩ 7 4).map (·.bv)) = .ok 0x66#8 := by
  decide +kernel

example : (⟨7, 0⟩ : Rng).lo = 0 ∧ (⟨7, 0⟩ : Rng).hi < 2 ^ 31 ∧ ((7 : Nat) : Int) ≤ (⟨7, 0⟩ : Rng).hi := by decide

end Verif
