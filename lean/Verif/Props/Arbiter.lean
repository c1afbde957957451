import Verif.Props.Idioms
import Verif.Props.Expr

/-!
# A program: a round robin arbiter (C216)

`h = req & mask; g = h != 0 ? h & (~h + 1) : req & (~req + 1); mask = ~(g | (g - 1));` once per clock. At most one requester
is served, one is served if there is any, and nobody who keeps asking waits for `n` clocks.
-/

namespace Verif

variable {n : Nat}

/-- the grant -/
def Bits.grant (mask req : Bits n false) : Res (Bits n false) :=
  if Bits.ne (n := n) (s := false) (m := n) (t := false) (req.and mask) (Bits.zero : Bits n false) then
    Bits.lowest (n := n) (req.and mask) else req.lowest

/-- `~(g | (g - 1))`: the positions above the one served -/
def Bits.maskAbove (g : Bits n false) : Res (Bits n false) :=
  (g.sub (Bits.oneN n)).map fun (d : Bits n false) => Bits.not (s := false) (g.or d)

/-- one clock: the grant and the next mask -/
def Bits.arbStep (mask req : Bits n false) : Res (Bits n false × Bits n false) :=
  (mask.grant req).bind fun g => g.maskAbove.map fun m => (g, m)

/-- the mask before clock `t`, reset to zero -/
def Bits.arbMask (reqs : Nat → Bits n false) : Nat → Res (Bits n false)
  | 0 => .ok Bits.zero
  | t + 1 => (Bits.arbMask reqs t).bind fun m => (m.arbStep (reqs t)).map (·.2)

/-- the grant at clock `t` -/
def Bits.arbGrant (reqs : Nat → Bits n false) (t : Nat) : Res (Bits n false) :=
  (Bits.arbMask reqs t).bind fun m => (m.arbStep (reqs t)).map (·.1)

/-- the mask selects the positions from `p` on -/
def From (m : BitVec n) (p : Nat) : Prop := ∀ i, i < n → m.getLsbD i = decide (p ≤ i)

theorem BitVec.eq_twoPow {b : BitVec n} {k : Nat} (h : ∀ i, b.getLsbD i = true ↔ i = k) : b.toNat = 2 ^ k := by
  apply Nat.eq_of_testBit_eq
  intro i
  rw [Nat.testBit_two_pow]
  have := h i
  rw [BitVec.getLsbD] at this
  rw [Bool.eq_iff_iff, this, decide_eq_true_iff]
  exact eq_comm

theorem Bits.maskAbove_spec (h1 : 1 < n) (g : Bits n false) :
    ∃ m, g.maskAbove = .ok m ∧ ((∀ i, g.bv.getLsbD i = false) → From (Bits.bv (s := false) m) n) ∧
      ∀ k, k < n → (∀ i, g.bv.getLsbD i = true ↔ i = k) → From (Bits.bv (s := false) m) (k + 1) := by
  obtain ⟨d, hd, ed⟩ := C29_sub_partial (by omega) g (Bits.oneN n) (by simp)
  have ed : Bits.bv (s := false) d = g.bv - (Bits.oneN n).bv := ed
  have h2 : 1 < 2 ^ n := Nat.one_lt_two_pow (by omega)
  have h1n : (1 : BitVec n).toNat = 1 := by
    show (BitVec.ofNat n 1).toNat = 1
    rw [BitVec.toNat_ofNat, Nat.mod_eq_of_lt h2]
  have e : Bits.bv (s := false) (Bits.not (s := false) (g.or d)) = ~~~ (g.bv ||| (g.bv - 1)) := by
    rw [Bits.bv_not (by omega)]
    have := Bits.bv_or (n := n) (s := false) (t := false) g d
    rw [show (Bits.bv (s := false) (g.or d)) = g.bv ||| Bits.bv (s := false) d from this, ed, (Bits.oneN_spec (by omega)).2]
  refine ⟨_, by rw [Bits.maskAbove, hd, res_map_ok], fun hz i hi => ?_, fun k hk hg i hi => ?_⟩
  · have : g.bv = 0 := by
      apply BitVec.eq_of_getLsbD_eq
      intro i _; rw [hz]; simp
    rw [e, this, decide_eq_false (by omega), BitVec.getLsbD_not, decide_eq_true hi, Bool.true_and, BitVec.getLsbD_or]
    have : (0 - 1 : BitVec n) = BitVec.allOnes n := by
      apply BitVec.eq_of_toNat_eq
      rw [BitVec.toNat_sub, h1n, BitVec.toNat_allOnes]
      simp
    rw [this, BitVec.getLsbD_allOnes, decide_eq_true hi, Bool.or_true]; rfl
  · have hp := BitVec.eq_twoPow hg
    have hle : 2 ^ k < 2 ^ n := Nat.pow_lt_pow_right (by decide) hk
    have hpos : 0 < 2 ^ k := Nat.two_pow_pos k
    rw [e, BitVec.getLsbD_not, decide_eq_true hi, Bool.true_and, BitVec.getLsbD_or]
    have : (g.bv - 1).toNat = 2 ^ k - 1 := by
      rw [BitVec.toNat_sub, h1n, hp, show 2 ^ n - 1 + 2 ^ k = (2 ^ k - 1) + 2 ^ n by omega, Nat.add_mod_right, Nat.mod_eq_of_lt (by omega)]
    rw [BitVec.getLsbD, BitVec.getLsbD, this, hp, Nat.testBit_two_pow, Nat.testBit_two_pow_sub_one, Bool.eq_iff_iff]
    simp only [Bool.not_eq_true', Bool.or_eq_false_iff, decide_eq_false_iff_not, decide_eq_true_iff]
    omega

/-- the lowest one of a vector, by its position -/
theorem Bits.lowest_pos (h1 : 1 < n) (x : Bits n false) {p : Nat} (hp : x.bv.getLsbD p = true) :
    ∃ z k, x.lowest = .ok z ∧ k < n ∧ (∀ i, z.bv.getLsbD i = true ↔ i = k) ∧ x.bv.getLsbD k = true ∧
      ∀ j, j < k → x.bv.getLsbD j = false := by
  obtain ⟨z, hz, e⟩ := C177_lowest h1 x
  have hex : ∃ p, x.bv.getLsbD p = true := ⟨p, hp⟩
  have h0 := Nat.find_spec hex
  have hm : ∀ j, j < Nat.find hex → x.bv.getLsbD j = false := fun j hj => by
    have := Nat.find_min hex hj
    simpa using this
  refine ⟨z, Nat.find hex, hz, BitVec.lt_of_getLsbD h0, fun i => ?_, h0, hm⟩
  rw [e]
  constructor
  · rintro ⟨a, b⟩
    rcases Nat.lt_trichotomy i (Nat.find hex) with c | c | c
    · rw [hm i c] at a; cases a
    · exact c
    · rw [b _ c] at h0; cases h0
  · rintro rfl; exact ⟨h0, hm⟩

/-- **C216, one clock.** With the mask at the positions from `p` on, the grant is the lowest requester from `p` on, or the
lowest of all if there is none, and the next mask starts above it; without requests there is no grant. -/
theorem C216_step (h1 : 1 < n) (mask req : Bits n false) (hc : req.Clean) {p : Nat} (hm : From mask.bv p) :
    ∃ g m, mask.arbStep req = .ok (g, m) ∧
      ((∀ i, req.bv.getLsbD i = false) → (∀ i, g.bv.getLsbD i = false) ∧ From m.bv n) ∧
      ∀ q, req.bv.getLsbD q = true → ∃ k, k < n ∧ (∀ i, g.bv.getLsbD i = true ↔ i = k) ∧ req.bv.getLsbD k = true ∧ From m.bv (k + 1) ∧
        (p ≤ k ∧ (∀ j, p ≤ j → j < k → req.bv.getLsbD j = false) ∨
         k < p ∧ (∀ j, p ≤ j → req.bv.getLsbD j = false) ∧ ∀ j, j < k → req.bv.getLsbD j = false) := by
  have hband : Bits.bv (s := false) (req.and mask) = req.bv &&& mask.bv := Bits.bv_and (by omega) req mask
  have hcl : Bits.Clean (s := false) (req.and mask) := Bits.clean_and_of (by omega) req mask (Or.inl hc)
  have hz : ∀ i, (Bits.bv (s := false) (req.and mask)).getLsbD i = (req.bv.getLsbD i && decide (p ≤ i)) := by
    intro i
    rw [hband, BitVec.getLsbD_and]
    by_cases hi : i < n
    · rw [hm i hi]
    · rw [BitVec.getLsbD_of_ge _ _ (by omega)]; simp
  have hne : Bits.ne (n := n) (s := false) (m := n) (t := false) (req.and mask) (Bits.zero : Bits n false) = true ↔
      ∃ i, p ≤ i ∧ req.bv.getLsbD i = true := by
    rw [Bits.ne, Bool.not_eq_true', ← Bool.not_eq_true, C38_eq_same_sign (s := false) (by omega) (by simp) (req.and mask) _ hcl Bits.clean_zero]
    push Not
    constructor
    · rintro ⟨i, hi, h⟩
      rw [hz, Bits.bv_zero] at h
      refine ⟨i, ?_⟩
      simpa [and_comm] using h
    · rintro ⟨i, hp, hr⟩
      refine ⟨i, BitVec.lt_of_getLsbD hr, ?_⟩
      rw [hz, Bits.bv_zero, hr, decide_eq_true hp]; simp
  by_cases hex : ∃ i, p ≤ i ∧ req.bv.getLsbD i = true
  · obtain ⟨i, hp, hr⟩ := hex
    have hi : (Bits.bv (s := false) (req.and mask)).getLsbD i = true := by rw [hz, hr, decide_eq_true hp]; rfl
    obtain ⟨g, k, hg, hk, eg, hb, hlow⟩ := Bits.lowest_pos h1 (req.and mask : Bits n false) hi
    obtain ⟨m, hmm, -, hm2⟩ := Bits.maskAbove_spec h1 g
    refine ⟨g, m, ?_, fun h => (by rw [h] at hr; cases hr), fun q hq => ?_⟩
    · rw [Bits.arbStep, Bits.grant, if_pos (hne.2 ⟨i, hp, hr⟩), hg, res_bind_ok, hmm, res_map_ok]
    · rw [hz, Bool.and_eq_true, decide_eq_true_iff] at hb
      refine ⟨k, hk, eg, hb.1, hm2 k hk eg, Or.inl ⟨hb.2, fun j hj hjk => ?_⟩⟩
      have := hlow j hjk
      rwa [hz, decide_eq_true hj, Bool.and_true] at this
  · have hno : ∀ j, p ≤ j → req.bv.getLsbD j = false := fun j hj => by
      rw [← Bool.not_eq_true]; exact fun h => hex ⟨j, hj, h⟩
    by_cases hr : ∃ q, req.bv.getLsbD q = true
    · obtain ⟨q, hq⟩ := hr
      obtain ⟨g, k, hg, hk, eg, hb, hlow⟩ := Bits.lowest_pos h1 req hq
      obtain ⟨m, hmm, -, hm2⟩ := Bits.maskAbove_spec h1 g
      refine ⟨g, m, ?_, fun h => (by rw [h] at hq; cases hq), fun _ _ => ⟨k, hk, eg, hb, hm2 k hk eg, Or.inr ⟨?_, hno, hlow⟩⟩⟩
      · rw [Bits.arbStep, Bits.grant, if_neg (fun h => hex (hne.1 h)), hg, res_bind_ok, hmm, res_map_ok]
      · by_contra hc
        rw [hno k (by omega)] at hb; cases hb
    · obtain ⟨g, hg, eg⟩ := C177_lowest h1 req
      obtain ⟨m, hmm, hm1, -⟩ := Bits.maskAbove_spec h1 g
      have hg0 : ∀ i, g.bv.getLsbD i = false := fun i => by
        rw [← Bool.not_eq_true, eg]; exact fun h => hr ⟨i, h.1⟩
      refine ⟨g, m, ?_, fun _ => ⟨hg0, hm1 hg0⟩, fun q hq => absurd ⟨q, hq⟩ hr⟩
      rw [Bits.arbStep, Bits.grant, if_neg (fun h => hex (hne.1 h)), hg, res_bind_ok, hmm, res_map_ok]

/-- every reachable mask selects the positions from some `p` on -/
theorem Bits.arbMask_from (h1 : 1 < n) (reqs : Nat → Bits n false) (hc : ∀ t, (reqs t).Clean) (t : Nat) :
    ∃ m p, Bits.arbMask reqs t = .ok m ∧ p ≤ n ∧ From m.bv p := by
  induction t with
  | zero => exact ⟨Bits.zero, n, rfl, le_refl _, fun i hi => by rw [Bits.bv_zero, decide_eq_false (by omega)]; simp⟩
  | succ t ih =>
    obtain ⟨m, p, hm, hp, hf⟩ := ih
    obtain ⟨g, m', hs, h0, h2⟩ := C216_step h1 m (reqs t) (hc t) hf
    have e : Bits.arbMask reqs (t + 1) = .ok m' := by rw [Bits.arbMask, hm, res_bind_ok, hs, res_map_ok]
    by_cases hr : ∃ q, (reqs t).bv.getLsbD q = true
    · obtain ⟨q, hq⟩ := hr
      obtain ⟨k, hk, -, -, hf', -⟩ := h2 q hq
      exact ⟨m', k + 1, e, hk, hf'⟩
    · exact ⟨m', n, e, le_refl _, (h0 fun i => by rw [← Bool.not_eq_true]; exact fun h => hr ⟨i, h⟩).2⟩

/-- **C216, safety.** At every clock of every run, the grant goes to at most one, to a requester only, and to some requester if
there is one. -/
theorem C216_safe (h1 : 1 < n) (reqs : Nat → Bits n false) (hc : ∀ t, (reqs t).Clean) (t : Nat) :
    ∃ g, Bits.arbGrant reqs t = .ok g ∧ (∀ i, g.bv.getLsbD i = true → (reqs t).bv.getLsbD i = true) ∧
      (∀ i j, g.bv.getLsbD i = true → g.bv.getLsbD j = true → i = j) ∧
      ((∃ i, (reqs t).bv.getLsbD i = true) → ∃ i, g.bv.getLsbD i = true) := by
  obtain ⟨m, p, hm, -, hf⟩ := Bits.arbMask_from h1 reqs hc t
  obtain ⟨g, m', hs, h0, h2⟩ := C216_step h1 m (reqs t) (hc t) hf
  refine ⟨g, by rw [Bits.arbGrant, hm, res_bind_ok, hs, res_map_ok], ?_⟩
  by_cases hr : ∃ q, (reqs t).bv.getLsbD q = true
  · obtain ⟨q, hq⟩ := hr
    obtain ⟨k, -, hg, hk, -⟩ := h2 q hq
    exact ⟨fun i hi => by rw [(hg i).1 hi]; exact hk, fun i j hi hj => by rw [(hg i).1 hi, (hg j).1 hj], fun _ => ⟨k, (hg k).2 rfl⟩⟩
  · have hz := (h0 fun i => by rw [← Bool.not_eq_true]; exact fun h => hr ⟨i, h⟩).1
    exact ⟨fun i hi => (by rw [hz] at hi; cases hi), fun i j hi => (by rw [hz] at hi; cases hi), fun h => absurd h hr⟩

/-- positions between the mask and a requester, cyclically -/
def turnDist (n p i : Nat) : Nat := if p ≤ i then i - p else i + n - p

theorem Bits.arb_wait (h1 : 1 < n) (reqs : Nat → Bits n false) (hc : ∀ t, (reqs t).Clean) (i : Nat) (hi : i < n) :
    ∀ d t m p, Bits.arbMask reqs t = .ok m → p ≤ n → From m.bv p → turnDist n p i ≤ d →
      (∀ u, t ≤ u → u ≤ t + d → (reqs u).bv.getLsbD i = true) →
      ∃ u g, t ≤ u ∧ u ≤ t + d ∧ Bits.arbGrant reqs u = .ok g ∧ g.bv.getLsbD i = true := by
  intro d
  induction d with
  | zero =>
    intro t m p hm hp hf hd hr
    obtain ⟨g, m', hs, -, h2⟩ := C216_step h1 m (reqs t) (hc t) hf
    obtain ⟨k, hk, hg, hkr, hf', hcase⟩ := h2 i (hr t (by omega) (by omega))
    refine ⟨t, g, by omega, by omega, by rw [Bits.arbGrant, hm, res_bind_ok, hs, res_map_ok], ?_⟩
    rw [hg]
    have hri := hr t (by omega) (by omega)
    rw [turnDist] at hd
    split_ifs at hd with hpi
    · rcases hcase with ⟨a, b⟩ | ⟨a, b, c⟩
      · by_contra hne
        rcases Nat.lt_or_gt_of_ne hne with h | h
        · rw [b i hpi h] at hri; cases hri
        · omega
      · rw [b i hpi] at hri; cases hri
    · rcases hcase with ⟨a, b⟩ | ⟨a, b, c⟩
      · omega
      · by_contra hne
        rw [c i (by omega)] at hri; cases hri
  | succ d ih =>
    intro t m p hm hp hf hd hr
    obtain ⟨g, m', hs, -, h2⟩ := C216_step h1 m (reqs t) (hc t) hf
    have hri := hr t (by omega) (by omega)
    obtain ⟨k, hk, hg, hkr, hf', hcase⟩ := h2 i hri
    by_cases hki : i = k
    · exact ⟨t, g, by omega, by omega, by rw [Bits.arbGrant, hm, res_bind_ok, hs, res_map_ok], (hg i).2 hki⟩
    · have e : Bits.arbMask reqs (t + 1) = .ok m' := by rw [Bits.arbMask, hm, res_bind_ok, hs, res_map_ok]
      have hdd : turnDist n (k + 1) i ≤ d := by
        rw [turnDist] at hd ⊢
        rcases hcase with ⟨a, b⟩ | ⟨a, b, c⟩
        · by_cases hpi : p ≤ i
          · have : k < i := by
              by_contra hc
              rw [b i hpi (by omega)] at hri; cases hri
            rw [if_pos hpi] at hd
            rw [if_pos (by omega)]; omega
          · rw [if_neg hpi] at hd
            rw [if_neg (by omega)]; omega
        · have hpi : ¬ p ≤ i := fun h => by rw [b i h] at hri; cases hri
          have : k < i := by
            by_contra hc
            rw [c i (by omega)] at hri; cases hri
          rw [if_neg hpi] at hd
          rw [if_pos (by omega)]; omega
      obtain ⟨u, g', h3, h4, h5, h6⟩ := ih (t + 1) m' (k + 1) e hk hf' hdd (fun u a b => hr u (by omega) (by omega))
      exact ⟨u, g', by omega, by omega, h5, h6⟩

/-- **C216, fairness.** In every run, whoever asks during `n` clocks in a row is served in one of them. -/
theorem C216_fair (h1 : 1 < n) (reqs : Nat → Bits n false) (hc : ∀ t, (reqs t).Clean) (i t : Nat) (hi : i < n)
    (hr : ∀ u, t ≤ u → u < t + n → (reqs u).bv.getLsbD i = true) :
    ∃ u g, t ≤ u ∧ u < t + n ∧ Bits.arbGrant reqs u = .ok g ∧ g.bv.getLsbD i = true := by
  obtain ⟨m, p, hm, hp, hf⟩ := Bits.arbMask_from h1 reqs hc t
  obtain ⟨u, g, h3, h4, h5, h6⟩ := Bits.arb_wait h1 reqs hc i hi (n - 1) t m p hm hp hf
    (by rw [turnDist]; split_ifs <;> omega) (fun u a b => hr u a (by omega))
  exact ⟨u, g, h3, by omega, h5, h6⟩

/-- three requesters of four who always ask are served in turn -/
example : (List.range 6).map (fun t => (Bits.arbGrant (fun _ => (Bits.ofInt 0b1011 : Bits 4 false)) t).map (·.bv.toNat)) =
    [.ok 1, .ok 2, .ok 8, .ok 1, .ok 2, .ok 8] := by decide +kernel

end Verif
