import Verif.Props.Conservative
import Verif.Props.Programs
import Verif.Props.Tristate
import Verif.Props.Slice
import Verif.Props.Update

/-!
# A program: the 4-state shift register (C207)

`q = q << 1; q.set(0, d);` once per input. In a simulator the register holds the last `n` inputs after `n`
cycles, whatever it held before. With the shift of the library one x makes all bits x, so a register that
starts unset never holds anything but its last input. Moving the bits by a part-select works.
-/

namespace Verif

variable {n : Nat}

/-- the shift amount `logic<31, 0>(1)` -/
def Lg.oneAmount : Lg 32 false := ⟨amount 1, Bits.zero⟩

/-- `q = q << 1; q.set(0, d);` -/
def Lg.shiftIn (q : Lg n false) (d : Lg 1 false) : Res (Lg n false) :=
  (q.shl Lg.oneAmount).bind fun q => q.setL (Rng.down n) (0 : Nat) d

/-- `q.update(n-1, 1, q.slice<n-1>(n-2, 0)); q.set(0, d);` -/
def Lg.selectIn (q : Lg n false) (d : Lg 1 false) : Res (Lg n false) :=
  (q.sliceRt (Rng.down n) (n - 1) (n - 2 : Nat) (0 : Nat)).bind fun p =>
  (q.updateRt (Rng.down n) (n - 1 : Nat) (1 : Nat) (Rng.down (n - 1)) p).bind fun q => q.setL (Rng.down n) (0 : Nat) d

/-- one cycle per input -/
def Lg.clock (f : Lg n false → Lg 1 false → Res (Lg n false)) (q : Lg n false) : List (Lg 1 false) → Res (Lg n false)
  | [] => .ok q
  | d :: ds => (f q d).bind fun q => clock f q ds

/-- what a register of bits `q` holds after the inputs `ds`: the inputs, the last one at 0, then `q` -/
def shifted (q : Nat → V4) (ds : List V4) (i : Nat) : V4 :=
  if i < ds.length then ds.getD (ds.length - 1 - i) .x else q (i - ds.length)

theorem shifted_cons {q r : Nat → V4} {d : V4} (ds : List V4) {i : Nat}
    (h : ∀ j, j ≤ i → r j = if j = 0 then d else q (j - 1)) : shifted r ds i = shifted q (d :: ds) i := by
  rw [shifted, shifted, List.length_cons]
  by_cases h1 : i < ds.length
  · rw [if_pos h1, if_pos (by omega), show ds.length + 1 - 1 - i = (ds.length - 1 - i) + 1 by omega, List.getD_cons_succ]
  · rw [if_neg h1, h _ (by omega)]
    by_cases h2 : i = ds.length
    · rw [if_pos (by omega), if_pos (by omega), show ds.length + 1 - 1 - i = 0 by omega, List.getD_cons_zero]
    · rw [if_neg (by omega), if_neg (by omega), Nat.sub_sub]

theorem Lg.oneAmount_spec : Lg.oneAmount.Known ∧ Lg.oneAmount.value.Clean ∧ numOf false Lg.oneAmount.value.bv = (1 : Nat) :=
  ⟨Lg.known_zero _, (amount_spec (by decide)).1, (amount_spec (i := 1) (by decide)).2⟩

theorem Lg.clock_spec {f : Lg n false → Lg 1 false → Res (Lg n false)} (P : Lg n false → Prop) (D : Lg 1 false → Prop)
    (hf : ∀ q d, P q → D d → ∃ r, f q d = .ok r ∧ P r ∧ ∀ i, i < n → r.at i = if i = 0 then d.at 0 else q.at (i - 1))
    (ds : List (Lg 1 false)) (hd : ∀ d ∈ ds, D d) (q : Lg n false) (hq : P q) :
    ∃ r, q.clock f ds = .ok r ∧ P r ∧ ∀ i, i < n → r.at i = shifted q.at (ds.map fun d => d.at 0) i := by
  induction ds generalizing q with
  | nil => exact ⟨q, rfl, hq, fun i _ => by simp [shifted]⟩
  | cons d ds ih =>
    obtain ⟨r, hr, hp, hb⟩ := hf q d hq (hd d (by simp))
    obtain ⟨z, hz, hzp, hzb⟩ := ih (fun e he => hd e (by simp [he])) r hp
    refine ⟨z, by rw [Lg.clock, hr, res_bind_ok, hz], hzp, fun i hi => ?_⟩
    rw [hzb i hi, List.map_cons]
    exact shifted_cons _ fun j hj => hb j (by omega)

theorem Lg.setL_zero_at (hn : 0 < n) (hN : n ≤ 2 ^ 32) (q : Lg n false) (d : Lg 1 false) :
    ∃ r, q.setL (Rng.down n) (0 : Nat) d = .ok r ∧ (q.Known → (d.at 0).isKnown = true → r.Known) ∧
      ∀ j, r.at j = if j = 0 then d.at 0 else q.at j := by
  obtain ⟨r, hr, hb⟩ := (Lg.set_down hn hN q 0 hn).2.2 d
  refine ⟨r, hr, fun hq hd => ?_, hb⟩
  obtain ⟨r', hr', -, hx⟩ := Lg.setL_phys (Rng.down n) q (0 : Nat) 0
    (by rw [Bits.physIdx_down hn, Rng.lo_down hn]; simp) hn hN d
  rw [hr] at hr'
  rw [Except.ok.inj hr', Lg.known_iff]
  intro i
  rw [hx]
  by_cases h : i = 0
  · rw [if_pos h]
    rw [← Lg.hold1_at] at hd
    revert hd
    cases Lg.hold1 d.value <;> cases Lg.hold1 d.xz <;> decide
  · rw [if_neg h, hq.raw]

/-- **C207, partial.** From a register without x and z, with inputs that are 0 or 1, the register holds the
inputs in their order. Missing: x and z, see `C207_shift_refuted`. -/
theorem C207_shift_partial (h1 : 1 < n) (hN : n ≤ 2 ^ 32) (q : Lg n false) (hq : q.Known) (ds : List (Lg 1 false))
    (hd : ∀ d ∈ ds, (d.at 0).isKnown = true) :
    ∃ r, q.clock Lg.shiftIn ds = .ok r ∧ ∀ i, i < n → r.at i = shifted q.at (ds.map fun d => d.at 0) i := by
  obtain ⟨r, hr, -, hb⟩ := Lg.clock_spec (f := Lg.shiftIn) Lg.Known (fun d => (d.at 0).isKnown = true) (fun q d hq hd => by
    obtain ⟨k1, k2, k3⟩ := Lg.oneAmount_spec
    obtain ⟨v, hv, ev⟩ := C25_shl_partial hN q.value Lg.oneAmount.value k2 1 k3 (fun h => ⟨by decide, h1, by split_ifs <;> omega⟩)
    obtain ⟨z, hz, zk, -⟩ := (C15_shift (by omega) q Lg.oneAmount hq k1 v).2.1 hv
    obtain ⟨w, hw, hwb⟩ := C25_shl_logic_partial (by omega) hN q Lg.oneAmount hq k1 k2 1 k3 (fun h => ⟨by decide, h1, by split_ifs <;> omega⟩)
    rw [hz] at hw
    rw [← Except.ok.inj hw] at hwb
    obtain ⟨r, hr, rk, rb⟩ := Lg.setL_zero_at (by omega) hN z d
    refine ⟨r, by rw [Lg.shiftIn, hz, res_bind_ok]; exact hr, rk zk hd, fun i hi => ?_⟩
    rw [rb]
    by_cases h : i = 0
    · rw [if_pos h, if_pos h]
    · rw [if_neg h, if_neg h, hwb i hi, if_pos (by omega)]) ds hd q hq
  exact ⟨r, hr, hb⟩

/-- **C207 is false with an x or z in the register**: at every width above one, a register in which one
of the bits the emptiness test looks at is x or z (so every register that was not set) holds, after any number
of inputs, its last input and x everywhere else. -/
theorem C207_shift_refuted (h1 : 1 < n) (hN : n ≤ 2 ^ 32) (q : Lg n false) (hq : q.SeenXZ) (ds : List (Lg 1 false)) (d : Lg 1 false) :
    ∃ r, q.clock Lg.shiftIn (ds ++ [d]) = .ok r ∧ r.at 0 = d.at 0 ∧ ∀ i, 0 < i → i < n → r.at i = .x := by
  have step : ∀ (q : Lg n false) (d : Lg 1 false), q.SeenXZ →
      ∃ r, q.shiftIn d = .ok r ∧ r.SeenXZ ∧ r.at 0 = d.at 0 ∧ ∀ i, 0 < i → i < n → r.at i = .x := by
    intro q d hq
    obtain ⟨-, ⟨z, hz, zb⟩, -⟩ := C27_shift_x_partial (by omega) q Lg.oneAmount (Or.inl hq)
    obtain ⟨r, hr, -, rb⟩ := Lg.setL_zero_at (by omega) hN z d
    have hx : ∀ i, 0 < i → i < n → r.at i = .x := fun i h0 hi => by rw [rb, if_neg (by omega), zb i hi]
    exact ⟨r, by rw [Lg.shiftIn, hz, res_bind_ok]; exact hr, ⟨1, h1, Or.inr (by decide), by rw [hx 1 (by decide) h1]; rfl⟩,
      by rw [rb, if_pos rfl], hx⟩
  induction ds generalizing q with
  | nil =>
    obtain ⟨r, hr, -, h⟩ := step q d hq
    exact ⟨r, by rw [List.nil_append, Lg.clock, hr, res_bind_ok, Lg.clock], h⟩
  | cons e ds ih =>
    obtain ⟨r, hr, hs, -⟩ := step q e hq
    obtain ⟨z, hz, h⟩ := ih r hs
    exact ⟨z, by rw [List.cons_append, Lg.clock, hr, res_bind_ok, hz], h⟩

/-- a register of 4 bits that was not set, after the inputs 1 0 1 1 -/
example : ((Lg.dflt : Res (Lg 4 false)).bind fun q => q.clock Lg.shiftIn [Lg.one1, Lg.zero1, Lg.one1, Lg.one1]).map
    (fun r => (List.range 4).map r.at) = .ok [.b1, .x, .x, .x] := by decide +kernel

/-- **C207 with a part-select, partial.** Moved by `update` and `slice`, the bits arrive in their order, x and z
included, whatever the register held before. Missing: registers above 65 bits with an x or z
(`C207_select_known`, `C207_select_refuted`). -/
theorem C207_select_partial (h1 : 1 < n) (h65 : n ≤ 65) (q : Lg n false) (ds : List (Lg 1 false)) :
    ∃ r, q.clock Lg.selectIn ds = .ok r ∧ ∀ i, i < n → r.at i = shifted q.at (ds.map fun d => d.at 0) i := by
  obtain ⟨r, hr, -, hb⟩ := Lg.clock_spec (f := Lg.selectIn) (fun _ => True) (fun _ => True) (fun q d _ _ => by
    obtain ⟨p, hp, -, pb⟩ := C51_slice_logic_partial h1 (by omega) q (n - 1) (n - 2) 0 (by omega) (by omega) (by omega)
    obtain ⟨y, hy, yb⟩ := C56_update_rt_bits (by omega) (by omega) (by omega) (by omega) q p (n - 1) 1 (by omega) (by omega)
      (fun k _ h64 hk => by omega)
    obtain ⟨r, hr, -, rb⟩ := Lg.setL_zero_at (by omega) (by omega) y d
    refine ⟨r, by rw [Lg.selectIn, hp, res_bind_ok, hy, res_bind_ok, hr], trivial, fun i hi => ?_⟩
    rw [rb]
    by_cases h : i = 0
    · rw [if_pos h, if_pos h]
    · rw [if_neg h, if_neg h, yb i hi, if_pos (by omega), if_pos (by omega), pb _ (by omega)]
      congr 1; omega) ds (fun _ _ => trivial) q trivial
  exact ⟨r, hr, hb⟩

/-- the same inputs, moved by part-selects -/
example : ((Lg.dflt : Res (Lg 4 false)).bind fun q => q.clock Lg.selectIn [Lg.one1, Lg.zero1, Lg.one1]).map
    (fun r => (List.range 4).map r.at) = .ok [.b1, .b0, .b1, .x] := by decide +kernel

/-- **C207 with a part-select, any width.** Without x and z the bits arrive in their order at every width. -/
theorem C207_select_known (h1 : 1 < n) (hN : n ≤ 2 ^ 31) (q : Lg n false) (hq : ∀ i, i < n → (q.at i).isKnown = true)
    (ds : List (Lg 1 false)) (hd : ∀ d ∈ ds, (d.at 0).isKnown = true) :
    ∃ r, q.clock Lg.selectIn ds = .ok r ∧ ∀ i, i < n → r.at i = shifted q.at (ds.map fun d => d.at 0) i := by
  obtain ⟨r, hr, -, hb⟩ := Lg.clock_spec (f := Lg.selectIn) (fun q => ∀ i, i < n → (q.at i).isKnown = true)
    (fun d => (d.at 0).isKnown = true) (fun q d hq hd => by
    obtain ⟨p, hp, -, pb⟩ := C51_slice_logic_partial h1 (by omega) q (n - 1) (n - 2) 0 (by omega) (by omega) (by omega)
    obtain ⟨y, hy, yb⟩ := C56_update_rt_bits (by omega) (by omega) (by omega) (by omega) q p (n - 1) 1 (by omega) (by omega)
      (fun k _ h64 hk => by rw [pb k hk]; exact hq _ (by omega))
    obtain ⟨r, hr, -, rb⟩ := Lg.setL_zero_at (by omega) (by omega) y d
    have e : ∀ i, i < n → r.at i = if i = 0 then d.at 0 else q.at (i - 1) := fun i hi => by
      rw [rb]
      by_cases h : i = 0
      · rw [if_pos h, if_pos h]
      · rw [if_neg h, if_neg h, yb i hi, if_pos (by omega), if_pos (by omega), pb _ (by omega)]
        congr 1; omega
    refine ⟨r, by rw [Lg.selectIn, hp, res_bind_ok, hy, res_bind_ok, hr], fun i hi => ?_, e⟩
    rw [e i hi]; split_ifs
    · exact hd
    · exact hq _ (by omega)) ds hd q hq
  exact ⟨r, hr, hb⟩

/-- **C207 with a part-select is false above 65 bits**: an x or z at index 64 of the register is undefined behaviour. -/
theorem C207_select_refuted (h1 : 65 < n) (hN : n ≤ 2 ^ 31) (q : Lg n false) (hq : (q.at 64).isKnown = false)
    (d : Lg 1 false) (ds : List (Lg 1 false)) : q.clock Lg.selectIn (d :: ds) = .error .shift := by
  obtain ⟨p, hp, -, pb⟩ := C51_slice_logic_partial (by omega) (by omega) q (n - 1) (n - 2) 0 (by omega) (by omega) (by omega)
  have := C55_fault (by omega) (by omega) hN (by omega) q p (n - 1) 1 (by omega) (by omega) 64 (by omega) (by omega) (by omega)
    (by rw [pb 64 (by omega)]; simpa using hq)
  rw [← C56_update_rt] at this
  rw [Lg.clock, Lg.selectIn, hp, res_bind_ok, this]
  rfl

end Verif
