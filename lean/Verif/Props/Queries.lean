import Verif.Props.Static
import Verif.Props.AccessExact

/-!
# Questions about single bits: `x_set`, `z_set` (C167)

`logic.hh` 139-151, at run time and with a constant index.
-/

namespace Verif

variable {n : Nat} {s : Bool}

/-- the answers of `x_set`, `z_set` at an index that is normalised to a position of the value -/
theorem Lg.xzSet_phys (r : Rng) (x : Lg n s) (i : Int) (p : Nat) (hp : Bits.physIdx r i = p) (hpn : p < n) (hN : n ≤ 2 ^ 32) :
    x.xSet r i = .ok (decide (x.at p = .x)) ∧ x.zSet r i = .ok (decide (x.at p = .z)) ∧
    (n ≤ 64 → i < n → x.xSetC r i = x.xSet r i ∧ x.zSetC r i = x.zSet r i) := by
  have gv := Bits.get_phys r x.value i p hp hpn hN
  have gk := Bits.get_phys r x.xz i p hp hpn hN
  have hat : x.at p = V4.mk (x.value.bv.getLsbD p) (x.xz.bv.getLsbD p) := rfl
  refine ⟨?_, ?_, fun h64 hi => ?_⟩
  · rw [Lg.xSet, gk, res_bind_ok, gv, res_map_ok, hat]
    cases x.value.bv.getLsbD p <;> cases x.xz.bv.getLsbD p <;> rfl
  · rw [Lg.zSet, gk, res_bind_ok, gv, res_map_ok, hat]
    cases x.value.bv.getLsbD p <;> cases x.xz.bv.getLsbD p <;> rfl
  · simp only [Lg.xSetC, Lg.zSetC, Lg.xSet, Lg.zSet, Bits.getC, if_pos (And.intro hi h64), and_self]

/-- **C167, partial.** On a range that starts at 0 and for every index of it, `x_set` says whether the bit is x and
`z_set` whether it is z, so that neither of them holds exactly for the known bits; the forms with a constant index say
the same. Missing: ranges with another low bound and other indices (`C167_low_refuted`, `C167_outside_refuted`). -/
theorem C167_in_range_partial (r : Rng) (x : Lg r.size s) (h0 : r.lo = 0) (hN : r.size ≤ 2 ^ 32) (i : Int)
    (hl : r.lo ≤ i) (hh : i ≤ r.hi) :
    ∃ a b, x.xSet r i = .ok a ∧ x.zSet r i = .ok b ∧ (a = true ↔ x.at (r.pos i) = .x) ∧
      (b = true ↔ x.at (r.pos i) = .z) ∧ (a = false ∧ b = false ↔ (x.at (r.pos i)).isKnown = true) ∧
      (r.size ≤ 64 → x.xSetC r i = .ok a ∧ x.zSetC r i = .ok b) := by
  have hp := Bits.physIdx_pos h0 hl hh
  have hlt := Rng.pos_lt hl hh
  have hsz : i < r.size := by simp only [Rng.size, Rng.lo, Rng.hi] at *; omega
  obtain ⟨h1, h2, h3⟩ := Lg.xzSet_phys r x i _ hp hlt hN
  refine ⟨_, _, h1, h2, decide_eq_true_iff, decide_eq_true_iff, ?_, fun h => ?_⟩
  · cases x.at (r.pos i) <;> decide
  · rw [(h3 h hsz).1, (h3 h hsz).2]
    exact ⟨h1, h2⟩

/-- **C167, partial.** `x_set` and `z_set` after a write of x, z or a known bit, at the same and at any other index of a
range that starts at 0. Missing: ranges with another low bound and indices outside the range, for which it is false
(`C167_low_refuted`, `C167_outside_refuted`). -/
theorem C167_written_partial (r : Rng) (x : Lg r.size s) (h0 : r.lo = 0) (hN : r.size ≤ 2 ^ 32) (i j : Int)
    (hl : r.lo ≤ i) (hh : i ≤ r.hi) (jl : r.lo ≤ j) (jh : j ≤ r.hi) (v : Bool) :
    (∃ y, x.setX r i = .ok y ∧ y.xSet r i = .ok true ∧ y.zSet r i = .ok false ∧
      (j ≠ i → y.xSet r j = x.xSet r j ∧ y.zSet r j = x.zSet r j)) ∧
    (∃ y, x.setZ r i = .ok y ∧ y.xSet r i = .ok false ∧ y.zSet r i = .ok true ∧
      (j ≠ i → y.xSet r j = x.xSet r j ∧ y.zSet r j = x.zSet r j)) ∧
    (∃ y, x.set r i v = .ok y ∧ y.xSet r i = .ok false ∧ y.zSet r i = .ok false ∧
      (j ≠ i → y.xSet r j = x.xSet r j ∧ y.zSet r j = x.zSet r j)) := by
  obtain ⟨-, ⟨a, -, ha, ha'⟩, ⟨b, -, hb, hb'⟩, ⟨c, -, hc, hc'⟩⟩ := C90_logic_static_partial r x h0 hN i hl hh v
  have hp := Bits.physIdx_pos h0 hl hh
  have hlt := Rng.pos_lt hl hh
  have hq := Bits.physIdx_pos h0 jl jh
  have hqt := Rng.pos_lt jl jh
  have hne : j ≠ i → r.pos j ≠ r.pos i := fun h c => h (by
    have e := Bits.physIdx_pos h0 hl hh
    have f := Bits.physIdx_pos h0 jl jh
    rw [c, ← e] at f
    simp only [Bits.physIdx] at f
    split at f <;> omega)
  have main : ∀ (y : Lg r.size s) (w : V4), (∀ p, y.at p = if p = r.pos i then w else x.at p) →
      y.xSet r i = .ok (decide (w = .x)) ∧ y.zSet r i = .ok (decide (w = .z)) ∧
      (j ≠ i → y.xSet r j = x.xSet r j ∧ y.zSet r j = x.zSet r j) := by
    intro y w hy
    obtain ⟨e1, e2, -⟩ := Lg.xzSet_phys r y i _ hp hlt hN
    obtain ⟨e3, e4, -⟩ := Lg.xzSet_phys r y j _ hq hqt hN
    obtain ⟨e5, e6, -⟩ := Lg.xzSet_phys r x j _ hq hqt hN
    rw [hy, if_pos rfl] at e1 e2
    refine ⟨e1, e2, fun h => ?_⟩
    rw [hy, if_neg (hne h)] at e3 e4
    exact ⟨e3.trans e5.symm, e4.trans e6.symm⟩
  refine ⟨⟨b, hb, ?_⟩, ⟨c, hc, ?_⟩, ⟨a, ha, ?_⟩⟩
  · simpa using main b .x hb'
  · simpa using main c .z hc'
  · have := main a (V4.ofBool v) ha'
    cases v <;> simpa [V4.ofBool] using this

/-- **C167 fails at indices outside the range**, where `operator[]` gives x: on `logic<n-1, 0>` a wide value, and a
canonical native one at the indices its promoted holder has, answers that the bit is neither x nor z; at the other
indices a native value shifts by a negative or too large amount. -/
theorem C167_outside_refuted (x : Lg n s) (hn : 0 < n) (hN : n ≤ 2 ^ 31) (i : Int) (hi : i < 0 ∨ (n : Int) ≤ i)
    (h31 : -2 ^ 31 ≤ i ∧ i < 2 ^ 31) :
    (∃ b, x.get (Rng.down n) i = .ok b ∧ b.at 0 = .x) ∧
    (64 < n → x.xSet (Rng.down n) i = .ok false ∧ x.zSet (Rng.down n) i = .ok false) ∧
    (n ≤ 64 → 0 ≤ i → (i < if n ≤ 32 then 32 else 64) → x.value.Clean → x.xz.Clean →
      x.xSet (Rng.down n) i = .ok false ∧ x.zSet (Rng.down n) i = .ok false) ∧
    (n ≤ 64 → i < 0 ∨ (if n ≤ 32 then 32 else 64) ≤ i →
      x.xSet (Rng.down n) i = .error .shift ∧ x.zSet (Rng.down n) i = .error .shift) := by
  refine ⟨⟨Lg.x1, ?_, by decide⟩, fun h => ?_, fun h h0 h1 cv ck => ?_, fun h h1 => ?_⟩
  · have : ¬ (i ≤ (Rng.down n).hi ∧ (Rng.down n).lo ≤ i) := by rw [Rng.hi_down hn, Rng.lo_down hn]; omega
    simp only [Lg.get, this, if_false]
    exact Lg.dflt1
  · rw [Lg.xSet, Lg.zSet, C118_wide_zero h hN x.xz i h31 hi, C118_wide_zero h hN x.value i h31 hi]
    exact ⟨rfl, rfl⟩
  · rw [Lg.xSet, Lg.zSet, C118_native_zero_partial hn h ck i (by omega) h1]
    have hv : ∃ b, x.value.get (Rng.down n) i = .ok b := by
      rw [Bits.get_native_clean _ h cv i i.toNat (by rw [Bits.physIdx_down hn]; omega) (by omega)
        (by rw [promote_width_eq h]; split_ifs at h1 ⊢ <;> omega)]
      exact ⟨_, rfl⟩
    obtain ⟨b, hb⟩ := hv
    rw [hb]
    exact ⟨rfl, rfl⟩
  · rw [Lg.xSet, Lg.zSet, C118_native_fault_refuted hn h x.xz i h1]
    exact ⟨rfl, rfl⟩

/-- **C167 fails on descending ranges with a positive low bound**: the answers at index `i` are about the bit of index
`i + lo`. -/
theorem C167_low_refuted (r : Rng) (x : Lg r.size s) (hd : r.lsb ≤ r.msb) (hN : r.size ≤ 2 ^ 32) (i : Int)
    (hl : 0 < r.lo) (hi : r.lo ≤ i) (hs : i < r.size) :
    x.xSet r i = .ok (decide (x.at (r.pos (i + r.lo)) = .x)) ∧ x.zSet r i = .ok (decide (x.at (r.pos (i + r.lo)) = .z)) ∧
    r.pos (i + r.lo) ≠ r.pos i := by
  have hbe : r.bigEndian = true := by simp [Rng.bigEndian, hd]
  have hlo : r.lo = r.lsb := by simp only [Rng.lo]; omega
  have hp : Bits.physIdx r i = (i.toNat : Int) := by simp only [Bits.physIdx, hbe, if_true]; omega
  have e : r.pos (i + r.lo) = i.toNat := by rw [Rng.pos, if_pos hd]; congr 1; omega
  have e' : r.pos i = (i - r.lo).toNat := by rw [Rng.pos, if_pos hd, hlo]
  obtain ⟨h1, h2, -⟩ := Lg.xzSet_phys r x i _ hp (by omega) hN
  rw [e, e']
  exact ⟨h1, h2, by omega⟩

/-- non-vacuity: `logic<3, 0>` with a z at index 2 and an x at index 1 -/
example : let y := ((Lg.ofInt 9 : Lg 4 false).setZ (Rng.down 4) 2).bind fun y => y.setX (Rng.down 4) 1
    (y.bind fun y => y.xSet (Rng.down 4) 1) = .ok true ∧ (y.bind fun y => y.zSet (Rng.down 4) 1) = .ok false ∧
    (y.bind fun y => y.xSet (Rng.down 4) 2) = .ok false ∧ (y.bind fun y => y.zSet (Rng.down 4) 2) = .ok true ∧
    (y.bind fun y => y.xSet (Rng.down 4) 3) = .ok false ∧ (y.bind fun y => y.zSet (Rng.down 4) 3) = .ok false ∧
    (y.bind fun y => y.xSet (Rng.down 4) 40) = .error .shift := by decide +kernel

end Verif
