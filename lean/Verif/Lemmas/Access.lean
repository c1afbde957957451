import Verif.Lemmas.LogicOps

/-! Reading and writing single bits of 4-state objects. -/

namespace Verif

namespace Rng
theorem size_down {n : Nat} (hn : 0 < n) : (down n).size = n := by
  simp only [size, down]; omega
theorem size_up {n : Nat} (hn : 0 < n) : (up n).size = n := by
  simp only [size, up]; omega
theorem lo_down {n : Nat} (hn : 0 < n) : (down n).lo = 0 := by
  simp only [lo, down]; omega
theorem hi_down {n : Nat} (hn : 0 < n) : (down n).hi = n - 1 := by
  simp only [hi, down]; omega
theorem lo_up {n : Nat} (hn : 0 < n) : (up n).lo = 0 := by
  simp only [lo, up]; omega
theorem hi_up {n : Nat} (hn : 0 < n) : (up n).hi = n - 1 := by
  simp only [hi, up]; omega
theorem bigEndian_down {n : Nat} (hn : 0 < n) : (down n).bigEndian = true := by
  simp only [bigEndian, down]; simp; omega

/-- position counted from the least significant end of the declared index `i` -/
def pos (r : Rng) (i : Int) : Nat := (if r.lsb ≤ r.msb then i - r.lsb else r.lsb - i).toNat

theorem pos_lt {r : Rng} {i : Int} (h1 : r.lo ≤ i) (h2 : i ≤ r.hi) : r.pos i < r.size := by
  simp only [pos, size, lo, hi] at *
  split <;> omega

theorem pos_inj {r : Rng} {i j : Int} (h1 : r.lo ≤ i) (h2 : i ≤ r.hi) (h3 : r.lo ≤ j)
    (h4 : j ≤ r.hi) (h : r.pos i = r.pos j) : i = j := by
  simp only [pos, size, lo, hi] at *
  split at h <;> omega

theorem pos_down {n : Nat} (hn : 0 < n) {i : Nat} : (down n).pos i = i := by
  simp only [pos, down]; split_ifs <;> omega

theorem pos_up {n : Nat} {i : Nat} (hi : i < n) : (up n).pos i = n - 1 - i := by
  simp only [pos, up]; split_ifs <;> omega
end Rng

namespace Bits
theorem physIdx_down {n : Nat} (hn : 0 < n) (i : Int) : physIdx (Rng.down n) i = i := by
  rw [physIdx, Rng.bigEndian_down hn]; rfl

theorem physIdx_pos {r : Rng} {i : Int} (h0 : r.lo = 0) (h1 : r.lo ≤ i) (h2 : i ≤ r.hi) :
    physIdx r i = r.pos i := by
  simp only [Rng.pos, Rng.lo, Rng.hi, physIdx, Rng.bigEndian] at *
  simp only [decide_eq_true_eq]; split_ifs <;> omega
end Bits

theorem shl64_shift {a : Int} (h0 : 64 ≤ a) (h : a < 2 ^ 64) :
    TV.shl (TV.u64 1) (TV.u64 a) = .error .shift := by
  have : (TV.u64 a).v = a := tU64_conv_of (by omega) h
  simp only [TV.shl, this]
  rw [if_pos]
  right
  simpa [TV.u64, CTy.promote, CTy.width] using h0

/-- writing to a one bit object at any index below 64 sets or clears it -/
theorem set1_ok (x : Bits 1 false) {idx : Int} (h0 : 0 ≤ idx) (h : idx < 64) :
    x.set (Rng.down 1) idx true = .ok (Bits.mkN (by decide) ⟨.bool, 1⟩) ∧
    ((Bits.mkN (by decide) ⟨.bool, 0⟩ : Bits 1 false).set (Rng.down 1) idx false =
      .ok (Bits.mkN (by decide) ⟨.bool, 0⟩)) := by
  obtain ⟨k, rfl⟩ := Int.eq_ofNat_of_zero_le h0
  have hk : k < 64 := by omega
  have hx : x = Bits.mkN (by decide) ⟨.bool, 0⟩ ∨ x = Bits.mkN (by decide) ⟨.bool, 1⟩ := by
    rcases Bits.nv_one (by decide) (by decide) x with e | e
    · left; rw [← e, Bits.mkN_nv]
    · right; rw [← e, Bits.mkN_nv]
  clear h h0
  revert k
  rcases hx with rfl | rfl <;> decide +kernel

theorem set1_shift (x : Bits 1 false) {idx : Int} (h0 : 64 ≤ idx) (h : idx < 2 ^ 64) (v : Bool) :
    x.set (Rng.down 1) idx v = .error .shift := by
  have hl : (Rng.down 1).lo = 0 := by decide
  simp only [Bits.set, Bits.physIdx_down (by decide : 0 < 1), hl, Int.sub_zero]
  simp only [show (1 : Nat) ≤ 64 by decide, dite_true, Bits.setNat]
  rw [shl64_shift h0 h]; rfl

namespace Lg
variable {n m : Nat} {s t : Bool}

theorem dflt1 : (dflt : Res (Lg 1 false)) = .ok x1 := by decide

theorem known1_at (b : Bool) : (known1 b).at 0 = V4.ofBool b := by cases b <;> decide

theorem x1_setX {idx : Int} (h0 : 0 ≤ idx) (h : idx < 64) :
    x1.setX (Rng.down 1) idx = .ok x1 := by
  simp only [setX, x1, (set1_ok _ h0 h).1, (set1_ok Bits.zero h0 h).2]; rfl

theorem x1_setZ {idx : Int} (h0 : 0 ≤ idx) (h : idx < 64) :
    x1.setZ (Rng.down 1) idx =
      .ok ⟨Bits.mkN (by decide) ⟨.bool, 1⟩, Bits.mkN (by decide) ⟨.bool, 1⟩⟩ := by
  simp only [setZ, x1, (set1_ok _ h0 h).1]; rfl

/-- Exact behaviour of `operator[]` at an in-range index: the x/z paths shift by
the index and are undefined from 64 on. -/
theorem get_exact (r : Rng) (x : Lg n s) (idx : Int) (p : Nat) (hp : Bits.physIdx r idx = p)
    (hpn : p < n) (hN : n ≤ 2 ^ 32) (h1 : r.lo ≤ idx) (h2 : idx ≤ r.hi) (h0 : 0 ≤ idx)
    (h64 : idx < 2 ^ 64) :
    (x.get r idx).map (·.at 0) =
      if idx < 64 ∨ (x.at p).isKnown = true then .ok (x.at p) else .error .shift := by
  have gv := Bits.get_phys r x.value idx p hp hpn hN
  have gk := Bits.get_phys r x.xz idx p hp hpn hN
  have hat : x.at p = V4.mk (x.value.bv.getLsbD p) (x.xz.bv.getLsbD p) := rfl
  simp only [get, h1, h2, and_self, if_true, dflt1, res_bind_ok, xSet, zSet, gv, gk, res_map_ok]
  rw [hat]
  generalize x.value.bv.getLsbD p = v
  generalize x.xz.bv.getLsbD p = k
  cases k
  · simp only [Bool.false_and, Bool.false_eq_true, if_false]
    cases v <;> simp [V4.mk, V4.isKnown, V4.known?] <;> decide
  · cases v
    · simp only [Bool.not_false, Bool.true_and, if_true]
      by_cases h : idx < 64
      · rw [x1_setX h0 h]; simp [h]; decide
      · simp only [setX, x1, set1_shift _ (by omega : 64 ≤ idx) h64]
        simp [h, V4.mk, V4.isKnown, V4.known?]; rfl
    · simp only [Bool.not_true, Bool.and_false, Bool.false_eq_true, if_false, Bool.and_true,
        if_true]
      by_cases h : idx < 64
      · rw [x1_setZ h0 h]; simp [h]; decide
      · simp only [setZ, x1, set1_shift _ (by omega : 64 ≤ idx) h64]
        simp [h, V4.mk, V4.isKnown, V4.known?]; rfl

theorem set_phys (r : Rng) (x : Lg n s) (idx : Int) (i : Nat)
    (hp : Bits.physIdx r idx - r.lo = i) (hi : i < n) (hN : n ≤ 2 ^ 32) (v : Bool) :
    ∃ y, x.set r idx v = .ok y ∧
      (∀ j, y.value.raw j = if j = i then v else x.value.raw j) ∧
      (∀ j, y.xz.raw j = if j = i then false else x.xz.raw j) := by
  obtain ⟨a, ha, har⟩ := Bits.set_phys r x.value idx i hp hi hN v
  obtain ⟨b, hb, hbr⟩ := Bits.set_phys r x.xz idx i hp hi hN false
  exact ⟨⟨a, b⟩, by rw [set, ha, res_bind_ok, hb]; rfl, har, hbr⟩

theorem setX_phys (r : Rng) (x : Lg n s) (idx : Int) (i : Nat)
    (hp : Bits.physIdx r idx - r.lo = i) (hi : i < n) (hN : n ≤ 2 ^ 32) :
    ∃ y, x.setX r idx = .ok y ∧
      (∀ j, y.value.raw j = if j = i then false else x.value.raw j) ∧
      (∀ j, y.xz.raw j = if j = i then true else x.xz.raw j) := by
  obtain ⟨a, ha, har⟩ := Bits.set_phys r x.value idx i hp hi hN false
  obtain ⟨b, hb, hbr⟩ := Bits.set_phys r x.xz idx i hp hi hN true
  exact ⟨⟨a, b⟩, by rw [setX, hb, res_bind_ok, ha]; rfl, har, hbr⟩

theorem setZ_phys (r : Rng) (x : Lg n s) (idx : Int) (i : Nat)
    (hp : Bits.physIdx r idx - r.lo = i) (hi : i < n) (hN : n ≤ 2 ^ 32) :
    ∃ y, x.setZ r idx = .ok y ∧
      (∀ j, y.value.raw j = if j = i then true else x.value.raw j) ∧
      (∀ j, y.xz.raw j = if j = i then true else x.xz.raw j) := by
  obtain ⟨a, ha, har⟩ := Bits.set_phys r x.value idx i hp hi hN true
  obtain ⟨b, hb, hbr⟩ := Bits.set_phys r x.xz idx i hp hi hN true
  exact ⟨⟨a, b⟩, by rw [setZ, hb, res_bind_ok, ha]; rfl, har, hbr⟩

theorem setL_phys (r : Rng) (x : Lg n s) (idx : Int) (i : Nat)
    (hp : Bits.physIdx r idx - r.lo = i) (hi : i < n) (hN : n ≤ 2 ^ 32) (l : Lg 1 t) :
    ∃ y, x.setL r idx l = .ok y ∧
      (∀ j, y.value.raw j = if j = i then hold1 l.value else x.value.raw j) ∧
      (∀ j, y.xz.raw j = if j = i then hold1 l.xz else x.xz.raw j) := by
  obtain ⟨a, ha, har⟩ := Bits.set_phys r x.value idx i hp hi hN (hold1 l.value)
  obtain ⟨b, hb, hbr⟩ := Bits.set_phys r x.xz idx i hp hi hN (hold1 l.xz)
  exact ⟨⟨a, b⟩, by rw [setL, ha, res_bind_ok, hb]; rfl, har, hbr⟩

theorem hold1_eq (b : Bits 1 s) : hold1 b = b.raw 0 := by
  rw [Bits.raw_nv (by decide) b (by decide)]
  rcases Bits.nv_one (by decide) (by decide) b with e | e <;> rw [hold1, e] <;> decide

theorem hold1_at (l : Lg 1 t) : V4.mk (hold1 l.value) (hold1 l.xz) = l.at 0 := by
  rw [hold1_eq, hold1_eq, at_lt l (by decide)]

/-- a written position holds the written 4-state bit, every other one what it held -/
theorem at_write {x y : Lg n s} {i : Nat} (hi : i < n) {v k : Bool}
    (hv : ∀ j, y.value.raw j = if j = i then v else x.value.raw j)
    (hk : ∀ j, y.xz.raw j = if j = i then k else x.xz.raw j) (j : Nat) :
    y.at j = if j = i then V4.mk v k else x.at j := by
  by_cases hj : j < n
  · rw [at_lt y hj, at_lt x hj, hv, hk]
    split <;> rfl
  · rw [at_ge y (by omega), at_ge x (by omega), if_neg (by omega)]

end Lg
end Verif
