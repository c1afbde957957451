import Verif.Lemmas.Access
import Verif.Show

/-!
# Reading and writing single bits (C01 - C06)

`Rng.down n` is the declared range `[n-1:0]`, `Rng.up n` is `[0:n-1]`. The
template bounds are `int`s, so no object has more than `2^32` bits; `hN` says
that. `.ok` means: no undefined behaviour.
-/

namespace Verif

variable {n m : Nat} {s t : Bool}

/-! ## C01 -/

/-- 2-state write and read-back on any range that starts at 0. -/
theorem bit_write_read (r : Rng) (x : Bits r.size s) (h0 : r.lo = 0) (hN : r.size ≤ 2 ^ 32)
    (i : Int) (hl : r.lo ≤ i) (hh : i ≤ r.hi) (v : Bool) :
    ∃ y, x.set r i v = .ok y ∧ x.setBit r i v = .ok y ∧ y.get r i = .ok v ∧
      ∀ j, r.lo ≤ j → j ≤ r.hi → j ≠ i →
        ∃ b, x.get r j = .ok b ∧ y.get r j = .ok b := by
  have hp := Bits.physIdx_pos h0 hl hh
  have hlt := Rng.pos_lt hl hh
  obtain ⟨y, hy, hr⟩ := Bits.set_phys r x i (r.pos i) (by rw [hp, h0]; simp) hlt hN v
  have hb : x.setBit r i v = x.set r i v := by simp only [Bits.setBit, Bits.set, h0, Int.sub_zero]; rfl
  refine ⟨y, hy, by rw [hb, hy], ?_, ?_⟩
  · rw [Bits.get_phys r y i _ hp hlt hN, Bits.getLsbD_bv, hr]; simp [hlt]
  · intro j hjl hjh hij
    have hpj := Bits.physIdx_pos h0 hjl hjh
    have hltj := Rng.pos_lt hjl hjh
    have hne : r.pos j ≠ r.pos i := fun e => hij (Rng.pos_inj hjl hjh hl hh e)
    refine ⟨x.bv.getLsbD (r.pos j), Bits.get_phys r x j _ hpj hltj hN, ?_⟩
    rw [Bits.get_phys r y j _ hpj hltj hN, Bits.getLsbD_bv, Bits.getLsbD_bv, hr, if_neg hne]

/-- `operator[]` of a `bit<n-1,0>` never faults in range and reads bit `i`. This is
what makes `Bits.bv` the observable content of a 2-state object. -/
theorem C01_read (hn : 0 < n) (hN : n ≤ 2 ^ 32) (x : Bits n s) (i : Nat) (hi : i < n) :
    x.get (Rng.down n) i = .ok (x.bv.getLsbD i) :=
  Bits.get_phys _ x i i (Bits.physIdx_down hn _) hi hN

/-- **C01.** On `bit<n-1,0>`: after `set(i, v)` (with a `bool` or a `bit<0>`), index
`i` reads `v` and every other index reads what it read before; nothing faults. -/
theorem C01_write_read (hn : 0 < n) (hN : n ≤ 2 ^ 32) (x : Bits n s) (i : Nat) (hi : i < n)
    (v : Bool) :
    ∃ y, x.set (Rng.down n) i v = .ok y ∧ x.setBit (Rng.down n) i v = .ok y ∧
      y.get (Rng.down n) i = .ok v ∧
      ∀ j, j < n → j ≠ i →
        ∃ b, x.get (Rng.down n) j = .ok b ∧ y.get (Rng.down n) j = .ok b := by
  have hs := Rng.size_down hn
  have hlo := Rng.lo_down hn
  have hhi := Rng.hi_down hn
  generalize hr : Rng.down n = r at *
  subst hs
  obtain ⟨y, h1, h2, h3, h4⟩ := bit_write_read r x hlo hN i (by omega) (by omega) v
  exact ⟨y, h1, h2, h3, fun j hj hij => h4 j (by omega) (by omega) (by omega)⟩

/-- The specification of a history of writes: the last value written at `i`, or the
initial content. -/
def lastWrite (init : Nat → Bool) : List (Nat × Bool) → Nat → Bool
  | [], i => init i
  | (j, v) :: ws, i => lastWrite (fun k => if k = j then v else init k) ws i

/-- **C01, histories.** After any sequence of in-range writes every index reads the
last value written there, or its initial value. -/
theorem C01_history (hn : 0 < n) (hN : n ≤ 2 ^ 32) (ws : List (Nat × Bool))
    (hw : ∀ w ∈ ws, w.1 < n) (x : Bits n s) :
    ∃ y, ws.foldlM (fun (b : Bits n s) w => b.set (Rng.down n) w.1 w.2) x = .ok y ∧
      ∀ i, i < n → y.get (Rng.down n) i = .ok (lastWrite (fun k => x.bv.getLsbD k) ws i) := by
  induction ws generalizing x with
  | nil => exact ⟨x, rfl, fun i hi => C01_read hn hN x i hi⟩
  | cons w ws ih =>
    obtain ⟨j, v⟩ := w
    have hj : j < n := hw (j, v) (by simp)
    obtain ⟨y, h1, -, h3, h4⟩ := C01_write_read hn hN x j hj v
    obtain ⟨z, hz, hzr⟩ := ih (fun w hm => hw w (by simp [hm])) y
    refine ⟨z, ?_, ?_⟩
    · rw [List.foldlM_cons, h1]; exact hz
    · intro i hi
      rw [hzr i hi]
      have : ∀ (f g : Nat → Bool) (ws : List (Nat × Bool)), (∀ w ∈ ws, w.1 < n) →
          (∀ k, k < n → f k = g k) → lastWrite f ws i = lastWrite g ws i := by
        intro f g ws hws
        induction ws generalizing f g with
        | nil => intro h; exact h i hi
        | cons w ws ihw =>
          intro h
          exact ihw _ _ (fun w hm => hws w (by simp [hm])) fun k hk => by
            by_cases e : k = w.1 <;> simp [e, h k hk]
      rw [this _ (fun k => if k = j then v else x.bv.getLsbD k) ws
        (fun w hm => hw w (by simp [hm]))]
      · rfl
      · intro k hk
        have hy := C01_read hn hN y k hk
        by_cases e : k = j
        · subst e; rw [h3] at hy; simpa using hy.symm
        · obtain ⟨b, hb1, hb2⟩ := h4 k hk e
          rw [C01_read hn hN x k hk] at hb1
          rw [hb2] at hy
          rw [if_neg e]
          rw [Except.ok.injEq] at hb1 hy
          rw [hb1, ← hy]

-- a concrete history on a 100-bit value
example : (List.foldlM (fun (b : Bits 100 false) w => b.set (Rng.down 100) w.1 w.2)
    (Bits.ofInt 5) [(70, true), (0, false), (70, true), (99, true), (70, false)]).map
      (fun b => b.bv) = .ok (BitVec.ofNat 100 (4 + 2 ^ 99)) := by decide +kernel

/-! ## C02 -/

/-- **C02, exact reads.** `operator[]` of a `logic<n-1,0>` reads the 4-state bit at
`i`, except that an x or z at an index of 64 or more is a shift beyond the width of
`uint64_t` (the result object is one bit wide but is written at index `i`). -/
theorem C02_read_exact (hn : 0 < n) (hN : n ≤ 2 ^ 32) (x : Lg n s) (i : Nat) (hi : i < n) :
    (x.get (Rng.down n) i).map (·.at 0) =
      if i < 64 ∨ (x.at i).isKnown = true then .ok (x.at i) else .error .shift := by
  rw [Lg.get_exact (Rng.down n) x i i (Bits.physIdx_down hn _) hi hN
    (by rw [Rng.lo_down hn]; omega) (by rw [Rng.hi_down hn]; omega) (by omega) (by omega)]
  simp

/-- Reading at all indices is safe for values of at most 64 bits and for values
without x/z above index 63. -/
theorem C02_read_ok (hn : 0 < n) (hN : n ≤ 2 ^ 32) (x : Lg n s) (i : Nat) (hi : i < n)
    (h : i < 64 ∨ (x.at i).isKnown = true) :
    (x.get (Rng.down n) i).map (·.at 0) = .ok (x.at i) := by
  rw [C02_read_exact hn hN x i hi, if_pos h]

/-- **C02, writes.** `set(i, v)`, `set_x(i)`, `set_z(i)` and `set(i, w)` never fault;
position `i` then holds `v`, x, z, `w` and every other position what it held. Together
with `C02_read_exact` this is the property for every read the code defines; missing:
reads of x/z at indices of 64 and more, which are undefined behaviour. -/
theorem C02_write_read_partial (hn : 0 < n) (hN : n ≤ 2 ^ 32) (x : Lg n s) (i : Nat) (hi : i < n)
    (v : Bool) (l : Lg 1 t) :
    (∃ y, x.set (Rng.down n) i v = .ok y ∧
      (y.get (Rng.down n) i).map (·.at 0) = .ok (V4.ofBool v) ∧
      ∀ j, j < n → j ≠ i → y.at j = x.at j ∧
        (y.get (Rng.down n) j).map (·.at 0) = (x.get (Rng.down n) j).map (·.at 0)) ∧
    (∃ y, x.setX (Rng.down n) i = .ok y ∧ y.at i = .x ∧
      (i < 64 → (y.get (Rng.down n) i).map (·.at 0) = .ok .x) ∧
      ∀ j, j < n → j ≠ i → y.at j = x.at j ∧
        (y.get (Rng.down n) j).map (·.at 0) = (x.get (Rng.down n) j).map (·.at 0)) ∧
    (∃ y, x.setZ (Rng.down n) i = .ok y ∧ y.at i = .z ∧
      (i < 64 → (y.get (Rng.down n) i).map (·.at 0) = .ok .z) ∧
      ∀ j, j < n → j ≠ i → y.at j = x.at j ∧
        (y.get (Rng.down n) j).map (·.at 0) = (x.get (Rng.down n) j).map (·.at 0)) ∧
    (∃ y, x.setL (Rng.down n) i l = .ok y ∧ y.at i = l.at 0 ∧
      (i < 64 ∨ (l.at 0).isKnown = true →
        (y.get (Rng.down n) i).map (·.at 0) = .ok (l.at 0)) ∧
      ∀ j, j < n → j ≠ i → y.at j = x.at j ∧
        (y.get (Rng.down n) j).map (·.at 0) = (x.get (Rng.down n) j).map (·.at 0)) := by
  have hp : Bits.physIdx (Rng.down n) i - (Rng.down n).lo = i := by
    rw [Bits.physIdx_down hn, Rng.lo_down hn]; simp
  have other : ∀ (y : Lg n s) (w : V4), (∀ j, y.at j = if j = i then w else x.at j) →
      ∀ j, j < n → j ≠ i → y.at j = x.at j ∧
        (y.get (Rng.down n) j).map (·.at 0) = (x.get (Rng.down n) j).map (·.at 0) := by
    intro y w h j hj hij
    have e : y.at j = x.at j := by rw [h, if_neg hij]
    exact ⟨e, by rw [C02_read_exact hn hN y j hj, C02_read_exact hn hN x j hj, e]⟩
  refine ⟨?_, ?_, ?_, ?_⟩
  · obtain ⟨y, hy, hv, hk⟩ := Lg.set_phys _ x i i hp hi hN v
    have h := Lg.at_write hi hv hk
    have e : y.at i = V4.ofBool v := by rw [h, if_pos rfl]; cases v <;> rfl
    exact ⟨y, hy, by
      rw [C02_read_ok hn hN y i hi (Or.inr (by rw [e]; cases v <;> rfl)), e], other y _ h⟩
  · obtain ⟨y, hy, hv, hk⟩ := Lg.setX_phys _ x i i hp hi hN
    have h := Lg.at_write hi hv hk
    have e : y.at i = .x := by rw [h, if_pos rfl]; rfl
    exact ⟨y, hy, e, fun h64 => by rw [C02_read_ok hn hN y i hi (Or.inl h64), e], other y _ h⟩
  · obtain ⟨y, hy, hv, hk⟩ := Lg.setZ_phys _ x i i hp hi hN
    have h := Lg.at_write hi hv hk
    have e : y.at i = .z := by rw [h, if_pos rfl]; rfl
    exact ⟨y, hy, e, fun h64 => by rw [C02_read_ok hn hN y i hi (Or.inl h64), e], other y _ h⟩
  · obtain ⟨y, hy, hv, hk⟩ := Lg.setL_phys _ x i i hp hi hN l
    have h := Lg.at_write hi hv hk
    have e : y.at i = l.at 0 := by rw [h, if_pos rfl]; exact Lg.hold1_at l
    exact ⟨y, hy, e, fun h64 => by rw [C02_read_ok hn hN y i hi (by rw [e]; exact h64), e],
      other y _ h⟩

/-- **C02 is false of the code.** For every width above 64 there is a value and an
in-range index whose read is undefined behaviour: after `set_x(64)`, reading index
64. -/
theorem C02_read_refuted (hn : 64 < n) (hN : n ≤ 2 ^ 32) (x : Lg n s) :
    ∃ y, x.setX (Rng.down n) 64 = .ok y ∧ (y.get (Rng.down n) 64).map (·.at 0) = .error .shift := by
  obtain ⟨-, ⟨y, hy, e, -⟩, -⟩ :=
    C02_write_read_partial (by omega) hN x 64 hn false (Lg.x1)
  refine ⟨y, hy, ?_⟩
  have := C02_read_exact (by omega) hN y 64 hn
  rw [e] at this
  exact this

-- writes of all four values at width 80, and the faulting read
example : Lg.bits ((Lg.ofInt 0xff : Lg 80 false).setX (Rng.down 80) 3) =
    some ([.b1, .b1, .b1, .x, .b1, .b1, .b1, .b1] ++ List.replicate 72 .b0) := by decide +kernel
example : (((Lg.ofInt 0 : Lg 80 false).setZ (Rng.down 80) 70).bind
    fun y => y.get (Rng.down 80) 70) = .error .shift := by decide +kernel

/-! ## C03, C04 -/

/-- **C03, 2-state.** On `bit<0,n-1>` a write at `i` is read back at `i` and changes
the reading at no other index. -/
theorem C03_ascending_bit (hn : 0 < n) (hN : n ≤ 2 ^ 32) (x : Bits n s) (i : Nat) (hi : i < n)
    (v : Bool) :
    ∃ y, x.set (Rng.up n) i v = .ok y ∧ x.setBit (Rng.up n) i v = .ok y ∧
      y.get (Rng.up n) i = .ok v ∧
      ∀ j, j < n → j ≠ i → ∃ b, x.get (Rng.up n) j = .ok b ∧ y.get (Rng.up n) j = .ok b := by
  have hs := Rng.size_up hn
  have hlo := Rng.lo_up hn
  have hhi := Rng.hi_up hn
  generalize hr : Rng.up n = r at *
  subst hs
  obtain ⟨y, h1, h2, h3, h4⟩ := bit_write_read r x hlo hN i (by omega) (by omega) v
  exact ⟨y, h1, h2, h3, fun j hj hij => h4 j (by omega) (by omega) (by omega)⟩

/-- **C04, 2-state, ranges that contain 0 as lower bound.** The write at `i` is read
back at `i` and at no other index. Missing: ranges with another low bound, for which
the property is false (`C04_base_refuted`). -/
theorem C04_base_bit_partial (r : Rng) (x : Bits r.size s) (h0 : r.lo = 0)
    (hN : r.size ≤ 2 ^ 32) (i : Int) (hl : r.lo ≤ i) (hh : i ≤ r.hi) (v : Bool) :
    ∃ y, x.set r i v = .ok y ∧ y.get r i = .ok v ∧
      ∀ j, r.lo ≤ j → j ≤ r.hi → j ≠ i → ∃ b, x.get r j = .ok b ∧ y.get r j = .ok b := by
  obtain ⟨y, h1, -, h3, h4⟩ := bit_write_read r x h0 hN i hl hh v
  exact ⟨y, h1, h3, h4⟩

/-- 4-state write and read-back on any range that starts at 0. Missing: ranges with another low
bound, for which it is false (`C04_logic_iff`), and reading back an x or z at an index of 64 and
more, which is undefined (`C02_read_refuted`). -/
theorem C04_base_logic_partial (r : Rng) (x : Lg r.size s) (h0 : r.lo = 0)
    (hN : r.size ≤ 2 ^ 32) (i : Int) (hl : r.lo ≤ i) (hh : i ≤ r.hi) (l : Lg 1 t)
    (hr : i < 64 ∨ (l.at 0).isKnown = true) :
    ∃ y, x.setL r i l = .ok y ∧ (y.get r i).map (·.at 0) = .ok (l.at 0) ∧
      ∀ j, r.lo ≤ j → j ≤ r.hi → j ≠ i →
        (y.get r j).map (·.at 0) = (x.get r j).map (·.at 0) := by
  have hp := Bits.physIdx_pos h0 hl hh
  have hlt := Rng.pos_lt hl hh
  have hsz : r.hi < 2 ^ 32 := by simp only [Rng.size, Rng.lo, Rng.hi] at *; omega
  obtain ⟨y, hy, hv, hk⟩ := Lg.setL_phys r x i (r.pos i) (by rw [hp, h0]; simp) hlt hN l
  have h := Lg.at_write hlt hv hk
  have e : y.at (r.pos i) = l.at 0 := by rw [h, if_pos rfl]; exact Lg.hold1_at l
  refine ⟨y, hy, ?_, ?_⟩
  · rw [Lg.get_exact r y i _ hp hlt hN hl hh (by omega) (by omega), e, if_pos hr]
  · intro j hjl hjh hij
    have hpj := Bits.physIdx_pos h0 hjl hjh
    have hltj := Rng.pos_lt hjl hjh
    have hne : r.pos j ≠ r.pos i := fun e => hij (Rng.pos_inj hjl hjh hl hh e)
    rw [Lg.get_exact r y j _ hpj hltj hN hjl hjh (by omega) (by omega),
      Lg.get_exact r x j _ hpj hltj hN hjl hjh (by omega) (by omega), h, if_neg hne]

/-- **C03, 4-state.** On `logic<0,n-1>`, `set(i, w)` is read back at `i` and changes the
reading at no other index. Missing: reading back an x or z at an index of 64 and more,
which is undefined (`C03_logic_refuted`). -/
theorem C03_ascending_logic_partial (hn : 0 < n) (hN : n ≤ 2 ^ 32) (x : Lg n s) (i : Nat)
    (hi : i < n) (l : Lg 1 t) (hk : i < 64 ∨ (l.at 0).isKnown = true) :
    ∃ y, x.setL (Rng.up n) i l = .ok y ∧ (y.get (Rng.up n) i).map (·.at 0) = .ok (l.at 0) ∧
      ∀ j, j < n → j ≠ i →
        (y.get (Rng.up n) j).map (·.at 0) = (x.get (Rng.up n) j).map (·.at 0) := by
  have hs := Rng.size_up hn
  have hlo := Rng.lo_up hn
  have hhi := Rng.hi_up hn
  generalize hr : Rng.up n = r at *
  subst hs
  obtain ⟨y, h1, h2, h3⟩ := C04_base_logic_partial r x hlo hN i (by omega) (by omega) l
    (by exact_mod_cast hk)
  exact ⟨y, h1, h2, fun j hj hij => h3 j (by omega) (by omega) (by omega)⟩

-- ascending range: index 1 of [0:3] is the second bit from the left
example : (Bits.ofInt 0 : Bits 4 false).set (Rng.up 4) 1 true = .ok (Bits.ofInt 4) := by decide

/-- **C04 is false of the code.** On `bit<4,1>` a write at index 2 is read back at
index 1, not at index 2; on `bit<1,4>` a write at 3 is not read back either. -/
theorem C04_base_refuted :
    (∃ (x y : Bits 4 false), x.set ⟨4, 1⟩ 2 true = .ok y ∧ y.get ⟨4, 1⟩ 2 = .ok false ∧
      y.get ⟨4, 1⟩ 1 = .ok true) ∧
    (∃ (x y : Bits 4 false), x.set ⟨1, 4⟩ 3 true = .ok y ∧ y.get ⟨1, 4⟩ 3 = .ok false) :=
  ⟨⟨Bits.ofInt 0, Bits.ofInt 2, by decide, by decide, by decide⟩,
   ⟨Bits.ofInt 0, Bits.ofInt 1, by decide, by decide⟩⟩

/-! ## C05 -/

/-- **C05.** Reading a `logic` of any range outside its bounds yields a single x and
never faults. -/
theorem C05_read_out_of_range (r : Rng) (x : Lg r.size s) (i : Int) (h : i < r.lo ∨ r.hi < i) :
    ∃ b, x.get r i = .ok b ∧ b.at 0 = .x := by
  refine ⟨Lg.x1, ?_, by decide⟩
  have : ¬ (i ≤ r.hi ∧ r.lo ≤ i) := by omega
  simp only [Lg.get, this, if_false]
  exact Lg.dflt1

example : (Lg.ofInt 5 : Lg 4 false).get ⟨7, 4⟩ 3 = .ok Lg.x1 := by decide

/-! ## C06 -/

/-- **C06 for wide values.** On every descending range, and on every range with low
bound 0, an out-of-range `set` leaves the whole object unchanged. Missing: native
values (`C06_native_refuted`) and ascending ranges with another low bound
(`C06_ascending_refuted`). -/
theorem C06_write_out_of_range_partial (r : Rng) (hw : 64 < r.size) (x : Bits r.size s) (i : Int)
    (hr : r.lsb ≤ r.msb ∨ r.lo = 0) (hi : -2 ^ 31 ≤ i ∧ i < 2 ^ 31)
    (hm : -2 ^ 31 ≤ r.msb ∧ r.msb < 2 ^ 31) (hl : -2 ^ 31 ≤ r.lsb ∧ r.lsb < 2 ^ 31)
    (h : i < r.lo ∨ r.hi < i) (v : Bool) : x.set r i v = .ok x := by
  apply Bits.set_out_big (by omega)
  have key : ∀ a : Int, -2 ^ 34 ≤ a → a < 2 ^ 34 → a < 0 ∨ (r.size : Int) ≤ a →
      r.size ≤ (tU64.conv a).toNat := by
    intro a h1 h2 h3
    have hs : (r.size : Int) ≤ 2 ^ 32 := by simp only [Rng.size]; omega
    simp only [CTy.conv]
    omega
  apply key
  all_goals
    simp only [Bits.physIdx, Rng.bigEndian, Rng.lo, Rng.hi, Rng.size] at *
    simp only [decide_eq_true_eq]
    split_ifs <;> omega

/-- **C06 is false for native values.** On `bit<3,0>`, `set(5, true)` makes the value
unequal to what it was although all its bits are unchanged; on `bit<0,0>` it changes
bit 0; at index 64 it is undefined. -/
theorem C06_native_refuted :
    (∃ y, (Bits.ofInt 9 : Bits 4 false).set (Rng.down 4) 5 true = .ok y ∧
      y.bv = (Bits.ofInt 9 : Bits 4 false).bv ∧ y.eq (Bits.ofInt 9 : Bits 4 false) = false) ∧
    (∃ y, (Bits.ofInt 0 : Bits 1 false).set (Rng.down 1) 3 true = .ok y ∧ y.bv = 1) ∧
    (Bits.ofInt 9 : Bits 4 false).set (Rng.down 4) 64 true = .error .shift :=
  ⟨⟨Bits.ofInt 41, by decide, by decide, by decide⟩, ⟨Bits.ofInt 1, by decide, by decide⟩,
   by decide⟩

/-- **C06 is false for ascending ranges with a non-zero low bound.** On `bit<1,100>` a
write at index 0 changes bit 99. -/
theorem C06_ascending_refuted :
    ∃ y, (Bits.ofInt 0 : Bits 100 false).set ⟨1, 100⟩ 0 true = .ok y ∧
      y.bv.getLsbD 99 = true ∧ (Bits.ofInt 0 : Bits 100 false).bv.getLsbD 99 = false := by
  refine ⟨(Bits.ofInt 0 : Bits 100 false).bg (by decide) |>.set 99 true |> .big (by decide), ?_⟩
  decide +kernel

example : (Bits.ofInt 7 : Bits 100 false).set ⟨103, 4⟩ 3 true = .ok (Bits.ofInt 7) := by
  decide +kernel

end Verif
