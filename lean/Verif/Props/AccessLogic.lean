import Verif.Props.AccessExact

/-!
# Reads and writes of single bits of `logic`: the remaining cases of C03, C04 and C06
-/

namespace Verif

variable {n : Nat} {s t : Bool}

/-- **C03 is false for 4-state values of more than 64 bits**: on `logic<0, n-1>`, after `set_x(i)` or `set_z(i)` with `i` of 64
and more, reading index `i` is undefined behaviour, whatever the value was. -/
theorem C03_logic_refuted (hN : n ≤ 2 ^ 32) (x : Lg n s) (i : Nat) (h64 : 64 ≤ i) (hi : i < n) :
    (∃ y, x.setX (Rng.up n) i = .ok y ∧ (y.get (Rng.up n) i).map (·.at 0) = .error .shift) ∧
    (∃ y, x.setZ (Rng.up n) i = .ok y ∧ (y.get (Rng.up n) i).map (·.at 0) = .error .shift) := by
  have hn : 0 < n := by omega
  have hl := Rng.lo_up hn
  have hh := Rng.hi_up hn
  have hs := Rng.size_up hn
  have l1 : (Rng.up n).lo ≤ (i : Int) := by omega
  have l2 : (i : Int) ≤ (Rng.up n).hi := by omega
  have hp : Bits.physIdx (Rng.up n) i = ((n - 1 - i : Nat) : Int) := by
    rw [Bits.physIdx_pos hl l1 l2, Rng.pos_up hi]
  have hp' : Bits.physIdx (Rng.up n) i - (Rng.up n).lo = ((n - 1 - i : Nat) : Int) := by rw [hp, hl]; simp
  have fin : ∀ y : Lg n s, (y.at (n - 1 - i)).isKnown = false → (y.get (Rng.up n) i).map (·.at 0) = .error .shift := by
    intro y hy
    rw [Lg.get_exact (Rng.up n) y i _ hp (by omega) hN l1 l2 (by omega) (by omega),
      if_neg (by rw [hy]; simp; omega)]
  constructor
  · obtain ⟨y, hy, hv, hk⟩ := Lg.setX_phys (Rng.up n) x i _ hp' (by omega) hN
    refine ⟨y, hy, fin y ?_⟩
    rw [Lg.at_write (by omega) hv hk, if_pos rfl]; rfl
  · obtain ⟨y, hy, hv, hk⟩ := Lg.setZ_phys (Rng.up n) x i _ hp' (by omega) hN
    refine ⟨y, hy, fin y ?_⟩
    rw [Lg.at_write (by omega) hv hk, if_pos rfl]; rfl

/-- a 1 that is read from a `logic` is a 1 of its value plane -/
theorem Lg.get_one (r : Rng) (x : Lg n s) (i : Int) (hl : -2 ^ 31 ≤ i) (hh : i < 2 ^ 31)
    (h : (x.get r i).map (·.at 0) = .ok .b1) : x.value.get r i = .ok true := by
  have hx : ∀ y, x1.setX (Rng.down 1) i = .ok y → y.at 0 ≠ .b1 := by
    intro y hy
    by_cases h0 : 0 ≤ i ∧ i < 64
    · rw [x1_setX h0.1 h0.2, Except.ok.injEq] at hy
      subst hy; decide
    · exfalso
      have hf : ∀ (b : Bits 1 false) (v : Bool), b.set (Rng.down 1) i v = .error .shift := by
        intro b v
        by_cases h1 : 64 ≤ i
        · exact set1_shift b h1 (by omega) v
        · have hlo : (Rng.down 1).lo = 0 := by decide
          simp only [Bits.set, Bits.physIdx_down (by decide : 0 < 1), hlo, Int.sub_zero]
          simp only [show (1 : Nat) ≤ 64 by decide, dite_true, Bits.setNat]
          have e : TV.u64 i = TV.u64 (i + 2 ^ 64) := by
            simp only [TV.u64, CTy.conv]
            congr 1
            omega
          rw [e, shl64_shift (by omega) (by omega)]; rfl
      rw [setX, hf] at hy
      cases hy
  rw [Lg.get] at h
  split at h
  · rw [dflt1, res_bind_ok, xSet, zSet] at h
    cases hk : x.xz.get r i with
    | error e => rw [hk] at h; cases h
    | ok k =>
      cases hv : x.value.get r i with
      | error e => rw [hk, hv] at h; cases h
      | ok v =>
        rw [hk, hv] at h
        simp only [res_bind_ok, res_map_ok] at h
        cases v with
        | true => rfl
        | false =>
          exfalso
          cases k with
          | false =>
            rw [if_neg (by decide), if_neg (by decide), res_map_ok, known1_at] at h
            cases h
          | true =>
            simp only [Bool.not_false, Bool.and_true, if_true] at h
            cases hy : x1.setX (Rng.down 1) i with
            | error e => rw [hy] at h; cases h
            | ok y => rw [hy, res_map_ok, Except.ok.injEq] at h; exact hx y hy h
  · rw [dflt1, res_map_ok] at h
    have : x1.at 0 ≠ .b1 := by decide
    exact absurd (Except.ok.inj h) this

/-- **C04, 4-state, exactly.** A `logic` of a range with `int` bounds reads back every known bit that is written, if and only if its
low bound is 0. -/
theorem C04_logic_iff (r : Rng) (hl : -2 ^ 31 ≤ r.lo) (hh : r.hi < 2 ^ 31) :
    (∀ (x : Lg r.size s) (i : Int) (v : Bool), r.lo ≤ i → i ≤ r.hi →
      ∃ y, x.set r i v = .ok y ∧ (y.get r i).map (·.at 0) = .ok (V4.ofBool v)) ↔ r.lo = 0 := by
  constructor
  · intro h
    by_contra h0
    obtain ⟨i, h1, h2, h3⟩ := C04_base_refuted_all (s := s) r h0 hl hh
    obtain ⟨y, hy, hg⟩ := h ⟨Bits.zero, Bits.zero⟩ i true h1 h2
    have hv := Lg.get_one r y i (by omega) (by omega) hg
    rw [Lg.set] at hy
    cases hz : (Bits.zero : Bits r.size s).set r i true with
    | error e => rw [hz] at hy; cases hy
    | ok z =>
      rw [hz, res_bind_ok] at hy
      cases hw : (Bits.zero : Bits r.size false).set r i false with
      | error e => rw [hw] at hy; cases hy
      | ok w =>
        rw [hw, res_map_ok, Except.ok.injEq] at hy
        subst hy
        exact h3 z hz hv
  · intro h0 x i v h1 h2
    obtain ⟨y, hy, hv, hk⟩ := Lg.set_phys r x i (r.pos i) (by rw [Bits.physIdx_pos h0 h1 h2, h0]; simp) (Rng.pos_lt h1 h2)
      (by simp only [Rng.size, Rng.lo, Rng.hi] at *; omega) v
    refine ⟨y, hy, ?_⟩
    have e : y.at (r.pos i) = V4.ofBool v := by
      rw [Lg.at_write (Rng.pos_lt h1 h2) hv hk, if_pos rfl]; cases v <;> rfl
    rw [Lg.get_exact r y i _ (Bits.physIdx_pos h0 h1 h2) (Rng.pos_lt h1 h2) (by simp only [Rng.size, Rng.lo, Rng.hi] at *; omega)
      h1 h2 (by omega) (by omega), e, if_pos (by right; cases v <;> rfl)]

/-- **C06, 4-state, wide.** On every descending range, and on every range with low bound 0, `set`, `set_x`, `set_z` and `set` of a
`logic<0>` at an index outside the range leave the whole object unchanged. Missing: native values, where it is false
(`C06_logic_native_exact` says what happens), and ascending ranges with another low bound (`C06_ascending_refuted`). -/
theorem C06_logic_wide_partial (r : Rng) (hw : 64 < r.size) (x : Lg r.size s) (i : Int)
    (hr : r.lsb ≤ r.msb ∨ r.lo = 0) (hi : -2 ^ 31 ≤ i ∧ i < 2 ^ 31)
    (hm : -2 ^ 31 ≤ r.msb ∧ r.msb < 2 ^ 31) (hl : -2 ^ 31 ≤ r.lsb ∧ r.lsb < 2 ^ 31)
    (h : i < r.lo ∨ r.hi < i) (v : Bool) (l : Lg 1 t) :
    x.set r i v = .ok x ∧ x.setX r i = .ok x ∧ x.setZ r i = .ok x ∧ x.setL r i l = .ok x := by
  have hv := fun b => C06_write_out_of_range_partial r hw x.value i hr hi hm hl h b
  have hk := fun b => C06_write_out_of_range_partial r hw x.xz i hr hi hm hl h b
  simp only [Lg.set, Lg.setX, Lg.setZ, Lg.setL, hv, hk, res_bind_ok, res_map_ok, and_self]

/-- **C06, 4-state, native `[n-1:0]`, every index outside the range.** A negative index or one from 64 on is an undefined shift, one
beyond the storage is ignored, one in the padding of the storage leaves the declared bits as they are, and changes that padding bit of both
planes. -/
theorem C06_logic_native_exact (h1 : 1 < n) (h : n ≤ 64) (x : Lg n s) (i : Int) (hi : -2 ^ 31 ≤ i ∧ i < 2 ^ 31) (l : Lg 1 t) :
    (i < 0 ∨ 64 ≤ i → x.setL (Rng.down n) i l = .error .shift) ∧
    ((hw n : Int) ≤ i → i < 64 → x.setL (Rng.down n) i l = .ok x) ∧
    ((n : Int) ≤ i → i < hw n → ∃ y, x.setL (Rng.down n) i l = .ok y ∧ (∀ j, y.at j = x.at j) ∧
      (∀ j : Nat, y.value.raw j = if (j : Int) = i then l.value.bv.getLsbD 0 else x.value.raw j) ∧
      ∀ j : Nat, y.xz.raw j = if (j : Int) = i then l.xz.bv.getLsbD 0 else x.xz.raw j) := by
  obtain ⟨a1, a2, a3⟩ := C06_native_exact h1 h x.value i hi (Lg.hold1 l.value)
  obtain ⟨b1, b2, b3⟩ := C06_native_exact h1 h x.xz i hi (Lg.hold1 l.xz)
  have hb : ∀ {s : Bool} (b : Bits 1 s), Lg.hold1 b = b.bv.getLsbD 0 := by
    intro s b
    rw [Lg.hold1_eq, Bits.getLsbD_bv]; simp
  refine ⟨fun e => ?_, fun e1 e2 => ?_, fun e1 e2 => ?_⟩
  · rw [Lg.setL, a1 e]; rfl
  · rw [Lg.setL, a2 e1 e2, res_bind_ok, b2 e1 e2, res_map_ok]
  · obtain ⟨v, hv, cv, rv⟩ := a3 e1 e2
    obtain ⟨k, hk, ck, rk⟩ := b3 e1 e2
    refine ⟨⟨v, k⟩, by rw [Lg.setL, hv, res_bind_ok, hk, res_map_ok], fun j => ?_, ?_, ?_⟩
    · simp only [Lg.at, cv, ck]
    · rw [← hb]; exact rv
    · rw [← hb]; exact rk

/-- non-vacuity: `logic<0, 79>`, index 70; `logic<4, 1>`, where a written 1 is not read back; `logic<3, 0>` with an x written at
index 5 -/
example : ((Lg.ofInt 9 : Lg 80 false).setX (Rng.up 80) 70).bind (fun y => y.get (Rng.up 80) 70) = .error .shift ∧
    (((Lg.ofInt 0 : Lg 4 false).set ⟨4, 1⟩ 2 true).bind fun y => y.get ⟨4, 1⟩ 2).map (·.at 0) = .ok .b0 ∧
    (Lg.ofInt 9 : Lg 4 false).setX (Rng.down 4) 5 = .ok ⟨.nat (by decide) 9, .nat (by decide) 32⟩ ∧
    (Lg.ofInt 9 : Lg 80 false).setX (Rng.down 80) 85 = .ok (Lg.ofInt 9) := by decide +kernel

end Verif
