import Verif.Props.Concat

/-!
# Exact run-time slices and unpacking of native signed values

Completes C51 (when the result is canonical) and C53 (native signed values).
-/

namespace Verif

variable {n : Nat} {s : Bool}

/-- **C51, when the result is canonical.** The run-time slice of a value wider than one bit
has the right bits, and it is canonical unless the source is a negative native signed
value without spare bits (8, 16, 32 or 64 bits), the slice includes its top bit, has more
than one bit, and is shorter than its own holder. -/
theorem C51_canonical_iff (h1 : 1 < n) (hN : n ≤ 2 ^ 32) (x : Bits n s) (k a b : Nat) (ha : a < n) (hb : b < n)
    (hk : max a b - min a b + 1 = k) :
    ∃ z, x.sliceRt (Rng.down n) k a b = .ok z ∧
      (∀ i, i < k → z.bv.getLsbD i = x.bv.getLsbD (min a b + i)) ∧
      (z.Clean ↔ ¬ (s = true ∧ Full n ∧ n ≤ 64 ∧ max a b + 1 = n ∧ x.bv.getLsbD (n - 1) = true ∧
        1 < k ∧ ¬ Full k)) := by
  obtain ⟨z, hz, hb', hc⟩ := C51_slice_partial h1 hN x k a b ha hb hk
  refine ⟨z, hz, hb', ?_⟩
  constructor
  · rintro hcl ⟨hs, hf, h, hq, ht, hk1, hfk⟩
    have hlo := Rng.lo_down (show 0 < n by omega)
    have hk64 : k ≤ 64 := by omega
    have hwn : hw n = n := (Bits.full_iff (by omega) h).1 hf
    obtain ⟨v, hv, hbits⟩ := Bits.sliceRt_native h h1 (Rng.down n) x hk64 (a := a) (b := b) (p := min a b)
      (q := max a b) (by rw [hlo]; omega) (by rw [hlo]; omega) (by omega) (by omega)
    have e : z = Bits.mkN hk64 v := by rw [hv] at hz; injection hz with h; exact h.symm
    subst e
    have hkw := le_hw hk64
    have hkne : hw k ≠ k := fun e => hfk ((Bits.full_iff (by omega) hk64).2 e)
    have := (Bits.clean_unsigned_iff _).1 hcl k (le_refl _)
    rw [Bits.raw_mkN hk64 hk1, hbits, if_neg (by omega)] at this
    rw [Bits.getLsbD_bv] at ht
    have hr : x.raw (hw n - 1) = true := by
      rw [show hw n - 1 = n - 1 by omega]; simpa [show n - 1 < n by omega] using ht
    have h3 : k < hw k := by omega
    simp [hs, hr, h3, show max a b + 1 = hw n by omega] at this
  · intro hno
    rcases hc with hc | ⟨hs, h, hq, ht⟩
    · exact hc
    · have hle := le_hw h
      have hwn : hw n = n := by omega
      have hf := (Bits.full_iff (by omega) h).2 hwn
      have hk64 : k ≤ 64 := by omega
      by_cases hk1 : k = 1
      · subst hk1
        rw [Bits.clean_unsigned_iff]
        intro i hi
        rw [Bits.raw_native (by decide)]
        exact BitVec.getLsbD_of_ge _ _ (by show hw 1 ≤ i; exact hi)
      · have hfk : Full k := by
          by_contra hfk
          exact hno ⟨hs, hf, h, by omega, ht, by omega, hfk⟩
        have hwk := (Bits.full_iff (by omega) hk64).1 hfk
        rw [Bits.clean_unsigned_iff]
        intro i hi
        rw [Bits.raw_native hk64]
        exact BitVec.getLsbD_of_ge _ _ (by omega)

-- a signed 16-bit -1: `slice<8>(15, 8)` is canonical, `slice<7>(15, 9)` is not
example : ∃ z, (Bits.ofInt (-1) : Bits 16 true).sliceRt (Rng.down 16) 8 15 8 = .ok z ∧ z.Clean :=
  ⟨Bits.ofInt 255, by decide +kernel⟩
example : ((Bits.ofInt (-1) : Bits 16 true).sliceRt (Rng.down 16) 7 15 9).map
    (fun z => (z.bv.toNat, z.raw 7)) = .ok (127, true) := by decide +kernel

/-! ## C53 -/

/-- one field of a native signed value below the top of its holder -/
theorem Lg.unpackOne_signed (h : n ≤ 64) (h1 : 1 < n) (x : Lg n true) {base w : Nat} (hw0 : 0 < w)
    (hb : base + w ≤ n) (hlt : base + w < hw n) (t : Bool) :
    ∃ y : Lg w t, x.unpackOne (Rng.down n) base w t = .ok y ∧ ∀ i, i < w → y.at i =
      if w = 1 then V4.mk (x.value.raw base || x.value.raw (base + 1)) (x.xz.bv.getLsbD base)
      else x.at (base + i) := by
  have hub : min (n - 1) (w + base - 1) = w + base - 1 := by omega
  obtain ⟨v, hv, hvb⟩ : ∃ v, x.value.slice (Rng.down n) base (min (n - 1) (w + base - 1)) = .ok v ∧
      ∀ i, i < w → v.raw i = if w = 1 then (x.value.raw base || x.value.raw (base + 1))
        else x.value.bv.getLsbD (base + i) := by
    by_cases hw1 : w = 1
    · have e : min (n - 1) (w + base - 1) = base := by omega
      rw [e]
      have := C50_one_bit h h1 x.value base (by omega) (by omega)
      cases hz : x.value.slice (Rng.down n) base base with
      | error f => rw [hz] at this; cases this
      | ok v =>
        rw [hz, res_map_ok] at this
        injection this with this
        refine ⟨v, rfl, fun i hi => ?_⟩
        rw [if_pos hw1, show i = 0 by omega, this]
    · obtain ⟨v, hv, hvb, -⟩ := C50_slice_partial h x.value base (min (n - 1) (w + base - 1)) (by omega) (by omega)
        (by omega) (by omega)
      refine ⟨v, hv, fun i hi => ?_⟩
      have := hvb i (by omega)
      rw [Bits.getLsbD_bv v] at this
      have e2 : i < max base (min (n - 1) (w + base - 1)) - min base (min (n - 1) (w + base - 1)) + 1 := by omega
      rw [decide_eq_true e2, Bool.true_and] at this
      rw [if_neg hw1, this]
      exact congrArg _ (by omega)
  obtain ⟨k, hk, hkc, hkb⟩ := C49_slice x.xz base (min (n - 1) (w + base - 1)) (by omega) (by omega) (by omega)
  obtain ⟨v', hv', hvr⟩ := Lg.assignPlane_eq (w := w) (by omega) v t
  obtain ⟨k', hk', hkr⟩ := Lg.assignPlane_eq (w := w) (by omega) k false
  refine ⟨⟨v', k'⟩, ?_, fun i hi => ?_⟩
  · rw [Lg.unpackOne, if_pos (by omega)]
    simp only
    rw [hv, res_bind_ok, hv', res_bind_ok, hk, res_bind_ok, hk', res_map_ok]
  · have h2 := (hkb i (by omega)).trans (congrArg x.xz.bv.getLsbD (show _ = base + i by omega))
    rw [Bits.getLsbD_bv k] at h2
    have e2 : i < max base (min (n - 1) (w + base - 1)) - min base (min (n - 1) (w + base - 1)) + 1 := by omega
    rw [decide_eq_true e2, Bool.true_and] at h2
    rw [Lg.at, Lg.at, Bits.getLsbD_bv v', hvr, Bits.getLsbD_bv k', hkr, decide_eq_true hi, Bool.true_and,
      Bool.true_and, hvb i hi, h2]
    split_ifs with hw1
    · rw [show base + i = base by omega]
    · rfl

theorem Lg.unpackOne_top (h : n ≤ 64) (h1 : 1 < n) (hf : hw n = n) (x : Lg n true) {base w : Nat} (hw0 : 0 < w)
    (hb : base + w = n) (t : Bool) : x.unpackOne (Rng.down n) base w t = .error .shift := by
  have hlo := Rng.lo_down (show 0 < n by omega)
  rw [Lg.unpackOne, if_pos (by omega)]
  simp only
  rw [(Bits.slice_native h h1 (Rng.down n) x.value (a := base) (b := min (n - 1) (w + base - 1)) (by omega)
    (p := base) (q := n - 1) (by rw [hlo]; omega) (by rw [hlo]; omega) (by omega)).2 (by simp; omega)]
  rfl

theorem Lg.unpackFrom_top (h : n ≤ 64) (h1 : 1 < n) (hf : hw n = n) (x : Lg n true) :
    ∀ (ws : List (Nat × Bool)) (base : Nat), ws ≠ [] → (∀ w ∈ ws, 0 < w.1) → base + total ws = n →
      x.unpackFrom (Rng.down n) base ws = .error .shift := by
  intro ws
  induction ws with
  | nil => intro base h; exact absurd rfl h
  | cons w ws ih =>
    obtain ⟨w, t⟩ := w
    intro base _ h0 hle
    have htot : total ((w, t) :: ws) = w + total ws := by simp [total]
    rw [htot] at hle
    have hw0 := h0 (w, t) (by simp)
    by_cases hws : ws = []
    · subst hws
      have : total [] = 0 := rfl
      rw [Lg.unpackFrom, Lg.unpackOne_top h h1 hf x hw0 (by omega)]
      rfl
    · have hpos : 0 < total ws := by
        obtain ⟨v, vs, rfl⟩ := List.exists_cons_of_ne_nil hws
        have := h0 v (by simp)
        simp only [total, List.map_cons, List.sum_cons]
        omega
      obtain ⟨y, hy, -⟩ := Lg.unpackOne_signed h h1 x hw0 (base := base) (by omega) (by omega) t
      rw [Lg.unpackFrom, hy, res_bind_ok, ih (base + w) hws (fun v hv => h0 v (by simp [hv])) (by omega)]
      rfl

/-- **C53 is false for every native signed value without spare bits** (8, 16, 32 or 64
bits): unpacking it completely is undefined behaviour, whatever the fields and the value. -/
theorem C53_signed_refuted (h : n ≤ 64) (h1 : 1 < n) (hf : Full n) (x : Lg n true) (ws : List (Nat × Bool))
    (h0 : ∀ w ∈ ws, 0 < w.1) (hsum : (ws.map Prod.fst).sum = n) :
    x.unpack (Rng.down n) ws = .error .shift := by
  have hbe : (Rng.down n).bigEndian = true := by simp [Rng.down, Rng.bigEndian]; omega
  have hl : (Rng.down n).lsb.toNat = 0 := rfl
  rw [Lg.unpack, if_pos hbe, hl, Lg.unpackFrom_top h h1 ((Bits.full_iff (by omega) h).1 hf) x ws.reverse 0]
  · rfl
  · intro hn
    have : ws = [] := by simpa using hn
    subst this
    simp at hsum; omega
  · intro w hw; exact h0 w (by simpa using hw)
  · rw [total_reverse, total]; omega

theorem Lg.unpackFrom_signed (h : n ≤ 64) (h1 : 1 < n) (x : Lg n true) : ∀ (ws : List (Nat × Bool)) (base : Nat),
    (∀ w ∈ ws, 0 < w.1) → base + total ws ≤ n → base + total ws < hw n →
    ∃ ys, x.unpackFrom (Rng.down n) base ws = .ok ys ∧ ys.map Sigma.fst = ws ∧
      ∀ j (hj : j < ys.length), ∀ i, i < ys[j].1.1 → ys[j].2.at i =
        if ys[j].1.1 = 1 then V4.mk (x.value.raw (base + total (ws.take j)) ||
          x.value.raw (base + total (ws.take j) + 1)) (x.xz.bv.getLsbD (base + total (ws.take j)))
        else x.at (base + total (ws.take j) + i) := by
  intro ws
  induction ws with
  | nil => intro base _ _ _; exact ⟨[], rfl, rfl, fun j hj => absurd hj (by simp)⟩
  | cons w ws ih =>
    obtain ⟨w, t⟩ := w
    intro base h0 hle hlt
    have htot : total ((w, t) :: ws) = w + total ws := by simp [total]
    rw [htot] at hle hlt
    obtain ⟨y, hy, hyb⟩ := Lg.unpackOne_signed h h1 x (h0 (w, t) (by simp)) (base := base) (by omega) (by omega) t
    obtain ⟨ys, hys, hmap, hf⟩ := ih (base + w) (fun v hv => h0 v (by simp [hv])) (by omega) (by omega)
    refine ⟨⟨(w, t), y⟩ :: ys, ?_, by simp [hmap], fun j hj => ?_⟩
    · rw [Lg.unpackFrom, hy, res_bind_ok, hys, res_map_ok]
    · rcases j with _ | j
      · simpa [total] using hyb
      · have := hf j (by simpa using hj)
        rw [List.take_succ_cons, show total ((w, t) :: ws.take j) = w + total (ws.take j) by simp [total],
          ← Nat.add_assoc]
        exact this

/-- **C53, native signed values, exactly**: when the fields stay below the top of the
holder, a field of more than one bit receives its bits; a one-bit field receives the *or*
of its value bit and the stored bit above it. -/
theorem C53_signed_exact (h : n ≤ 64) (h1 : 1 < n) (x : Lg n true) (ws : List (Nat × Bool))
    (h0 : ∀ w ∈ ws, 0 < w.1) (hle : (ws.map Prod.fst).sum ≤ n) (hlt : (ws.map Prod.fst).sum < hw n) :
    ∃ ys, x.unpack (Rng.down n) ws = .ok ys ∧ ys.map Sigma.fst = ws ∧
      ∀ j (hj : j < ys.length), ∀ i, i < ys[j].1.1 → ys[j].2.at i =
        let off := ((ws.drop (j + 1)).map Prod.fst).sum
        if ys[j].1.1 = 1 then V4.mk (x.value.raw off || x.value.raw (off + 1)) (x.xz.bv.getLsbD off)
        else x.at (off + i) := by
  obtain ⟨ys, hys, hmap, hf⟩ := Lg.unpackFrom_signed h h1 x ws.reverse 0 (fun w hw => h0 w (by simpa using hw))
    (by rw [total_reverse]; simpa [total] using hle) (by rw [total_reverse]; simpa [total] using hlt)
  refine ⟨ys.reverse, ?_, by rw [List.map_reverse, hmap, List.reverse_reverse], fun j hj => ?_⟩
  · have hbe : (Rng.down n).bigEndian = true := by simp [Rng.down, Rng.bigEndian]; omega
    have hl : (Rng.down n).lsb.toNat = 0 := rfl
    rw [Lg.unpack, if_pos hbe, hl, hys, res_map_ok]
  · rw [List.length_reverse] at hj
    have hlen : ys.length = ws.length := by rw [← List.length_map (f := Sigma.fst), hmap, List.length_reverse]
    rw [List.getElem_reverse]
    have := hf (ys.length - 1 - j) (by omega)
    have e : 0 + total (ws.reverse.take (ys.length - 1 - j)) = ((ws.drop (j + 1)).map Prod.fst).sum := by
      rw [List.take_reverse, total_reverse, Nat.zero_add, show ws.length - (ys.length - 1 - j) = j + 1 by omega]
      rfl
    rw [e] at this
    exact this

-- the one-bit middle field of the signed 5-bit 0b01011 is 0, its neighbour above is 1
example : ((Lg.ofInt 0b01011 : Lg 5 true).unpack (Rng.down 5) [(2, false), (1, false), (2, false)]).map
    (fun ys => ys.map fun y => (List.range y.1.1).map y.2.at) =
    .ok [[.b1, .b0], [.b1], [.b1, .b1]] := by decide +kernel

end Verif
