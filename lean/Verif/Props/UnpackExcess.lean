import Verif.Props.Concat
import Verif.Props.Assign

/-!
# Unpacking into more bits than there are (C53)

`upper_bound` of `logic.hh` 1094 stops at the top of the vector: the first argument of a descending vector may
be wider than what is left for it.
-/

namespace Verif

variable {n m : Nat} {s t : Bool}

/-- a narrower slice assigned to a plane of an `unpack` target -/
theorem Lg.assignPlane_short {k w : Nat} (hk : k < w) (h64 : w ≤ 64) (h0 : 0 < k) (b : Bits k false) (hb : b.Clean) (t : Bool) :
    ∃ z : Bits w t, Lg.assignPlane b = .ok z ∧ z.Clean ∧ ∀ i, z.bv.getLsbD i = b.bv.getLsbD i := by
  have e : (Lg.assignPlane b : Res (Bits w t)) = .ok (b.assignNat h64) := by
    rw [Lg.assignPlane, dif_neg (by omega), dif_pos h64, if_pos (by omega)]; rfl
  obtain ⟨e1, e2⟩ := C93_assign_partial (t := t) (by omega) h64 (by omega) b hb
  have e3 : BitVec.ofInt w (numOf false b.bv) = b.bv.setWidth w := by
    show BitVec.ofInt w (b.bv.toNat : Int) = _
    rw [ofInt_natCast]; exact BitVec.eq_of_toNat_eq (by simp)
  refine ⟨_, e, (e2 ?_).1, fun i => ?_⟩
  · rw [e3]
    have hlt := b.bv.isLt
    have : 2 ^ (k + 1) ≤ 2 ^ w := Nat.pow_le_pow_right (by decide) hk
    rw [pow_succ] at this
    have hn : (b.bv.setWidth w).toNat = b.bv.toNat := by
      rw [BitVec.toNat_setWidth, Nat.mod_eq_of_lt (by omega)]
    cases t
    · show ((b.bv.setWidth w).toNat : Int) = _
      rw [hn]; rfl
    · rw [show numOf true (b.bv.setWidth w) = (b.bv.setWidth w).toInt by rw [numOf, if_pos (by simp; omega)],
        BitVec.toInt_eq_toNat_of_lt (by omega), hn]; rfl
  · rw [e1, e3, BitVec.getLsbD_setWidth]
    by_cases h : i < k
    · simp; omega
    · rw [BitVec.getLsbD_of_ge _ _ (by omega)]; simp

/-- one field that is wider than what is left of a native or wide unsigned vector -/
theorem Lg.unpackOne_excess (x : Lg n false) {base w : Nat} (hb : base < n) (he : n < base + w) (h64 : w ≤ 64) (t : Bool) :
    ∃ y : Lg w t, x.unpackOne (Rng.down n) base w t = .ok y ∧ y.Clean ∧
      ∀ i, i < w → y.at i = if base + i < n then x.at (base + i) else .b0 := by
  have hub : min (n - 1) (w + base - 1) = n - 1 := by omega
  have slc : ∀ (p : Bits n false) (t : Bool), ∃ v, p.slice (Rng.down n) base (min (n - 1) (w + base - 1)) = .ok v ∧
      ∃ z : Bits w t, Lg.assignPlane v = .ok z ∧ z.Clean ∧
        ∀ i, z.bv.getLsbD i = if base + i < n then p.bv.getLsbD (base + i) else false := by
    intro p t
    obtain ⟨v, hv, cv, ev⟩ := C49_slice p base (min (n - 1) (w + base - 1)) (by omega) (by omega) (by omega)
    obtain ⟨z, hz, cz, ez⟩ := Lg.assignPlane_short (w := w) (by omega) h64 (by omega) v cv t
    refine ⟨v, hv, z, hz, cz, fun i => ?_⟩
    rw [ez]
    by_cases h : base + i < n
    · rw [if_pos h, ev i (by omega)]; exact congrArg _ (by omega)
    · rw [if_neg h]; exact BitVec.getLsbD_of_ge _ _ (by omega)
  obtain ⟨v, hv, v', hv', cv, ev⟩ := slc x.value t
  obtain ⟨k, hk, k', hk', ck, ek⟩ := slc x.xz false
  refine ⟨⟨v', k'⟩, ?_, ⟨cv, ck⟩, fun i _ => ?_⟩
  · rw [Lg.unpackOne, if_pos hb]
    simp only
    rw [hv, res_bind_ok, hv', res_bind_ok, hk, res_bind_ok, hk', res_map_ok]
  · rw [Lg.at, ev, ek]
    split_ifs with h
    · rfl
    · rfl

theorem Lg.unpackFrom_append (r : Rng) (x : Lg n s) (w : Nat) (t : Bool) : ∀ (ws : List (Nat × Bool)) (base : Nat),
    x.unpackFrom r base (ws ++ [(w, t)]) = (x.unpackFrom r base ws).bind fun ys =>
      (x.unpackOne r (base + total ws) w t).map fun y => ys ++ [⟨(w, t), y⟩]
  | [], base => by
    rw [List.nil_append, Lg.unpackFrom, Lg.unpackFrom, Lg.unpackFrom, res_bind_ok]
    rw [show base + total [] = base from rfl]
    cases x.unpackOne r base w t <;> rfl
  | (v, u) :: ws, base => by
    rw [List.cons_append, Lg.unpackFrom, Lg.unpackFrom_append r x w t ws, Lg.unpackFrom]
    have htot : base + total ((v, u) :: ws) = base + v + total ws := by simp [total]; omega
    rw [htot]
    cases x.unpackOne r base v u with
    | error e => rfl
    | ok y =>
      rw [res_bind_ok, res_bind_ok]
      cases x.unpackFrom r (base + v) ws with
      | error e => rfl
      | ok ys =>
        rw [res_bind_ok, res_map_ok, res_bind_ok]
        cases x.unpackOne r (base + v + total ws) w t <;> rfl

/-- **C53, more bits asked for than there are.** If the arguments after the first take `p < n` bits of an
unsigned `[n-1:0]` vector and the first is a native variable of more than `n - p` bits, it receives the bits that
are left, zero extended whatever its sign; the others are as in `C53_unpack_partial`. -/
theorem C53_excess (x : Lg n false) (w : Nat) (t : Bool) (ws : List (Nat × Bool))
    (h0 : ∀ v ∈ ws, 0 < v.1 ∧ v.1 ≠ 65) (hlt : (ws.map Prod.fst).sum < n) (he : n < w + (ws.map Prod.fst).sum) (h64 : w ≤ 64) :
    ∃ (y : Lg w t) (ys : List Lg.Target), x.unpack (Rng.down n) ((w, t) :: ws) = .ok (⟨(w, t), y⟩ :: ys) ∧
      x.unpack (Rng.down n) ws = .ok ys ∧ y.Clean ∧
      ∀ i, i < w → y.at i = if (ws.map Prod.fst).sum + i < n then x.at ((ws.map Prod.fst).sum + i) else .b0 := by
  have hbe : (Rng.down n).bigEndian = true := by simp [Rng.down, Rng.bigEndian]; omega
  have hl : (Rng.down n).lsb.toNat = 0 := rfl
  have ht : total ws.reverse = (ws.map Prod.fst).sum := total_reverse ws
  obtain ⟨ys, hys, -⟩ := Lg.unpackFrom_down (Or.inl rfl) x ws.reverse 0 (fun v hv => h0 v (by simpa using hv)) (by omega)
  obtain ⟨y, hy, cy, ey⟩ := Lg.unpackOne_excess x (base := 0 + total ws.reverse) (w := w) (by omega) (by omega) h64 t
  refine ⟨y, ys.reverse, ?_, ?_, cy, fun i hi => ?_⟩
  · rw [Lg.unpack, if_pos hbe, hl, List.reverse_cons, Lg.unpackFrom_append, hys, res_bind_ok, hy, res_map_ok, res_map_ok]
    simp
  · rw [Lg.unpack, if_pos hbe, hl, hys, res_map_ok]
  · rw [ey i hi, ht, Nat.zero_add]

/-- **C53, with nothing left.** Arguments after the first that already take all bits: the first does not compile. -/
theorem C53_no_bits (x : Lg n false) (hn : 0 < n) (w : Nat) (t : Bool) (ws : List (Nat × Bool))
    (h0 : ∀ v ∈ ws, 0 < v.1 ∧ v.1 ≠ 65) (hlt : (ws.map Prod.fst).sum = n) :
    x.unpack (Rng.down n) ((w, t) :: ws) = .error .illFormed := by
  have hbe : (Rng.down n).bigEndian = true := by simp [Rng.down, Rng.bigEndian]; omega
  have hl : (Rng.down n).lsb.toNat = 0 := rfl
  have ht : total ws.reverse = (ws.map Prod.fst).sum := total_reverse ws
  obtain ⟨ys, hys, -⟩ := Lg.unpackFrom_down (Or.inl rfl) x ws.reverse 0 (fun v hv => h0 v (by simpa using hv)) (by omega)
  have : x.unpackOne (Rng.down n) (0 + total ws.reverse) w t = .error .illFormed := by
    rw [Lg.unpackOne, if_neg (by omega)]
  rw [Lg.unpack, if_pos hbe, hl, List.reverse_cons, Lg.unpackFrom_append, hys, res_bind_ok, this]; rfl

/-- eight bits into a variable of 64 bits and one of three -/
example : ((Lg.ofInt 0b10110100 : Lg 8 false).unpack (Rng.down 8) [(64, true), (3, false)]).map
    (fun ys => ys.map fun y => ((List.range 6).map y.2.at, y.2.value.bv.toNat)) =
    .ok [([.b0, .b1, .b1, .b0, .b1, .b0], 22), ([.b0, .b0, .b1, .b0, .b0, .b0], 4)] := by decide +kernel

end Verif
