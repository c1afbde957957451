import Verif.Conformance
import Verif.Props.WideDivSign

/-!
# The 300-bit divisions of the project's tests

The wide cases of `divide` and `mod` of `/repo/tests/test_logic.cc` lines 940-1002; see
`Conformance.lean`. One quotient and one remainder. The operands are evaluated by the kernel; the division loops
take the kernel more than 6 GB, so the results come from `C123_wide_div_exact` and `C120_wide_exact`.
-/

namespace Verif.Conformance

open Verif

/-- 300 ones -/
def ones300 : Res (Lg 300 false) := (Lg.ofInt 0 : Lg 300 false).not
/-- `10` repeated 18 times -/
def alt : List Char := (List.replicate 18 ['1', '0']).flatten
/-- the value plane and the x/z plane as numbers: the tests compare the binary texts, here the numbers
that the texts denote are compared -/
def planes {n : Nat} {s : Bool} (x : Lg n s) : Res (Nat × Nat) := .ok (x.value.bv.toNat, x.xz.bv.toNat)

/-- the stored words of both planes of a wide object -/
def words {n : Nat} {s : Bool} (h : ¬ n ≤ 64) (x : Lg n s) : Nat × Nat :=
  (val (x.value.bg h).vals, val (x.xz.bg h).vals)

theorem words_spec {n : Nat} {s : Bool} (h : ¬ n ≤ 64) {x : Lg n s} {a : Nat} (ha : a < 2 ^ n) (e : words h x = (a, 0)) :
    x.value.Clean ∧ x.value.bv.toNat = a ∧ x.Known := by
  have e1 : val (x.value.bg h).vals = a := congrArg Prod.fst e
  have e2 : val (x.xz.bg h).vals = 0 := congrArg Prod.snd e
  have c1 : (x.value.bg h).Clean := by rw [Big.Clean, e1]; exact ha
  have c2 : (x.xz.bg h).Clean := by rw [Big.Clean, e2]; exact Nat.two_pow_pos n
  refine ⟨(Bits.clean_big h _).2 c1, by rw [Bits.bv_big h, c1.toNat_bv, e1], (Bits.clean_big h _).2 c2, fun i _ => ?_⟩
  have hz : x.xz.bv = 0 := BitVec.eq_of_toNat_eq (by rw [Bits.bv_big h, c2.toNat_bv, e2]; simp)
  rw [Lg.at, isKnown_mk, hz]; simp

theorem ones300_spec : ∃ x, ones300 = .ok x ∧ x.value.Clean ∧ x.value.bv.toNat = 2 ^ 300 - 1 ∧ x.Known := by
  have e : ones300.map (words (by decide)) = .ok (2 ^ 300 - 1, 0) := by decide +kernel
  cases h : ones300 with
  | error f => rw [h] at e; cases e
  | ok x => rw [h] at e; exact ⟨x, rfl, words_spec (by decide) (by decide) (by injection e)⟩

theorem alt_spec : ∃ x, L 101 false (S "'b" ++ alt) = .ok x ∧ x.value.Clean ∧ x.value.bv.toNat = 45812984490 ∧ x.Known := by
  have e : (L 101 false (S "'b" ++ alt)).map (words (by decide)) = .ok (45812984490, 0) := by decide +kernel
  cases h : L 101 false (S "'b" ++ alt) with
  | error f => rw [h] at e; cases e
  | ok x => rw [h] at e; exact ⟨x, rfl, words_spec (by decide) (by decide) (by injection e)⟩

theorem ones_not_lowOnly {b : BitVec 300} (h : b.toNat = 2 ^ 300 - 1) : ¬ LowOnly b := fun hc => by
  have := hc 64 (by decide) (by decide)
  rw [← BitVec.testBit_toNat, h] at this
  revert this; decide +kernel

example : (do planes (← (← ones300).divMix (lit 42))) =
    .ok (0b1100001100001100001100001100001100001100001100001100001100001100001100001100001100001100001100001100001100001100001100001100001100001100001100001100001100001100001100001100001100001100001100001100001100001100001100001100001100001100001100001100001100001100001100001100001100001100001100001100001, 0) := by
  obtain ⟨x, hx, cx, nx, kx⟩ := ones300_spec
  have cl : (lit 42).value.Clean := (Bits.clean_native (by decide) _).2 (by decide +kernel)
  have nl : numOf true (lit 42).value.bv = 42 := by decide +kernel
  have kl : (lit 42).Known := ⟨(Bits.clean_native (by decide) _).2 (by decide +kernel), by decide +kernel⟩
  obtain ⟨q, r, hq, -, -, -, -, h1⟩ := C123_wide_div_exact (by decide) (by decide) (by decide) (by decide) x.value
    (lit 42).value cx cl (Or.inl (by decide)) _ rfl
  have ha : AnyLow (BitVec.ofInt (max 300 32) (numOf true (lit 42).value.bv)) := by
    rw [nl]; exact ⟨1, by decide, by decide +kernel⟩
  have hd := (C123_wide_div_logic (by decide) (by decide) (by decide) x (lit 42) kx kl cl (Or.inl (by decide)) ha).1 q hq
  have hd' := ((h1 ha).2 (fun hc => absurd hc.1 (by rw [nl]; decide +kernel))).2 (fun hc => ones_not_lowOnly nx hc.2.1)
  rw [hx]
  show (x.divMix (lit 42)).bind planes = _
  rw [hd]
  show Except.ok (q.bv.toNat, (Bits.zero : Bits (max 300 32) false).bv.toNat) = _
  rw [hd'.1, nx, nl]
  decide +kernel

example : (do planes (← (← ones300).modMix (← L 101 false (S "'b" ++ alt)))) = .ok (0b111111111111, 0) := by
  obtain ⟨x, hx, cx, nx, kx⟩ := ones300_spec
  obtain ⟨y, hy, cy, ny, ky⟩ := alt_spec
  obtain ⟨q, r, -, hr, -, -, -, h1⟩ := C120_wide_exact (by decide) (by decide) (by decide) (by decide) x.value y.value cx cy
  have gy : ∀ i, y.value.bv.getLsbD i = (45812984490).testBit i := fun i => by rw [← BitVec.testBit_toNat, ny]
  have ha : AnyLow y.value.bv := ⟨1, by decide, by rw [gy]; decide +kernel⟩
  have hy0 : y.value.bv ≠ 0 := fun hc => by rw [hc] at ny; simp at ny
  have hl : LowHalves y.value.bv := by
    rintro c ⟨j, hj, hb⟩
    rcases Nat.eq_zero_or_pos c with rfl | hc
    · exact ⟨1, by decide, by rw [gy]; decide +kernel⟩
    · rw [gy, Nat.testBit_lt_two_pow (lt_of_lt_of_le (by decide : 45812984490 < 2 ^ 64)
        (Nat.pow_le_pow_right (by decide) (by omega)))] at hb
      cases hb
  have hd' := ((h1 ha).2 (fun hc => absurd hc.1 (by rw [ny]; decide +kernel))).2 (fun hc => ones_not_lowOnly nx hc.2.1)
  obtain ⟨z, hz, kz, ez⟩ := ((C120_div_logic (by decide) (by decide) x y kx ky cy).2 hy0 (fun _ => hl)).2 r hr
  rw [hx, hy]
  show (x.modMix y).bind planes = _
  rw [hz]
  show Except.ok (z.value.bv.toNat, z.xz.bv.toNat) = _
  have hz0 : z.xz.bv = 0 := BitVec.eq_of_getLsbD_eq fun i hi => by
    have := kz.2 i hi
    rw [Lg.at, isKnown_mk] at this
    simpa using this
  rw [ez, hd'.2, nx, ny, hz0]
  decide +kernel

end Verif.Conformance
