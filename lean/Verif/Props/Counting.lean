import Verif.Props.CanonicalExact
import Verif.Props.Coherence
import Verif.Props.Exactly
import Verif.Props.Lift
import Verif.Show

/-!
# Counters and counting loops (C155, C156)

What a client sees who counts with `++` and `--`, and who writes
`for (i = a; i < c; ++i)` with a vector as the loop variable.
-/

namespace Verif

variable {n m : Nat} {s t : Bool}

/-- the number in the whole storage of an object of either signedness -/
def Bits.cell : Bits n s → Nat
  | .nat _ r => r.toNat
  | .big _ b => val b.vals

theorem Bits.cell_native (h : n ≤ 64) (x : Bits n s) : x.cell = x.hold.toNat := by
  cases x with
  | nat _ _ => rfl
  | big h' _ => exact absurd h h'

theorem Bits.cell_big (h : ¬ n ≤ 64) (x : Bits n s) : x.cell = val (x.bg h).vals := by
  cases x with
  | nat h' _ => exact absurd h' h
  | big _ _ => rfl

theorem Bits.cell_sto (x : Bits n false) : x.cell = x.sto := by cases x <;> rfl

theorem Bits.cell_lt (x : Bits n s) : x.cell < 2 ^ stoW n := by
  by_cases h : n ≤ 64
  · rw [cell_native h, stoW, if_pos h]; exact x.hold.isLt
  · rw [cell_big h, stoW, if_neg h]; exact Big.val_lt' _

theorem Bits.bv_cell (x : Bits n s) : x.bv = BitVec.ofNat n x.cell := by
  by_cases h : n ≤ 64
  · rw [cell_native h, bv_native h]
    exact BitVec.eq_of_toNat_eq (by simp)
  · rw [cell_big h, bv_big h]
    exact BitVec.eq_of_toNat_eq (by rw [Big.toNat_bv]; simp)

theorem Bits.cell_inj {x y : Bits n s} (h : x.cell = y.cell) : x = y := by
  by_cases hn : n ≤ 64
  · rw [cell_native hn, cell_native hn] at h
    exact Bits.ext_native hn (BitVec.eq_of_toNat_eq h)
  · cases x with
    | nat h' _ => exact absurd h' hn
    | big _ a =>
      cases y with
      | nat h' _ => exact absurd h' hn
      | big _ b =>
        obtain ⟨a, la⟩ := a
        obtain ⟨b, lb⟩ := b
        have : a = b := val_inj (by rw [la, lb]) h
        subst this; rfl

theorem Bits.cell_raw {x : Bits n s} {y : Bits n t} (h : ∀ i, x.raw i = y.raw i) : x.cell = y.cell := by
  by_cases hn : n ≤ 64
  · rw [cell_native hn, cell_native hn]
    congr 1
    refine BitVec.eq_of_getLsbD_eq fun i hi => ?_
    rw [← raw_native hn, ← raw_native hn, h]
  · rw [cell_big hn, cell_big hn]
    refine Nat.eq_of_testBit_eq fun i => ?_
    rw [Big.testBit_val', Big.testBit_val', ← raw_big hn, ← raw_big hn, h]

theorem Bits.cell_toSign (x : Bits n s) : (x.toSign t).cell = x.cell :=
  Bits.cell_raw fun i => Bits.raw_toSign x i

theorem Bits.cell_clean {x : Bits n false} (hx : x.Clean) : x.cell = x.bv.toNat := by
  rw [Bits.cell_sto, Bits.sto_clean hx]

theorem Bits.clean_cell (x : Bits n false) : x.Clean ↔ x.cell < 2 ^ n := by
  rw [Bits.cell_sto, Bits.clean_sto]

theorem Bits.step_hold (h : n ≤ 64) (h1 : 1 < n) (x : Bits n s) (y : Bits n false) (f : Int → Int → Int)
    (hf : f = (· + ·) ∨ f = (· - ·)) (g : (w : Nat) → BitVec w → BitVec w → BitVec w)
    (hfg : ∀ w a b, BitVec.ofInt w (f a b) = g w (BitVec.ofInt w a) (BitVec.ofInt w b)) :
    ∃ z : Bits n (s && false), (TV.arith f x.nv y.nv).map (Bits.mkN h) = .ok z ∧ z.hold = g (Verif.hw n) x.hold y.hold := by
  have key := Bits.arith_exact h x y f g hfg
  have e : ∀ {u} (u : Bits n u), BitVec.ofInt (Verif.hw n) u.nv.v = u.hold := fun u => by
    rw [Bits.ofInt_nv h u (le_refl _), BitVec.setWidth_eq]
  split_ifs at key with hs
  · obtain ⟨v, hv, ev⟩ := key.1 (Bits.fits_addlike h h1 x y f hf (fun _ h => absurd h (by decide)) hs)
    refine ⟨Bits.mkN h v, by rw [hv]; rfl, ?_⟩
    rw [Bits.hold_mkN h (by omega), ev, hfg, e, e]
  · obtain ⟨v, hv, ev⟩ := key
    refine ⟨Bits.mkN h v, by rw [hv]; rfl, ?_⟩
    rw [Bits.hold_mkN h (by omega), ev, e, e]

theorem Bits.cell_one (h1 : 1 < n) : (Bits.oneN n).cell = 1 := by
  obtain ⟨c, e⟩ := Bits.oneN_spec (n := n) (by omega)
  rw [Bits.cell_clean c, e]
  simp [Nat.mod_eq_of_lt (Nat.one_lt_two_pow (by omega : n ≠ 0))]

/-- the whole storage counts up -/
theorem Bits.inc_cell (h1 : 1 < n) (x : Bits n s) :
    ∃ z, x.inc = .ok z ∧ z.cell = (x.cell + 1) % 2 ^ stoW n := by
  have o := Bits.cell_one h1
  by_cases h : n ≤ 64
  · obtain ⟨z, hz, e⟩ := Bits.step_hold h h1 x (Bits.oneN n) (· + ·) (Or.inl rfl) (fun _ a b => a + b)
      (fun w a b => BitVec.ofInt_add a b)
    refine ⟨z.toSign s, ?_, ?_⟩
    · rw [Bits.inc, Bits.add, dif_pos h]
      change ((TV.arith _ _ _).map _).map _ = _
      rw [hz]; rfl
    · rw [Bits.cell_native h] at o
      rw [Bits.cell_toSign, Bits.cell_native h, e, BitVec.toNat_add, Bits.cell_native h, o, stoW, if_pos h]
  · refine ⟨_, by rw [Bits.inc, Bits.add, dif_neg h]; rfl, ?_⟩
    rw [Bits.cell_big h] at o
    rw [Bits.cell_toSign, Bits.cell_big h, Bits.bg_big, Big.add_spec, Bits.cell_big h x, o, stoW, if_neg h]

/-- the whole storage counts down -/
theorem Bits.dec_cell (h1 : 1 < n) (x : Bits n s) :
    ∃ z, x.dec = .ok z ∧ z.cell = (x.cell + (2 ^ stoW n - 1)) % 2 ^ stoW n := by
  have o := Bits.cell_one h1
  by_cases h : n ≤ 64
  · obtain ⟨z, hz, e⟩ := Bits.step_hold h h1 x (Bits.oneN n) (· - ·) (Or.inr rfl) (fun _ a b => a - b)
      (fun w a b => ofInt_sub a b)
    refine ⟨z.toSign s, ?_, ?_⟩
    · rw [Bits.dec, Bits.sub, dif_pos h]
      change ((TV.arith _ _ _).map _).map _ = _
      rw [hz]; rfl
    · rw [Bits.cell_native h] at o
      rw [Bits.cell_toSign, Bits.cell_native h, e, BitVec.toNat_sub, Bits.cell_native h, o, stoW, if_pos h, Nat.add_comm]
  · refine ⟨_, by rw [Bits.dec, Bits.sub, dif_neg h]; rfl, ?_⟩
    rw [Bits.cell_big h] at o
    rw [Bits.cell_toSign, Bits.cell_big h, Bits.bg_big, Big.sub_spec (by omega), Bits.cell_big h x, o, stoW, if_neg h]

/-! ## C155: counters -/

/-- `++x` executed `k` times -/
def Bits.incN : Nat → Bits n s → Res (Bits n s)
  | 0, x => .ok x
  | k + 1, x => x.inc.bind (Bits.incN k)

/-- `--x` executed `k` times -/
def Bits.decN : Nat → Bits n s → Res (Bits n s)
  | 0, x => .ok x
  | k + 1, x => x.dec.bind (Bits.decN k)

theorem Bits.incN_cell (h1 : 1 < n) : (k : Nat) → (x : Bits n s) →
    ∃ z, x.incN k = .ok z ∧ z.cell = (x.cell + k) % 2 ^ stoW n
  | 0, x => ⟨x, rfl, by rw [Nat.add_zero, Nat.mod_eq_of_lt x.cell_lt]⟩
  | k + 1, x => by
    obtain ⟨y, hy, ey⟩ := Bits.inc_cell h1 x
    obtain ⟨z, hz, ez⟩ := Bits.incN_cell h1 k y
    refine ⟨z, by rw [Bits.incN, hy]; exact hz, ?_⟩
    rw [ez, ey, Nat.mod_add_mod]; congr 1; omega

theorem Bits.decN_cell (h1 : 1 < n) : (k : Nat) → (x : Bits n s) →
    ∃ z, x.decN k = .ok z ∧ (z.cell + k) % 2 ^ stoW n = x.cell
  | 0, x => ⟨x, rfl, by rw [Nat.add_zero, Nat.mod_eq_of_lt x.cell_lt]⟩
  | k + 1, x => by
    obtain ⟨y, hy, ey⟩ := Bits.dec_cell h1 x
    obtain ⟨z, hz, ez⟩ := Bits.decN_cell h1 k y
    refine ⟨z, by rw [Bits.decN, hy]; exact hz, ?_⟩
    have hp : 0 < 2 ^ stoW n := by positivity
    rw [← Nat.add_assoc, ← Nat.mod_add_mod, ez, ey, Nat.mod_add_mod,
      show x.cell + (2 ^ stoW n - 1) + 1 = x.cell + 2 ^ stoW n by omega, Nat.add_mod_right, Nat.mod_eq_of_lt x.cell_lt]

theorem ofNat_mod_stoW (a : Nat) : BitVec.ofNat n (a % 2 ^ stoW n) = BitVec.ofNat n a :=
  BitVec.eq_of_toNat_eq (by simp [Nat.mod_mod_of_dvd a (Nat.pow_dvd_pow 2 (le_stoW (n := n)))])

theorem stoW_val (n : Nat) : stoW n = if n ≤ 64 then hw n else 64 * ((n + 63) / 64) := by
  rw [stoW, limbs]; split_ifs <;> omega

/-- **C155, counting, partial.** `k` increments add `k` modulo `2^n` and `k` decrements subtract it,
whatever the signedness, and never fault. Missing: increments of one bit (`C155_one_bit`). -/
theorem C155_count_partial (h1 : 1 < n) (k : Nat) (x : Bits n s) :
    (∃ z, x.incN k = .ok z ∧ z.bv = x.bv + BitVec.ofNat n k) ∧
    (∃ z, x.decN k = .ok z ∧ z.bv = x.bv - BitVec.ofNat n k) := by
  obtain ⟨y, hy, ey⟩ := Bits.incN_cell h1 k x
  obtain ⟨z, hz, ez⟩ := Bits.decN_cell h1 k x
  refine ⟨⟨y, hy, ?_⟩, z, hz, ?_⟩
  · rw [Bits.bv_cell, ey, ofNat_mod_stoW, BitVec.ofNat_add, ← Bits.bv_cell]
  · rw [Bits.bv_cell x, ← ez, ofNat_mod_stoW, BitVec.ofNat_add, ← Bits.bv_cell]
    grind

/-- **C155, there and back.** `k` decrements after `k` increments, and `k` increments after `k`
decrements, give back the object itself, with all its storage. -/
theorem C155_back (h1 : 1 < n) (k : Nat) (x : Bits n s) :
    (x.incN k).bind (Bits.decN k) = .ok x ∧ (x.decN k).bind (Bits.incN k) = .ok x := by
  have hp : 0 < 2 ^ stoW n := by positivity
  constructor
  · obtain ⟨y, hy, ey⟩ := Bits.incN_cell h1 k x
    obtain ⟨z, hz, ez⟩ := Bits.decN_cell h1 k y
    rw [hy]; show y.decN k = _
    rw [hz]
    congr 1
    refine Bits.cell_inj ?_
    rw [ey] at ez
    have := Nat.ModEq.add_right_cancel' k ez
    rwa [Nat.ModEq, Nat.mod_eq_of_lt z.cell_lt, Nat.mod_eq_of_lt x.cell_lt] at this
  · obtain ⟨y, hy, ey⟩ := Bits.decN_cell h1 k x
    obtain ⟨z, hz, ez⟩ := Bits.incN_cell h1 k y
    rw [hy]; show y.incN k = _
    rw [hz]
    congr 1
    exact Bits.cell_inj (by rw [ez, ey])

/-- **C155, the period, exactly.** After `i` and after `j` increments the counter is the same object if
and only if `i` and `j` agree modulo the size of the storage: `2^8`, `2^16`, `2^32` or `2^64` for native
widths, a power of `2^64` for wide ones; the declared width does not matter otherwise. -/
theorem C155_period_iff (h1 : 1 < n) (x y z : Bits n s) (i j : Nat) (hy : x.incN i = .ok y) (hz : x.incN j = .ok z) :
    y = z ↔ i ≡ j [MOD 2 ^ (if n ≤ 64 then hw n else 64 * ((n + 63) / 64))] := by
  obtain ⟨y', hy', ey⟩ := Bits.incN_cell h1 i x
  obtain ⟨z', hz', ez⟩ := Bits.incN_cell h1 j x
  rw [hy] at hy'; cases hy'
  rw [hz] at hz'; cases hz'
  rw [show (if n ≤ 64 then hw n else 64 * ((n + 63) / 64)) = stoW n from (stoW_val n).symm]
  constructor
  · rintro rfl
    exact Nat.ModEq.add_left_cancel' x.cell (ey.symm.trans ez)
  · intro h
    refine Bits.cell_inj ?_
    rw [ey, ez]
    exact Nat.ModEq.add_left x.cell h

/-- two unsigned objects of one type compare equal if and only if they are the same object -/
theorem Bits.eq_iff_object (h : n ≤ 64 ∨ s = false) (x y : Bits n s) : x.eq y = true ↔ x = y := by
  by_cases hn : n ≤ 64
  · rw [Bits.eq_native hn hn, Bits.nv_conv hn, decide_eq_true_iff]
    constructor
    · intro e
      rw [← Bits.mkN_nv hn x, ← Bits.mkN_nv hn y]
      have : x.nv = y.nv := by
        cases hx : x.nv; cases hy : y.nv
        have tx := Bits.nv_ty x; have ty := Bits.nv_ty y
        rw [hx, hy] at e; rw [hx] at tx; rw [hy] at ty
        simp_all
      rw [this]
    · rintro rfl; rfl
  · have hs : s = false := h.resolve_left hn
    subst hs
    rw [Bits.eq, dif_neg hn, dif_neg hn, Big.eq_same rfl, decide_eq_true_iff]
    constructor
    · intro e; exact Bits.cell_inj (by rw [Bits.cell_big hn, Bits.cell_big hn, e])
    · rintro rfl; rfl

/-- **C155, wrapping, exactly.** A counter incremented `2^n` times compares equal to its start if and
only if the width has no spare storage bits: 8, 16, 32, 64 and the multiples of 64. -/
theorem C155_wrap_iff (h1 : 1 < n) (hs : n ≤ 64 ∨ s = false) (x : Bits n s) :
    (∃ z, x.incN (2 ^ n) = .ok z ∧ z.eq x = true) ↔ n = 8 ∨ n = 16 ∨ n = 32 ∨ 64 ∣ n := by
  obtain ⟨z, hz, e⟩ := Bits.incN_cell h1 (2 ^ n) x
  have key : z = x ↔ 2 ^ stoW n ∣ 2 ^ n := by
    have := C155_period_iff h1 x z x (2 ^ n) 0 hz rfl
    rw [this, ← stoW_val, Nat.modEq_zero_iff_dvd]
  have e2 : 2 ^ stoW n ∣ 2 ^ n ↔ stoW n = n := by
    rw [Nat.pow_dvd_pow_iff_le_right (by decide)]
    have := le_stoW (n := n); omega
  have e3 : (Full n ∨ 64 < n ∧ 64 ∣ n) ↔ (n = 8 ∨ n = 16 ∨ n = 32 ∨ 64 ∣ n) := by
    simp only [Full]; omega
  rw [← e3, ← stoW_eq h1, ← e2, ← key]
  constructor
  · rintro ⟨w, hw, hq⟩
    rw [hz] at hw; cases hw
    exact (Bits.eq_iff_object hs z x).1 hq
  · intro q; exact ⟨z, hz, (Bits.eq_iff_object hs z x).2 q⟩

/-- **C155, one bit.** An incremented one-bit counter stays at 1. -/
theorem C155_one_bit : (k : Nat) → (x : Bits 1 s) → ∃ z, x.incN (k + 1) = .ok z ∧ z.bv = 1
  | 0, x => by
    obtain ⟨z, hz, e⟩ := C36_one_bit x
    exact ⟨z, by rw [Bits.incN, hz]; rfl, e⟩
  | k + 1, x => by
    obtain ⟨z, hz, -⟩ := C36_one_bit x
    obtain ⟨w, hw, e⟩ := C155_one_bit k z
    exact ⟨w, by rw [Bits.incN, hz]; exact hw, e⟩

/-! ## C156: counting loops -/

/-- `for (i = a; i < c; ++i)`: the values of `i` for which the body is executed, and `i` after the loop;
`diverge` if it has not ended after `fuel` tests -/
def Bits.forLt : Nat → Bits n s → Bits m t → Res (List (Bits n s) × Bits n s)
  | 0, _, _ => .error .diverge
  | fuel + 1, i, c => (i.lt c).bind fun b =>
    if b then i.inc.bind fun j => (Bits.forLt fuel j c).map fun r => (i :: r.1, r.2) else .ok ([], i)

/-- the loop visits `a`, `a + 1`, ..., if `<` and `++` are right along the way -/
theorem forLt_run {c : Bits m t} {C : Int} (num : Bits n s → Int) (P : Bits n s → Prop)
    (hlt : ∀ x, P x → x.lt c = .ok (decide (num x < C)))
    (hinc : ∀ x, P x → num x < C → ∃ z, x.inc = .ok z ∧ P z ∧ num z = num x + 1) :
    (k fuel : Nat) → (x : Bits n s) → P x → (C - num x).toNat = k → k < fuel →
    ∃ l z, x.forLt fuel c = .ok (l, z) ∧ l.map num = (List.range k).map (fun i : Nat => num x + (i : Int)) ∧
      num z = max (num x) C ∧ P z ∧ ∀ y ∈ l, P y
  | k, 0, x, hx, hk, hf => by omega
  | 0, fuel + 1, x, hx, hk, hf => by
    have : ¬ num x < C := by omega
    refine ⟨[], x, ?_, rfl, by omega, hx, by simp⟩
    rw [Bits.forLt, hlt x hx, decide_eq_false this]; rfl
  | k + 1, fuel + 1, x, hx, hk, hf => by
    have hC : num x < C := by omega
    obtain ⟨y, hy, py, ey⟩ := hinc x hx hC
    obtain ⟨l, z, hz, el, ez, pz, pl⟩ := forLt_run num P hlt hinc k fuel y py (by omega) (by omega)
    refine ⟨x :: l, z, ?_, ?_, by omega, pz, ?_⟩
    · rw [Bits.forLt, hlt x hx, decide_eq_true hC]
      simp only [res_bind_ok, if_true, hy, hz]
      rfl
    · rw [List.map_cons, el, List.range_succ_eq_map, List.map_cons, List.map_map]
      refine congrArg₂ List.cons (by simp) (List.map_congr_left fun i _ => ?_)
      simp only [Function.comp, ey]; push_cast; omega
    · intro w hw
      rcases List.mem_cons.1 hw with rfl | hw
      · exact hx
      · exact pl w hw

/-- the loop does not end if the test never fails -/
theorem forLt_diverge {c : Bits m t} (P : Bits n s → Prop)
    (hlt : ∀ x, P x → x.lt c = .ok true) (hinc : ∀ x, P x → ∃ z, x.inc = .ok z ∧ P z) :
    (fuel : Nat) → (x : Bits n s) → P x → x.forLt fuel c = .error .diverge
  | 0, _, _ => rfl
  | fuel + 1, x, hx => by
    obtain ⟨y, hy, py⟩ := hinc x hx
    rw [Bits.forLt, hlt x hx]
    simp only [res_bind_ok, if_true, hy, forLt_diverge P hlt hinc fuel y py]
    rfl

/-- `<` on the storage of unsigned objects -/
theorem Bits.lt_cell (hs : n ≤ 64 ↔ m ≤ 64) (x : Bits n false) (y : Bits m false) :
    x.lt y = .ok (decide (x.cell < y.cell)) := by
  by_cases h : n ≤ 64
  · have hm := hs.1 h
    rw [(Bits.order_native h hm x y).2.1, Bits.nv_v h, Bits.nv_v hm, Bits.cell_native h, Bits.cell_native hm]
    simp
  · have hm : ¬ m ≤ 64 := by omega
    rw [Bits.lt, dif_neg h, dif_neg hm, Big.lt, Big.gt, if_neg (by simp), Big.gtMag_spec, Bits.cell_big h, Bits.cell_big hm]

/-- **C156, unsigned loops with a bound that fits.** For every width and every bound of the same kind of
storage that is a value of the type of the loop variable: the body is executed for `a`, `a + 1`, ..., `c - 1`
in this order, and `i` is `c` at the end. -/
theorem C156_unsigned (hn : 0 < n) (hs : n ≤ 64 ↔ m ≤ 64) (a : Bits n false) (c : Bits m false)
    (ha : a.Clean) (hc : c.Clean) (hfit : c.bv.toNat < 2 ^ n) (fuel : Nat) (hf : c.bv.toNat - a.bv.toNat < fuel) :
    ∃ l z, a.forLt fuel c = .ok (l, z) ∧
      l.map (fun x => x.bv.toNat) = (List.range (c.bv.toNat - a.bv.toNat)).map (a.bv.toNat + ·) ∧
      (∀ x ∈ l, x.Clean) ∧ z.bv.toNat = max a.bv.toNat c.bv.toNat ∧ z.Clean := by
  obtain ⟨l, z, hz, el, ez, pz, pl⟩ := forLt_run (c := c) (C := c.bv.toNat) (fun x => (x.bv.toNat : Int))
    (fun x => x.Clean) (fun x hx => by rw [(C40_gt_lt hs x c hx hc).2]; norm_cast)
    (fun x hx hlt => by
      have hlt : x.bv.toNat < c.bv.toNat := by exact_mod_cast hlt
      by_cases h1 : n = 1
      · subst h1
        obtain ⟨z, hz, e⟩ := C36_one_bit x
        refine ⟨z, hz, Bits.clean_one (by decide) (by decide) _, ?_⟩
        have : x.bv.toNat = 0 := by omega
        rw [e, this]; rfl
      · obtain ⟨z, hz, e⟩ := Bits.inc_cell (by omega) x
        rw [Bits.cell_clean hx, Nat.mod_eq_of_lt (lt_of_lt_of_le (by omega)
          (Nat.pow_le_pow_right (by decide) (le_stoW (n := n))))] at e
        have hcz : z.Clean := (Bits.clean_cell z).2 (by omega)
        exact ⟨z, hz, hcz, by rw [← Bits.cell_clean hcz, e]; push_cast; rfl⟩)
    (c.bv.toNat - a.bv.toNat) fuel a ha (by omega) hf
  refine ⟨l, z, hz, ?_, pl, by omega, pz⟩
  have := congrArg (List.map Int.toNat) el
  rw [List.map_map, List.map_map] at this
  rw [show (fun x : Bits n false => x.bv.toNat) = (Int.toNat ∘ fun x => (x.bv.toNat : Int)) from rfl, this]
  exact List.map_congr_left fun i _ => by simp only [Function.comp]; omega

/-- **C156, any bound, exactly.** An unsigned loop of more than one bit ends if and only if the start
is not below the bound or the bound is below the size of the storage. -/
theorem C156_ends_iff (h1 : 1 < n) (hs : n ≤ 64 ↔ m ≤ 64) (a : Bits n false) (c : Bits m false)
    (ha : a.Clean) (hc : c.Clean) :
    (∃ fuel r, a.forLt fuel c = .ok r) ↔
      c.bv.toNat ≤ a.bv.toNat ∨ c.bv.toNat < 2 ^ (if n ≤ 64 then hw n else 64 * ((n + 63) / 64)) := by
  rw [← stoW_val, ← Bits.cell_clean ha, ← Bits.cell_clean hc]
  constructor
  · rintro ⟨fuel, r, hr⟩
    by_contra hno
    rw [forLt_diverge (fun _ => True) (fun x _ => by
        rw [Bits.lt_cell hs, decide_eq_true (by have := x.cell_lt; omega)])
      (fun x _ => by obtain ⟨z, hz, -⟩ := Bits.inc_cell h1 x; exact ⟨z, hz, trivial⟩) fuel a trivial] at hr
    cases hr
  · intro h
    obtain ⟨l, z, hz, -⟩ := forLt_run (c := c) (C := c.cell) (fun x : Bits n false => (x.cell : Int))
      (fun x => a.cell ≤ x.cell) (fun x _ => by rw [Bits.lt_cell hs]; norm_cast)
      (fun x hx hlt => by
        have hlt : x.cell < c.cell := by exact_mod_cast hlt
        obtain ⟨z, hz, e⟩ := Bits.inc_cell h1 x
        rw [Nat.mod_eq_of_lt (by omega)] at e
        exact ⟨z, hz, by omega, by rw [e]; push_cast; rfl⟩)
      _ (c.cell - a.cell + 1) a (le_refl _) rfl (by omega)
    exact ⟨_, _, hz⟩

/-- **C156, refuted.** At every width with spare storage bits a loop whose bound is the first number
that its variable cannot hold ends, after `2^n - a` iterations; it should not. -/
theorem C156_refuted (h1 : 1 < n) (hw : ¬ (n = 8 ∨ n = 16 ∨ n = 32 ∨ 64 ∣ n)) (hs : n ≤ 64 ↔ m ≤ 64)
    (a : Bits n false) (c : Bits m false) (ha : a.Clean) (hc : c.Clean) (hb : c.bv.toNat = 2 ^ n) :
    ∃ fuel r, a.forLt fuel c = .ok r := by
  refine (C156_ends_iff h1 hs a c ha hc).2 (Or.inr ?_)
  rw [← stoW_val, hb]
  have e3 : (Full n ∨ 64 < n ∧ 64 ∣ n) ↔ (n = 8 ∨ n = 16 ∨ n = 32 ∨ 64 ∣ n) := by
    simp only [Full]; omega
  rw [← e3, ← stoW_eq h1] at hw
  have := le_stoW (n := n)
  exact Nat.pow_lt_pow_right (by decide) (by omega)

theorem toInt_bump {w : Nat} (b : BitVec w) (hw : 1 < w) (hb : b.toInt + 1 < 2 ^ (w - 1)) :
    (b + 1).toInt = b.toInt + 1 := by
  have h0 := BitVec.le_toInt b
  have : (1 : BitVec w).toInt = 1 := BitVec.toInt_one hw
  rw [BitVec.toInt_add, this]
  have e : (2 : Nat) ^ w = 2 * 2 ^ (w - 1) := by rw [← Nat.pow_succ']; congr 1; omega
  rw [Int.bmod_eq_of_le] <;> rw [e] <;> push_cast <;> omega

/-- `++` of a canonical signed native object below the greatest number -/
theorem Bits.inc_signed (h : n ≤ 64) (h1 : 1 < n) (x : Bits n true) (hx : x.Clean)
    (hlt : x.bv.toInt + 1 < 2 ^ (n - 1)) : ∃ z, x.inc = .ok z ∧ z.Clean ∧ z.bv.toInt = x.bv.toInt + 1 := by
  obtain ⟨z, hz, e⟩ := Bits.inc_cell h1 x
  have hh : z.hold = x.hold + 1 := by
    rw [Bits.cell_native h, Bits.cell_native h, stoW, if_pos h] at e
    exact BitVec.eq_of_toNat_eq (by rw [e, BitVec.toNat_add, show (1 : BitVec (hw n)) = 1#(hw n) from rfl, BitVec.toNat_one (hw_pos n)])
  obtain ⟨z', hz', eb, -⟩ := C36_inc_partial h1 x
  rw [hz] at hz'; cases hz'
  obtain ⟨ev, -⟩ := Bits.clean_signed_bounds h h1 hx
  have evx : x.hold.toInt = x.bv.toInt := by
    rw [Bits.nv_v h] at ev; simpa [h1] using ev
  have hwb := le_hw h
  have p : (2 : Int) ^ (n - 1) ≤ 2 ^ (hw n - 1) := Bits.pow_mono (by omega)
  have e1 := toInt_bump x.bv h1 hlt
  have e2 := toInt_bump x.hold (by omega) (by omega)
  refine ⟨z, hz, ?_, by rw [eb, e1]⟩
  rw [Bits.clean_native h, Bits.nv_v h, hh]
  simp only [Bool.true_and, show ¬ n ≤ 1 by omega, decide_false, Bool.not_false, if_true, e2, numOf, eb, e1, evx]

/-- **C156, signed native loops.** -/
theorem C156_signed_native (h1 : 1 < n) (h : n ≤ 64) (hm : m ≤ 64) (a : Bits n true) (c : Bits m true)
    (ha : a.Clean) (hc : c.Clean) (hfit : numOf true c.bv < 2 ^ (n - 1)) (fuel : Nat)
    (hf : (numOf true c.bv - numOf true a.bv).toNat < fuel) :
    ∃ l z, a.forLt fuel c = .ok (l, z) ∧
      l.map (fun x => numOf true x.bv) =
        (List.range (numOf true c.bv - numOf true a.bv).toNat).map (fun i : Nat => numOf true a.bv + (i : Int)) ∧
      numOf true z.bv = max (numOf true a.bv) (numOf true c.bv) := by
  obtain ⟨l, z, hz, el, ez, -⟩ := forLt_run (c := c) (C := numOf true c.bv) (fun x => numOf true x.bv)
    (fun x => x.Clean) (fun x hx => (C41_signed_order h hm x c hx hc).2.1)
    (fun x hx hlt => by
      have e : ∀ b : BitVec n, numOf true b = b.toInt := fun b => by simp [numOf, h1]
      simp only [e] at hlt ⊢
      exact Bits.inc_signed h h1 x hx (by omega))
    _ fuel a ha rfl hf
  exact ⟨l, z, hz, el, ez⟩

/-- signed wide `<` of an object against a bound, when both have the sign bit 0 -/
theorem Bits.lt_nonneg (h : 64 < n) (x c : Bits n true) (mx : x.bv.msb = false) (mc : c.bv.msb = false) :
    x.lt c = .ok (decide (x.cell < c.cell)) := by
  have hn : ¬ n ≤ 64 := by omega
  rw [Bits.bv_big hn] at mx mc
  rw [Bits.lt, dif_neg hn, dif_neg hn, Big.lt, Big.gt, if_pos (by rfl)]
  show Big.gtS (3 + 1) (c.bg hn) (x.bg hn) = _
  rw [Big.gtS, Big.negative_eq _ (by omega), Big.negative_eq _ (by omega), mx, mc, Big.gtMag_spec, Bits.cell_big hn,
    Bits.cell_big hn]
  rfl

theorem msb_toInt (_ : 0 < n) (b : BitVec n) : b.msb = decide (b.toInt < 0) := by
  rw [BitVec.msb_eq_toInt]

theorem Bits.clean_cell_wide (h : 64 < n) (x : Bits n s) : x.Clean ↔ x.cell < 2 ^ n := by
  rw [Bits.clean_big (by omega), Bits.cell_big (by omega)]; rfl

theorem Bits.cell_wide_clean (_ : 64 < n) {x : Bits n s} (hx : x.cell < 2 ^ n) : x.cell = x.bv.toNat := by
  rw [Bits.bv_cell, BitVec.toNat_ofNat, Nat.mod_eq_of_lt hx]

theorem Bits.cell_bump (h : 64 < n) {x : Bits n s} (hx : x.cell < 2 ^ n) (h1 : x.bv.toInt ≠ -1) : x.cell + 1 < 2 ^ n := by
  have e := Bits.cell_wide_clean h hx
  by_contra hc
  apply h1
  have : x.bv.toNat = 2 ^ n - 1 := by omega
  have hp : 2 ^ n = 2 * 2 ^ (n - 1) := by rw [← Nat.pow_succ']; congr 1; omega
  have hq : 0 < 2 ^ (n - 1) := by positivity
  rw [BitVec.toInt_eq_toNat_cond, this, if_neg (by omega)]
  omega

/-- **C156, signed wide loops, partial.** Loops over non-negative numbers, over negative numbers
other than the least, and, at multiples of 64 bits, from a negative number other than the least to any
non-negative one. Missing: the cases below. -/
theorem C156_signed_wide_partial (h : 64 < n) (a c : Bits n true) (ha : a.Clean) (hc : c.Clean)
    (hz : a.bv.msb = true → c.bv.msb = false → c.bv ≠ 0 → 64 ∣ n)
    (hmin : a.bv ≠ BitVec.intMin n ∧ c.bv ≠ BitVec.intMin n) (fuel : Nat)
    (hf : (c.bv.toInt - a.bv.toInt).toNat < fuel) :
    ∃ l z, a.forLt fuel c = .ok (l, z) ∧
      l.map (fun x => x.bv.toInt) =
        (List.range (c.bv.toInt - a.bv.toInt).toNat).map (fun i : Nat => a.bv.toInt + (i : Int)) ∧
      z.bv.toInt = max a.bv.toInt c.bv.toInt := by
  have h1 : 1 < n := by omega
  have hmin' : ∀ b : BitVec n, b ≠ BitVec.intMin n ↔ b.toInt ≠ -2 ^ (n - 1) := fun b => by
    rw [not_iff_not, ← BitVec.toInt_inj, BitVec.toInt_intMin_of_pos (by omega)]
  have hC := BitVec.toInt_lt (x := c.bv)
  obtain ⟨l, z, hz', el, ez, -⟩ := forLt_run (c := c) (C := c.bv.toInt) (fun x => x.bv.toInt)
    (fun x => a.bv.toInt ≤ x.bv.toInt ∧ (x.Clean ∨ c.bv.toInt = 0 ∧ x.bv.toInt = 0))
    (fun x hx => by
      rcases hx with ⟨hax, hx | ⟨c0, x0⟩⟩
      · refine (C42_signed_wide_partial h x c hx hc fun _ _ => ⟨?_, hmin.2⟩).2
        have := (hmin' _).1 hmin.1
        have := BitVec.le_toInt a.bv
        rw [hmin']; omega
      · rw [Bits.lt_nonneg h x c (by rw [msb_toInt (by omega), x0]; rfl) (by rw [msb_toInt (by omega), c0]; rfl)]
        have : c.cell = 0 := by
          have e : c.bv = 0 := BitVec.eq_of_toInt_eq (by rw [c0]; simp)
          rw [Bits.clean_big (by omega)] at hc
          rw [Bits.cell_big (by omega), ← hc.toNat_bv, ← Bits.bv_big, e]; simp
        rw [this, c0, x0]; simp)
    (fun x hx hlt => by
      obtain ⟨hax, hx⟩ := hx
      have hx : x.Clean := hx.resolve_right fun e => by omega
      obtain ⟨z, hz1, e⟩ := Bits.inc_cell h1 x
      obtain ⟨z', hz2, eb, -⟩ := C36_inc_partial h1 x
      rw [hz1] at hz2; cases hz2
      have ei : z.bv.toInt = x.bv.toInt + 1 := by rw [eb, toInt_bump _ h1 (by omega)]
      refine ⟨z, hz1, ⟨by omega, ?_⟩, ei⟩
      rw [Bits.clean_cell_wide h] at hx ⊢
      by_cases h64 : 64 ∣ n
      · left
        have := (stoW_eq h1).2 (Or.inr ⟨h, h64⟩)
        have hl := z.cell_lt
        rwa [this] at hl
      · by_cases x1 : x.bv.toInt = -1
        · by_cases c0 : c.bv.toInt = 0
          · right; omega
          · refine absurd (hz ?_ ?_ ?_) h64
            · rw [msb_toInt (by omega), decide_eq_true (by omega)]
            · rw [msb_toInt (by omega), decide_eq_false (by omega)]
            · intro e; rw [e] at c0; simp at c0
        · left
          have := Bits.cell_bump h hx x1
          rw [e, Nat.mod_eq_of_lt (lt_of_lt_of_le this (Nat.pow_le_pow_right (by decide) (le_stoW (n := n))))]
          exact this)
    _ fuel a ⟨le_refl _, Or.inl ha⟩ rfl hf
  exact ⟨l, z, hz', el, ez⟩

/-- **C156, refuted for signed wide loops.** At every wide width that is not a multiple of 64, a loop from
a negative number to a positive bound stops at zero: the increment of -1 leaves a carry above
the width, which makes the variable compare greater than every bound. -/
theorem C156_wide_refuted (h : 64 < n) (hd : ¬ 64 ∣ n) (a c : Bits n true) (ha : a.Clean) (hc : c.Clean)
    (hm : a.bv.toInt = -1) (hp : 0 < c.bv.toInt) (fuel : Nat) :
    ∃ z, a.forLt (fuel + 2) c = .ok ([a], z) ∧ z.bv = 0 := by
  have h1 : 1 < n := by omega
  obtain ⟨z, hz, e⟩ := Bits.inc_cell h1 a
  obtain ⟨z', hz', eb, -⟩ := C36_inc_partial h1 a
  rw [hz] at hz'; cases hz'
  have mc : c.bv.msb = false := by rw [msb_toInt (by omega), decide_eq_false (by omega)]
  have hlt : a.lt c = .ok true := by
    rw [(C42_signed_wide_partial h a c ha hc fun _ e => by rw [mc] at e; cases e).2, decide_eq_true (by omega)]
  have zb : z.bv = 0 := by
    rw [eb]
    refine BitVec.eq_of_toInt_eq ?_
    rw [toInt_bump _ h1 (by rw [hm]; positivity), hm]; simp
  have ca := Bits.cell_wide_clean h ((Bits.clean_cell_wide h a).1 ha)
  have cc := (Bits.clean_cell_wide h c).1 hc
  have hp : 2 ^ n = 2 * 2 ^ (n - 1) := by rw [← Nat.pow_succ']; congr 1; omega
  have hq : 0 < 2 ^ (n - 1) := by positivity
  have an : a.bv.toNat = 2 ^ n - 1 := by
    have := a.bv.isLt
    rw [BitVec.toInt_eq_toNat_cond] at hm
    split_ifs at hm
    omega
  have hS : n < stoW n := by
    have := le_stoW (n := n)
    have h2 := mt (stoW_eq h1).1 (by simp only [Full]; omega)
    omega
  have cz : z.cell = 2 ^ n := by
    have := Nat.pow_lt_pow_right (a := 2) (by decide) hS
    rw [e, Nat.mod_eq_of_lt (by omega)]; omega
  have hlt2 : z.lt c = .ok false := by
    rw [Bits.lt_nonneg h z c (by rw [zb]; simp) mc, decide_eq_false (by omega)]
  refine ⟨z, ?_, zb⟩
  rw [Bits.forLt, hlt]
  simp only [res_bind_ok, if_true, hz, Bits.forLt, hlt2]
  rfl

/-- **C156, refuted for the least number.** A signed wide loop from the least number to another negative
number is not executed at all. -/
theorem C156_least_refuted (h : 64 < n) (a c : Bits n true) (hm : a.bv = BitVec.intMin n) (hp : c.bv.msb = true)
    (hc : c.bv ≠ BitVec.intMin n) (fuel : Nat) : a.forLt (fuel + 1) c = .ok ([], a) := by
  have : a.lt c = c.gt a := by
    rw [Bits.lt, Bits.gt, dif_neg (by omega), dif_neg (by omega), dif_neg (by omega), dif_neg (by omega)]; rfl
  rw [Bits.forLt, this, (C42_least h c a).2.1 hp hc hm]; rfl

/-! ### 4-state loops -/

/-- `++x` executed `k` times, 4-state -/
def Lg.incN : Nat → Lg n s → Res (Lg n s)
  | 0, x => .ok x
  | k + 1, x => x.inc.bind (Lg.incN k)

/-- **C155, 4-state counters.** Without x/z they count as the 2-state ones do, for every width. -/
theorem C155_logic (hn : 0 < n) : (k : Nat) → (x : Bits n s) → x.lift.incN k = (x.incN k).map Bits.lift
  | 0, _ => rfl
  | k + 1, x => by
    rw [Lg.incN, Bits.incN, (Lg.lift_inc_dec hn x).1]
    cases h : x.inc with
    | error e => rfl
    | ok y => exact C155_logic hn k y

/-- `for (i = a; i < c; ++i)` over 4-state vectors; the condition converts the 4-state answer of `<` to
`bool` -/
def Lg.forLt : Nat → Lg n s → Lg m t → Res (List (Lg n s) × Lg n s)
  | 0, _, _ => .error .diverge
  | fuel + 1, i, c => (i.lt c).bind fun b =>
    if b.toBool then i.inc.bind fun j => (Lg.forLt fuel j c).map fun r => (i :: r.1, r.2) else .ok ([], i)

/-- **C156, 4-state loops** without x/z run as the 2-state ones do. -/
theorem C156_logic (hn : 0 < n) (c : Bits m t) : (fuel : Nat) → (a : Bits n s) →
    a.lift.forLt fuel c.lift = (a.forLt fuel c).map fun r => (r.1.map Bits.lift, r.2.lift)
  | 0, _ => rfl
  | fuel + 1, a => by
    rw [Lg.forLt, Bits.forLt, Lg.lt, Lg.lift_rel]
    cases h : a.lt c with
    | error e => rfl
    | ok b =>
      simp only [Except.map, res_bind_ok]
      rw [Lg.lift_toBool, (Lg.lift_inc_dec hn a).1]
      cases b
      · rfl
      · rw [if_pos (by decide +kernel), if_pos rfl]
        cases hi : a.inc with
        | error e => rfl
        | ok j =>
          simp only [Except.map, res_bind_ok]
          rw [C156_logic hn c fuel j]
          cases j.forLt fuel c <;> rfl

/-- **C156, unknown bounds, partial.** If the start or the bound has an x/z bit that the emptiness test looks at
(any, up to 64 bits), the loop is not executed. Missing: x/z in the upper halves of the limbs of wide
objects, which `<` does not see (`C43_wide_refuted`). -/
theorem C156_unknown_partial (a : Lg n s) (c : Lg m t) (h : a.SeenXZ ∨ c.SeenXZ) (fuel : Nat) :
    a.forLt (fuel + 1) c = .ok ([], a) := by
  have e : (a.xz.anySet || c.xz.anySet) = true := by
    rcases h with ⟨i, h1, h2, h3⟩ | ⟨i, h1, h2, h3⟩
    · rw [Lg.anySet_of_unknown h1 h2 h3]; rfl
    · rw [Lg.anySet_of_unknown h1 h2 h3, Bool.or_true]
  rw [Lg.forLt, Lg.lt, Lg.relWith, if_pos e]
  have : Lg.x1.toBool = false := by decide +kernel
  simp only [res_bind_ok, this, Bool.false_eq_true, if_false]

/-! ### concrete cases -/

/-- 200 increments of a 7-bit 100 leave 300 mod 256 = 44 in the holder; after 128 increments the counter reads
100 again but does not compare equal to it -/
example : ((Bits.ofInt 100 : Bits 7 false).incN 200).map (fun z => z.cell) = .ok 44 ∧
    ((Bits.ofInt 100 : Bits 7 false).incN 128).map (fun z => (z.bv.toNat, z.eq (Bits.ofInt 100 : Bits 7 false))) =
      .ok (100, false) := by decide +kernel

/-- a 70-bit counter -/
example : ((Bits.ofInt 100 : Bits 70 false).incN 5).map (fun z => z.bv.toNat) = .ok 105 := by decide +kernel

/-- a loop from 3 to 6, the same loop over signed numbers from -2 to 1, and over 70 bits -/
example : ((Bits.ofInt 3 : Bits 5 false).forLt 9 (Bits.ofInt 6 : Bits 8 false)).map (fun r => (r.1.map (·.bv.toNat), r.2.bv.toNat)) =
      .ok ([3, 4, 5], 6) ∧
    ((Bits.ofInt (-2) : Bits 5 true).forLt 9 (Bits.ofInt 1 : Bits 8 true)).map (fun r => (r.1.map (·.bv.toInt), r.2.bv.toInt)) =
      .ok ([-2, -1, 0], 1) ∧
    ((Bits.ofInt 3 : Bits 70 false).forLt 9 (Bits.ofInt 6 : Bits 130 false)).map (fun r => (r.1.map (·.bv.toNat), r.2.bv.toNat)) =
      .ok ([3, 4, 5], 6) := by decide +kernel

/-- the hypotheses of `C156_refuted` are met by a 4-bit variable and an 8-bit bound of 16 -/
example : (Bits.ofInt 0 : Bits 4 false).Clean ∧ (Bits.ofInt 16 : Bits 8 false).Clean ∧
    (Bits.ofInt 16 : Bits 8 false).bv.toNat = 2 ^ 4 ∧
    ((Bits.ofInt 12 : Bits 4 false).forLt 9 (Bits.ofInt 16 : Bits 8 false)).map (fun r => (r.1.map (·.bv.toNat), r.2.bv.toNat)) =
      .ok ([12, 13, 14, 15], 0) := by decide +kernel

/-- signed 70-bit -1 exists, as required by `C156_wide_refuted` -/
example : ∃ a c : Bits 70 true, a.Clean ∧ c.Clean ∧ a.bv.toInt = -1 ∧ 0 < c.bv.toInt := by
  obtain ⟨a, ha, ea⟩ := Bits.exists_clean (s := true) (BitVec.ofInt 70 (-1))
  obtain ⟨c, hc, ec⟩ := Bits.exists_clean (s := true) (BitVec.ofInt 70 5)
  exact ⟨a, c, ha, hc, by rw [ea]; decide, by rw [ec]; decide⟩

end Verif
