import Verif.Props.CanonicalExact
import Verif.Props.ReductionAscending

/-!
# Reductions of complements (C194)

`|(~x)` is `~&x` and `&(~x)` is `~|x` (IEEE 1800, 11.4.9, with the table of `~` of 11.4.8). The 4-state loops (`logic.hh` 485-511) keep these laws although they are wrong about x (C17, C18): both stop at
the same bit. The 2-state reductions (`bit.hh` 460-471) do not, because the complement is not masked (350-358).
-/

namespace Verif

variable {n : Nat} {s : Bool}

theorem firstNot_dual {u w : V4} (huw : V4.not u = w) (f g : Nat → V4) (hu : u.isKnown = true) : ∀ k i, (∀ j, i ≤ j → j < i + k → g j = (f j).not) →
    firstNot w g i k = (firstNot u f i k).not := by
  intro k
  induction k with
  | zero => intro i _; exact huw.symm
  | succ k ih =>
    intro i h
    rw [firstNot, firstNot, h i (by omega) (by omega), ih (i + 1) fun j h1 h2 => h j (by omega) (by omega)]
    generalize f i = a
    generalize firstNot u f (i + 1) k = b
    subst huw
    revert hu
    cases u <;> cases a <;> cases b <;> decide

/-- **C194, 4-state.** On every descending range and every ascending one from 0, for every vector of any width with any x and
z, `(~x).r_or()` is `x.r_nand()` and `(~x).r_and()` is `x.r_nor()`. Missing: ascending ranges with a positive low bound
(`C194_ascending_refuted`) and 2-state vectors (`C194_native_iff`, `C194_signed_iff`, `C194_wide_iff`,
`C194_one_bit_refuted`). -/
theorem C194_logic_partial (hn : 0 < n) (r : Rng) (hr : r.size = n) (hN : n ≤ 2 ^ 32) (h0 : r.lsb ≤ r.msb ∨ r.lo = 0) (x : Lg n s) :
    ∃ z, x.not = .ok z ∧ (∃ a b, z.rOr r = .ok a ∧ x.rNand r = .ok b ∧ a.at 0 = b.at 0) ∧
      ∃ a b, z.rAnd r = .ok a ∧ x.rNor r = .ok b ∧ a.at 0 = b.at 0 := by
  obtain ⟨z, hz, hb⟩ := C09_not_table hn x
  have key : ∀ j, 0 ≤ j → j < 0 + n → z.at (r.scan j) = (x.at (r.scan j)).not := fun j _ hj => hb _ (Rng.scan_lt hr (by omega))
  have a1 := Lg.rOrLoop_eq r hr hN h0 z n 0 (by omega)
  have a2 := Lg.rAndLoop_eq r hr hN h0 z n 0 (by omega)
  have b1 := Lg.rAndLoop_eq r hr hN h0 x n 0 (by omega)
  have b2 := Lg.rOrLoop_eq r hr hN h0 x n 0 (by omega)
  rw [firstNot_dual (u := .b1) (w := .b0) rfl _ _ rfl n 0 key] at a1
  rw [firstNot_dual (u := .b0) (w := .b1) rfl _ _ rfl n 0 key] at a2
  have fin : ∀ {A B : Res (Lg 1 false)} {v : V4}, A.map (·.at 0) = .ok v.not → B.map (·.at 0) = .ok v →
      ∃ a b, A = .ok a ∧ B.map Lg.lnot = .ok b ∧ a.at 0 = b.at 0 := by
    intro A B v hA hB
    cases A with
    | error e => cases hA
    | ok a =>
      cases B with
      | error e => cases hB
      | ok b =>
        have hA : a.at 0 = v.not := Except.ok.inj hA
        have hB : b.at 0 = v := Except.ok.inj hB
        exact ⟨a, b.lnot, rfl, rfl, by rw [Lg.lnot_at, hA, hB]⟩
  exact ⟨z, hz, fin a1 b1, fin a2 b2⟩

/-- **C194 is false on ascending ranges with a positive low bound**: for every vector of ones, `(~x).r_or()` is 0 and `x.r_nand()` is 1 (where the reads are defined at all). -/
theorem C194_ascending_refuted (r : Rng) (x : Lg r.size false) (hx : x.Clean) (ha : r.msb < r.lsb) (h0 : 0 < r.lo) (hN : r.hi < 2 ^ 31)
    (hw : r.size ≤ 64 → r.hi < promotedBits r.size) (h1 : ∀ i, i < r.size → x.at i = .b1) :
    ∃ z a b, x.not = .ok z ∧ z.rOr r = .ok a ∧ x.rNand r = .ok b ∧ a.at 0 = .b0 ∧ b.at 0 = .b1 := by
  obtain ⟨z, hz, hb⟩ := C09_not_table (by rw [Rng.size]; omega) x
  have hc : z.Clean := by
    obtain ⟨z', hz', h1, h2⟩ := Lg.not_ok (by rw [Rng.size]; omega) x
    obtain rfl : z = z' := Except.ok.inj (hz.symm.trans hz')
    exact ⟨(Bits.clean_unsigned_iff _).2 fun i hi => by rw [h1]; simp; omega,
      (Bits.clean_unsigned_iff _).2 fun i hi => by rw [h2]; exact (Bits.clean_unsigned_iff _).1 hx.2 i hi⟩
  obtain ⟨y, hy, hy0⟩ := (C17_ascending_refuted r x hx ha h0 hN).2 hw
  obtain ⟨a, ha', haz, -⟩ := (C18_ascending_refuted r z hc ha h0 hN).2 hw
  refine ⟨z, a, y.lnot, hz, ha', by rw [Lg.rNand, hy]; rfl, haz fun i _ hi => by rw [hb i hi, h1 i hi]; rfl, by rw [Lg.lnot_at, hy0]; rfl⟩

theorem Bits.sto_rOr (h : n ≤ 64) (x : Bits n false) : x.rOr = decide (x.sto ≠ 0) := by
  rw [Bits.rOr, Bits.anySet, dif_pos h, Bits.nv_v h, Bits.sto_native h]
  rw [Bool.eq_iff_iff, bne_iff_ne, decide_eq_true_iff]
  simp

theorem Bits.sto_rAnd (h : n ≤ 64) (h1 : 1 < n) (x : Bits n false) : x.rAnd = .ok (decide (x.sto = 2 ^ n - 1)) := by
  rw [Bits.rAnd_native h h1, Bits.nv_v h, Bits.sto_native h]
  have := Nat.one_le_two_pow (n := n)
  congr 1
  rw [Bool.eq_iff_iff, decide_eq_true_iff, decide_eq_true_iff]
  simp only [Bool.false_and, Bool.false_eq_true, if_false]
  constructor
  · intro e; zify [this]; exact_mod_cast e
  · intro e; rw [e]; push_cast [this]; rfl

/-- **C194, 2-state, exactly** (unsigned canonical native vectors of more than one bit). `(~x).r_or()` is `x.r_nand()` unless the width is not that of a C++ type and `x` is all ones; `(~x).r_and()` is
`x.r_nor()` unless the width is not that of a C++ type and `x` is zero. -/
theorem C194_native_iff (h : n ≤ 64) (h1 : 1 < n) (x : Bits n false) (hx : x.Clean) :
    (x.rNand = .ok x.not.rOr ↔ Full n ∨ ∃ i, i < n ∧ x.bv.getLsbD i = false) ∧
    (x.not.rAnd = .ok x.rNor ↔ Full n ∨ ∃ i, i < n ∧ x.bv.getLsbD i = true) := by
  have hs := Bits.sto_not h1 x
  have hc := Bits.sto_clean hx
  have hlt := x.bv.isLt
  have hfull : Full n ↔ stoW n = n := by rw [stoW_eq h1]; constructor; exact .inl; rintro (g | g); exact g; omega
  have hones : (∃ i, i < n ∧ x.bv.getLsbD i = false) ↔ x.bv.toNat ≠ 2 ^ n - 1 := by
    rw [Ne, ← all_ones_iff]; simp
  have hzero : (∃ i, i < n ∧ x.bv.getLsbD i = true) ↔ x.bv.toNat ≠ 0 := by
    constructor
    · rintro ⟨i, _, hi⟩ e
      rw [show x.bv = 0#n from BitVec.eq_of_toNat_eq (by simpa using e)] at hi
      simp at hi
    · intro e
      by_contra hne
      push Not at hne
      apply e
      rw [show x.bv = 0#n from BitVec.eq_of_getLsbD_eq fun i hi => by simpa using hne i hi]; simp
  have hle := le_stoW (n := n)
  have hp : stoW n ≠ n → 2 * 2 ^ n ≤ 2 ^ stoW n := fun hne => by
    rw [← Nat.pow_succ']; exact Nat.pow_le_pow_right (by decide) (by omega)
  have hpos := Nat.two_pow_pos n
  rw [hones, hzero, hfull, Bits.rNand, Bits.rNor, Bits.sto_rAnd h h1, Bits.sto_rAnd h h1, Bits.sto_rOr h, Bits.sto_rOr h, res_map_ok, hc]
  rw [hc] at hs
  constructor
  · rw [Except.ok.injEq, Bool.eq_iff_iff]
    simp only [Bool.not_eq_true', decide_eq_false_iff_not, decide_eq_true_iff]
    by_cases hf : stoW n = n
    · rw [hf] at hs; simp only [hf, true_or, iff_true]; omega
    · have := hp hf; simp only [hf, false_or]; omega
  · rw [Except.ok.injEq, Bool.eq_iff_iff]
    simp only [Bool.not_eq_true', decide_eq_false_iff_not, decide_eq_true_iff]
    by_cases hf : stoW n = n
    · rw [hf] at hs; simp only [hf, true_or, iff_true]; omega
    · have := hp hf; simp only [hf, false_or]; omega

/-- **C194, 2-state, exactly, signed** (canonical native vectors of more than one bit). `(~x).r_or()` is `x.r_nand()` unless `x` is -1 or the greatest number (`r_and` takes that one for all ones, C21);
`(~x).r_and()` is `x.r_nor()` unless the width is not that of a C++ type and `x` is zero. -/
theorem C194_signed_iff (h : n ≤ 64) (h1 : 1 < n) (x : Bits n true) (hx : x.Clean) :
    (x.rNand = .ok x.not.rOr ↔ x.bv.toInt ≠ -1 ∧ x.bv.toInt ≠ 2 ^ (n - 1) - 1) ∧
    (x.not.rAnd = .ok x.rNor ↔ Full n ∨ x.bv.toInt ≠ 0) := by
  have e : x.not.hold = ~~~ x.hold :=
    hold_ext h fun i hi => by rw [Bits.raw_not_native h (by omega) x hi, BitVec.getLsbD_not, Bits.raw_native h]; simp [hi]
  have ht : x.hold.toInt = x.bv.toInt := by
    have := (Bits.clean_native h x).1 hx
    rw [Bits.nv_v h, numOf] at this
    simpa [show ¬ n ≤ 1 by omega] using this
  have hle := le_hw h
  have hr : x.rOr = decide (x.bv.toInt ≠ 0) := by
    rw [Bits.rOr, Bits.anySet_native h hx]
    rw [Bool.eq_iff_iff, decide_eq_true_iff, decide_eq_true_iff]
    apply not_congr
    rw [show (0 : Int) = (0#n).toInt by simp, BitVec.toInt_inj]; rfl
  have hlo := BitVec.le_toInt x.bv
  have hhi := BitVec.toInt_lt (x := x.bv)
  have hN := x.hold.isLt
  have hcond := BitVec.toInt_eq_toNat_cond x.hold
  have hnot : x.not.sto + x.hold.toNat + 1 = 2 ^ hw n := by
    rw [Bits.sto_native h, e, BitVec.toNat_not]; omega
  have hp : (2 : Int) ^ n = 2 * 2 ^ (n - 1) := by rw [← pow_succ']; congr 1; omega
  have hpn : (2 : Nat) ^ n = 2 * 2 ^ (n - 1) := by rw [← Nat.pow_succ']; congr 1; omega
  have hph : hw n ≠ n → 2 * 2 ^ n ≤ 2 ^ hw n := fun hne => by
    rw [← Nat.pow_succ']; exact Nat.pow_le_pow_right (by decide) (by omega)
  have hph' : 2 ^ n ≤ 2 ^ hw n := Nat.pow_le_pow_right (by decide) hle
  have hpos := Nat.two_pow_pos (n - 1)
  have hz : ((2 ^ (n - 1) : Nat) : Int) = 2 ^ (n - 1) := by push_cast; rfl
  rw [ht] at hcond
  rw [Bits.rNand, Bits.rNor, (C21_signed_refuted h h1 x hx).1, Bits.sto_rAnd h h1, Bits.sto_rOr h, hr, res_map_ok, Bits.full_iff (by omega) h]
  rw [← hz] at hlo hhi ⊢
  generalize 2 ^ (n - 1) = p at *
  generalize x.bv.toInt = t at *
  generalize x.hold.toNat = u at *
  generalize x.not.sto = v at *
  constructor
  · rw [Except.ok.injEq, Bool.eq_iff_iff]
    simp only [Bool.not_eq_true', decide_eq_false_iff_not, decide_eq_true_iff]
    generalize 2 ^ hw n = q at *
    split_ifs at hcond <;> omega
  · rw [Except.ok.injEq, Bool.eq_iff_iff]
    simp only [Bool.not_eq_true', decide_eq_false_iff_not, decide_eq_true_iff]
    by_cases hf : hw n = n
    · rw [hf] at hnot hcond; simp only [hf, true_or, iff_true]
      generalize 2 ^ n = q at *
      split_ifs at hcond <;> omega
    · have := hph hf; simp only [hf, false_or]
      generalize 2 ^ hw n = q at *
      generalize 2 ^ n = q' at *
      split_ifs at hcond <;> omega

/-- **C194 is false for every one-bit vector**: `r_and` of one bit is inverted (C21). -/
theorem C194_one_bit_refuted (x : Bits 1 s) : x.rNand ≠ .ok x.not.rOr ∧ x.not.rAnd ≠ .ok x.rNor := by
  have hb : x.not.bv = ~~~ x.bv := Bits.bv_not (by decide) x
  have hc := Bits.clean_one (by decide) (by decide) x
  have hc' := Bits.clean_one (by decide) (by decide) x.not
  rw [Bits.rNand, C21_one_bit_refuted, C21_one_bit_refuted, Bits.rNor, Bits.rOr, Bits.rOr, Bits.anySet_native (by decide) hc,
    Bits.anySet_native (by decide) hc', hb, res_map_ok]
  generalize x.bv = b
  revert b
  decide

/-- **C194 is false at every wide width**: `r_and` is the parity there (C21). For every `x` with an odd number of ones and a 0 in bit 1, such as 1, `(~x).r_or()` is true, as it should be, and `x.r_nand()` false. -/
theorem C194_wide_refuted (h : 64 < n) (x : Bits n false) (hp : parity x.bv = true) (h0 : x.bv.getLsbD 1 = false) :
    x.rNand = .ok false ∧ x.not.rOr = true := by
  constructor
  · rw [Bits.rNand, (C21_wide_refuted h).1]
    rw [hp]; rfl
  · rw [Bits.rOr, Bits.anySet_iff]
    refine ⟨1, by rw [seen]; omega, ?_⟩
    rw [Bits.raw_not_lt (by omega) x (by omega)]
    rw [Bits.getLsbD_bv x] at h0
    simpa [show 1 < n by omega] using h0

-- four bits: the complement of all ones is "true", and the complement of zero is not all ones
example : (Bits.ofInt 15 : Bits 4 false).Clean ∧ (Bits.ofInt 15 : Bits 4 false).not.rOr = true ∧
    (Bits.ofInt 15 : Bits 4 false).rNand = .ok false ∧ (Bits.ofInt 0 : Bits 4 false).not.rAnd = .ok false ∧
    (Bits.ofInt 0 : Bits 4 false).rNor = true := by decide +kernel
-- signed: the greatest number, and -1
example : (Bits.ofInt 7 : Bits 4 true).Clean ∧ (Bits.ofInt 7 : Bits 4 true).rNand = .ok false ∧ (Bits.ofInt 7 : Bits 4 true).not.rOr = true ∧
    (Bits.ofInt (-1) : Bits 4 true).rNand = .ok true ∧ (Bits.ofInt (-1) : Bits 4 true).not.rOr = false := by decide +kernel
-- eight bits obey the law
example : (Bits.ofInt 255 : Bits 8 false).rNand = .ok (Bits.ofInt 255 : Bits 8 false).not.rOr := by decide +kernel
-- 1x1 reads x both ways
example : ∃ x : Lg 3 false, x.list = [.b1, .x, .b1] ∧ (x.not.bind (·.rOr (Rng.down 3))).map (·.at 0) = .ok .x ∧
    (x.rNand (Rng.down 3)).map (·.at 0) = .ok .x := ⟨⟨Bits.ofInt 5, Bits.ofInt 2⟩, by decide +kernel⟩
/-- **C194, wide, exactly.** The two sides are a parity and a test of the lower halves of the limbs: the first law
holds exactly if the number of ones is odd just when the lower half of every limb, storage above the declared width
included, is full of ones; the second exactly if the number of zeros is odd just when those halves are empty. -/
theorem C194_wide_iff (h : 64 < n) (x : Bits n s) (hx : x.Clean) :
    (x.rNand = .ok x.not.rOr ↔ (parity x.bv = true ↔
      ¬ (0 < n % 64 ∧ n % 64 < 32) ∧ ∀ i, i < n → i % 64 < 32 → x.bv.getLsbD i = true)) ∧
    (x.not.rAnd = .ok x.rNor ↔ (parity (~~~ x.bv) = true ↔ ∀ i, i < n → i % 64 < 32 → x.bv.getLsbD i = false)) := by
  have hn : ¬ n ≤ 64 := by omega
  have hl := le_limbs n
  have hl' : limbs n * 64 < n + 64 := by unfold limbs; split <;> omega
  have hlm : limbs n * 64 % 64 = 0 := by omega
  have hxr : ∀ i, n ≤ i → x.raw i = false := by
    intro i hi
    rw [Bits.raw_big hn]
    exact (Big.clean_iff _).1 ((Bits.clean_big hn x).1 hx) i hi
  have hbit : ∀ i, i < n → x.bv.getLsbD i = x.raw i := fun i hi => by rw [Bits.getLsbD_bv]; simp [hi]
  have hnr : ∀ i, x.not.raw i = (decide (i < limbs n * 64) && !x.raw i) := by
    intro i
    have e : x.not = .big hn ((x.bg hn).not.toSign false) := by simp [Bits.not, hn]
    rw [e, Bits.raw_big hn, Bits.raw_big hn, Bits.bg_big, Big.raw_toSign]
    by_cases hi : i < limbs n * 64
    · rw [Big.raw_not _ _ hi]; simp [hi]
    · rw [Big.raw_of_ge _ (by omega)]; simp [hi]
  constructor
  · rw [Bits.rNand, (C21_wide_refuted h).1, res_map_ok]
    have e : x.not.rOr = false ↔
        ¬ (0 < n % 64 ∧ n % 64 < 32) ∧ ∀ i, i < n → i % 64 < 32 → x.bv.getLsbD i = true := by
      rw [← Bool.not_eq_true, Bits.rOr, Bits.anySet_iff]
      constructor
      · intro H
        refine ⟨fun hm => H ⟨n, Or.inr hm.2, ?_⟩, fun i hi h32 => ?_⟩
        · rw [hnr, hxr n (Nat.le_refl _)]
          simp; omega
        · by_contra hf
          rw [hbit i hi] at hf
          exact H ⟨i, Or.inr h32, by rw [hnr]; simp [hf]; omega⟩
      · rintro ⟨hm, H⟩ ⟨i, hs, hr⟩
        have h32 : i % 64 < 32 := hs.resolve_left hn
        rw [hnr] at hr
        simp only [Bool.and_eq_true, decide_eq_true_eq, Bool.not_eq_true'] at hr
        by_cases hi : i < n
        · have := H i hi h32
          rw [hbit i hi, hr.2] at this
          exact absurd this (by simp)
        · omega
    rw [← e]
    generalize x.not.rOr = a
    generalize parity x.bv = b
    cases a <;> cases b <;> simp
  · rw [(C21_wide_refuted h).1, Bits.bv_not (by omega), Bits.rNor]
    have e : x.rOr = false ↔ ∀ i, i < n → i % 64 < 32 → x.bv.getLsbD i = false := by
      rw [← Bool.not_eq_true, Bits.rOr, Bits.anySet_iff]
      constructor
      · intro H i hi h32
        by_contra hf
        rw [hbit i hi] at hf
        exact H ⟨i, Or.inr h32, by simpa using hf⟩
      · rintro H ⟨i, hs, hr⟩
        by_cases hi : i < n
        · have := H i hi (hs.resolve_left hn)
          rw [hbit i hi, hr] at this
          exact absurd this (by simp)
        · rw [hxr i (by omega)] at hr
          exact absurd hr (by simp)
    rw [← e]
    generalize x.rOr = a
    generalize parity (~~~ x.bv) = b
    cases a <;> cases b <;> simp

-- an operand of the wide theorem
example : ∃ x : Bits 70 false, parity x.bv = true ∧ x.bv.getLsbD 1 = false := ⟨.big (by decide) ⟨[1, 0], by decide⟩, by decide +kernel⟩

end Verif
