import Verif.Props.Counting
import Verif.Props.ShiftExact
import Verif.Props.ArithExact

/-!
# Small programs over vectors (C157 to C161)

Multiplication by shifting and adding, Euclid's algorithm, rotation by two shifts, counting ones by clearing the
lowest one, and swapping without a third variable: what clients compute with the operators.
-/

namespace Verif

variable {n m : Nat} {s t : Bool}

/-- the shift amount `bit<31, 0>(i)` -/
def amount (i : Nat) : Bits 32 false := Bits.ofInt i

theorem amount_spec {i : Nat} (h : i < 2 ^ 32) : (amount i).Clean ∧ numOf false (amount i).bv = (i : Int) := by
  have := Bits.ofInt_native (n := 32) (by decide) (BitVec.ofNat 32 i)
  rw [BitVec.toNat_ofNat, Nat.mod_eq_of_lt h] at this
  refine ⟨this.1, ?_⟩
  rw [amount, this.2]
  simp [numOf]; omega

/-! ## C157: multiplication -/

/-- one step: `if (b[i]) acc = acc + (a << i)` -/
def Bits.mulStep (a b : Bits n false) (i : Nat) (acc : Bits n false) : Res (Bits n false) :=
  (b.get (Rng.down n) i).bind fun c =>
    if c then (a.shl (amount i)).bind fun p => acc.add p else .ok acc

/-- `acc = 0; for (i = 0; i < n; i++) if (b[i]) acc = acc + (a << i)` -/
def Bits.mulLoop (a b : Bits n false) : Res (Bits n false) := loopM 0 n Bits.zero (a.mulStep b)

theorem Bits.mulStep_spec (hn : 0 < n) (hN : n < 2 ^ 31) (a b acc : Bits n false) (i : Nat) (hi : i < n)
    (h1 : n = 1 → acc.bv = 0) :
    ∃ z, a.mulStep b i acc = .ok z ∧ z.bv = acc.bv + (if b.bv.getLsbD i then a.bv <<< i else 0) := by
  obtain ⟨ca, na⟩ := amount_spec (i := i) (by omega)
  rw [Bits.mulStep, C01_read hn (by omega) b i hi, res_bind_ok]
  cases hb : b.bv.getLsbD i
  · exact ⟨acc, rfl, by simp⟩
  · have hsh : ∃ p, a.shl (amount i) = .ok p ∧ p.bv = a.bv <<< i := by
      by_cases h : n = 1
      · subst h
        obtain ⟨p, hp, e⟩ := (C25_one_bit_exact (by decide) a (amount i) ca).1
        have : i = 0 := by omega
        subst this
        exact ⟨p, hp, by rw [e]; simp⟩
      · exact C25_shl_partial (by omega) a (amount i) ca i na
          (fun h64 => ⟨by decide, by omega, by split_ifs <;> omega⟩)
    obtain ⟨p, hp, ep⟩ := hsh
    have hadd : ∃ z, acc.add p = .ok z ∧ z.bv = acc.bv + p.bv := by
      by_cases h : n = 1
      · subst h
        obtain ⟨z, hz, e⟩ := C28_one_bit acc p
        exact ⟨z, hz, by rw [e, h1 rfl]; simp⟩
      · exact C28_add_partial (by omega) acc p (fun h => absurd h (by decide))
    obtain ⟨z, hz, ez⟩ := hadd
    refine ⟨z, ?_, by rw [ez, ep]; rfl⟩
    rw [if_pos rfl, hp, res_bind_ok]; exact hz

/-- **C157.** Multiplying by shifting and adding gives the product modulo `2^n` at every width, and never
faults; compare `operator*` (`C30_u16_overflow`, `C30_wide_exact`). -/
theorem C157_multiply (hn : 0 < n) (hN : n < 2 ^ 31) (a b : Bits n false) :
    ∃ z, a.mulLoop b = .ok z ∧ z.bv = a.bv * b.bv := by
  obtain ⟨z, hz, e⟩ : ∃ st, loopM 0 n Bits.zero (a.mulStep b) = .ok st ∧ _ :=
    loopM_induct 0 n Bits.zero (a.mulStep b)
      (fun i acc => acc.bv = a.bv * BitVec.ofNat n (b.bv.toNat % 2 ^ i)) (by omega)
      (by rw [Bits.bv_zero, pow_zero, Nat.mod_one]; simp) (fun i acc _ hi h => by
        obtain ⟨z, hz, e⟩ := Bits.mulStep_spec hn hN a b acc i hi (fun h1 => by
          have : i = 0 := by omega
          subst this
          rw [h, pow_zero, Nat.mod_one]; simp)
        refine ⟨z, hz, ?_⟩
        rw [e, h]
        have hbit : b.bv.toNat % 2 ^ (i + 1) = b.bv.toNat % 2 ^ i + 2 ^ i * (b.bv.getLsbD i).toNat := by
          rw [Nat.mod_pow_succ, BitVec.getLsbD, Nat.toNat_testBit]
        rw [hbit, BitVec.ofNat_add]
        cases b.bv.getLsbD i
        · simp
        · have : a.bv <<< i = a.bv * BitVec.ofNat n (2 ^ i) := by
            rw [BitVec.shiftLeft_eq_mul_twoPow]
            congr 1
            exact BitVec.eq_of_toNat_eq (by simp)
          simp only [if_true, Bool.toNat_true, Nat.mul_one, this]
          grind)
  refine ⟨z, hz, ?_⟩
  rw [e, Nat.mod_eq_of_lt b.bv.isLt, BitVec.ofNat_toNat, BitVec.setWidth_eq]

/-! ## C158: Euclid's algorithm -/

/-- `while (b) { r = a % b; a = b; b = r; }` -/
def Bits.gcdLoop : Nat → Bits n false → Bits n false → Res (Bits n false)
  | 0, _, _ => .error .diverge
  | fuel + 1, a, b => if b.anySet then (a.mod b).bind fun r => Bits.gcdLoop fuel b r else .ok a

/-- **C158, partial.** Euclid's algorithm ends with the greatest common divisor, for native operands and for
wide ones below `2^32`. Missing: other wide operands (`C158_refuted`). -/
theorem C158_gcd_partial (hn : 0 < n) (hN : n ≤ 2 ^ 32) : (fuel : Nat) → (a b : Bits n false) → a.Clean → b.Clean →
    (64 < n → a.bv.toNat < 2 ^ 32 ∧ b.bv.toNat < 2 ^ 32) → b.bv.toNat < fuel →
    ∃ z, a.gcdLoop fuel b = .ok z ∧ z.Clean ∧ z.bv.toNat = Nat.gcd a.bv.toNat b.bv.toNat
  | 0, _, _, _, _, _, hf => by omega
  | fuel + 1, a, b, ha, hb, hw, hf => by
    have low : ∀ x : Bits n false, x.bv.toNat < 2 ^ 32 → LowHalves x.bv := fun x hx c => by
      rintro ⟨j, hj, hb⟩
      by_cases h32 : 64 * c + j < 32
      · exact ⟨j, by omega, hb⟩
      · have : x.bv.getLsbD (64 * c + j) = false :=
          Nat.testBit_lt_two_pow (lt_of_lt_of_le hx (Nat.pow_le_pow_right (by decide) (by omega)))
        rw [this] at hb; cases hb
    by_cases h0 : b.bv = 0
    · refine ⟨a, ?_, ha, by rw [h0]; simp⟩
      rw [Bits.gcdLoop, Lg.anySet_of_eq hb h0]; rfl
    · obtain ⟨q, r, -, hr, -, cr, e, hlt⟩ := C31_div_partial hn hN a b ha hb h0
        (fun h => ⟨low a (hw h).1, low b (hw h).2⟩)
      have er : r.bv.toNat = a.bv.toNat % b.bv.toNat := by
        rw [e, Nat.add_comm, Nat.add_mul_mod_self_right, Nat.mod_eq_of_lt hlt]
      obtain ⟨z, hz, cz, ez⟩ := C158_gcd_partial hn hN fuel b r hb cr (fun h => ⟨(hw h).2, by have := hw h; omega⟩) (by omega)
      refine ⟨z, ?_, cz, ?_⟩
      · rw [Bits.gcdLoop, Lg.anySet_of_ne hb h0 (fun h => low b (hw (by omega)).2), if_pos rfl, hr, res_bind_ok]
        exact hz
      · rw [ez, er, Nat.gcd_comm a.bv.toNat, Nat.gcd_rec b.bv.toNat a.bv.toNat, Nat.gcd_comm]

/-- C158: at every width the loop ends after at most `b + 1` tests, also where the result is wrong: the remainder
is always below the divisor. -/
theorem C158_terminates (hn : 0 < n) (hN : n ≤ 2 ^ 32) : (fuel : Nat) → (a b : Bits n false) → a.Clean → b.Clean →
    b.bv.toNat < fuel → ∃ z, a.gcdLoop fuel b = .ok z ∧ z.Clean
  | 0, _, _, _, _, hf => by omega
  | fuel + 1, a, b, ha, hb, hf => by
    rw [Bits.gcdLoop]
    by_cases hs : b.anySet = true
    · rw [if_pos hs]
      have hlt : ∃ r, a.mod b = .ok r ∧ r.Clean ∧ r.bv.toNat < b.bv.toNat := by
        by_cases h : n ≤ 64
        · have h0 : b.bv ≠ 0 := fun e => by
            rw [Bits.anySet_native h hb, e] at hs; simp at hs
          obtain ⟨q, r, -, hr, -, cr, -, hlt⟩ := C31_div_partial hn hN a b ha hb h0 (fun h' => absurd h (by omega))
          exact ⟨r, hr, cr, hlt⟩
        · have hl : AnyLow b.bv := by
            rw [Bits.anySet, dif_neg h, Big.anySet_iff ((Bits.clean_big h b).1 hb), ← Bits.bv_big] at hs
            exact hs
          have hpos : 0 < b.bv.toNat := by
            obtain ⟨p, -, hp⟩ := hl
            rw [Nat.pos_iff_ne_zero]
            intro e
            rw [BitVec.getLsbD, e, Nat.zero_testBit] at hp; cases hp
          obtain ⟨q, r, -, hr, -, cr, -, hx⟩ := C31_wide_exact (by omega) hN a b ha hb
          obtain ⟨c1, c2⟩ := hx hl
          refine ⟨r, hr, cr, ?_⟩
          by_cases e1 : b.bv.toNat % 2 ^ 64 = 1 ∧ LowOnly b.bv
          · rw [(c1 e1).2]; simpa using hpos
          · obtain ⟨d1, d2⟩ := c2 e1
            by_cases e2 : b.bv.toNat < a.bv.toNat ∧ LowOnly a.bv ∧ LowOnly b.bv
            · rw [(d1 e2).2]
              have : 0 < b.bv.toNat % 2 ^ 64 := by
                obtain ⟨p, hp, hb'⟩ := hl
                have hp64 : p < 64 := by
                  by_contra hc
                  rw [e2.2.2 p (by omega) hp] at hb'; cases hb'
                rw [Nat.pos_iff_ne_zero]
                intro e
                have : (b.bv.toNat % 2 ^ 64).testBit p = true := by
                  rw [Nat.testBit_mod_two_pow, decide_eq_true hp64, Bool.true_and]; exact hb'
                rw [e, Nat.zero_testBit] at this; cases this
              exact lt_of_lt_of_le (Nat.mod_lt _ this) (Nat.mod_le _ _)
            · rw [(d2 e2).2, BitVec.toNat_umod]
              exact Nat.mod_lt _ hpos
      obtain ⟨r, hr, cr, hlt⟩ := hlt
      rw [hr, res_bind_ok]
      exact C158_terminates hn hN fuel b r hb cr (by omega)
    · rw [if_neg hs]
      exact ⟨a, rfl, ha⟩

/-- **C158, refuted.** At every wide width, with `b = 2^k` for any `k` in the upper half of a 64-bit chunk, the
loop ends at once with `a`, whatever `a` is. -/
theorem C158_refuted (h : 64 < n) (k : Nat) (hk : 32 ≤ k % 64) (hkn : k < n) (a : Bits n false) :
    ∃ b : Bits n false, b.Clean ∧ b.bv.toNat = 2 ^ k ∧ ∀ fuel, a.gcdLoop (fuel + 1) b = .ok a := by
  obtain ⟨y, cy, ey⟩ := Bits.exists_clean (s := false) (BitVec.ofNat n (2 ^ k))
  have ny : y.bv.toNat = 2 ^ k := by
    rw [ey, BitVec.toNat_ofNat, Nat.mod_eq_of_lt (Nat.pow_lt_pow_right (by decide) hkn)]
  refine ⟨y, cy, ny, fun fuel => ?_⟩
  have hn : ¬ n ≤ 64 := by omega
  have : y.anySet = false := by
    rw [← Bool.not_eq_true, Bits.anySet, dif_neg hn, Big.anySet_iff ((Bits.clean_big hn y).1 cy), ← Bits.bv_big, ey]
    exact not_anyLow_pow hk
  rw [Bits.gcdLoop, this]; rfl

/-! ## C159: rotation -/

/-- `(x << k) | (x >> (n - k))` -/
def Bits.rotl (x : Bits n false) (k : Nat) : Res (Bits n false) :=
  (x.shl (amount k)).bind fun p => (x.shr (amount (n - k))).map fun q => p.or q

/-- **C159, partial.** Rotation by an amount between 0 and the width, both excluded. Missing: the amount 0
of native vectors (`C159_zero_refuted`). -/
theorem C159_rotate_partial (hN : n < 2 ^ 31) (x : Bits n false) (k : Nat) (h0 : 0 < k) (hk : k < n) :
    ∃ z, x.rotl k = .ok z ∧ z.bv = x.bv.rotateLeft k := by
  obtain ⟨c1, n1⟩ := amount_spec (i := k) (by omega)
  obtain ⟨c2, n2⟩ := amount_spec (i := n - k) (by omega)
  obtain ⟨p, hp, ep⟩ := C25_shl_partial (by omega) x (amount k) c1 k n1
    (fun h64 => ⟨by decide, by omega, by split_ifs <;> omega⟩)
  obtain ⟨q, hq, eq⟩ := C24_shr_partial (by omega) (by omega) x (amount (n - k)) c2 (n - k) n2
    (fun h64 => ⟨by decide, by omega⟩)
  refine ⟨p.or q, ?_, ?_⟩
  · rw [Bits.rotl, hp, res_bind_ok, hq]; rfl
  · rw [Bits.bv_or, ep, eq, BitVec.rotateLeft_def, Nat.mod_eq_of_lt hk]

/-- **C159, refuted.** Rotation of a native vector of more than one bit by 0 is undefined behaviour. -/
theorem C159_zero_refuted (h : n ≤ 64) (h1 : 1 < n) (x : Bits n false) : x.rotl 0 = .error .shift := by
  obtain ⟨c1, n1⟩ := amount_spec (i := 0) (by decide)
  obtain ⟨c2, n2⟩ := amount_spec (i := n - 0) (by omega)
  obtain ⟨p, hp, ep⟩ := C25_shl_partial (by omega) x (amount 0) c1 0 n1
    (fun h64 => ⟨by decide, by omega, by split_ifs <;> omega⟩)
  rw [Bits.rotl, hp, res_bind_ok, C24_refuted_all h h1 (by decide) x (amount (n - 0)) c2 (by rw [n2]; omega)]
  rfl

/-- **C159, wide vectors** rotate by 0 as well. -/
theorem C159_wide_zero (h : 64 < n) (hN : n < 2 ^ 31) (x : Bits n false) : ∃ z, x.rotl 0 = .ok z ∧ z.bv = x.bv := by
  obtain ⟨c1, n1⟩ := amount_spec (i := 0) (by decide)
  obtain ⟨c2, n2⟩ := amount_spec (i := n - 0) (by omega)
  obtain ⟨p, hp, ep⟩ := C25_shl_partial (by omega) x (amount 0) c1 0 n1 (fun h64 => by omega)
  obtain ⟨q, hq, eq⟩ := C24_shr_partial (by omega) (by omega) x (amount (n - 0)) c2 (n - 0) n2 (fun h64 => by omega)
  refine ⟨p.or q, by rw [Bits.rotl, hp, res_bind_ok, hq]; rfl, ?_⟩
  rw [Bits.bv_or, ep, eq]
  refine BitVec.eq_of_getLsbD_eq fun i hi => ?_
  simp

/-! ## C160: counting ones -/

/-- `x & (x - 1)` clears the lowest one -/
theorem and_pred {w : Nat} (b : BitVec w) {p : Nat} (hp : b.getLsbD p = true) (hlow : ∀ i, i < p → b.getLsbD i = false) (i : Nat) :
    (b &&& (b - 1)).getLsbD i = (b.getLsbD i && decide (i ≠ p)) := by
  have hw : p < w := BitVec.lt_of_getLsbD hp
  have e : (b - 1#w).toNat = b.toNat - 1 := by
    have hb := b.isLt
    have : b.toNat ≠ 0 := by
      intro h0
      have : b = 0#w := BitVec.eq_of_toNat_eq (by simpa using h0)
      rw [this] at hp; simp at hp
    rw [BitVec.toNat_sub, BitVec.toNat_one (by omega), show 2 ^ w - 1 + b.toNat = (b.toNat - 1) + 2 ^ w by omega,
      Nat.add_mod_right, Nat.mod_eq_of_lt (by omega)]
  have hN : b.toNat = 2 ^ (p + 1) * (b.toNat / 2 ^ (p + 1)) + 2 ^ p := by
    have h1 : b.toNat % 2 ^ (p + 1) = 2 ^ p := by
      refine Nat.eq_of_testBit_eq fun j => ?_
      rw [Nat.testBit_mod_two_pow, Nat.testBit_two_pow]
      by_cases hj : j = p
      · subst hj; simp; exact hp
      · by_cases h2 : j < p
        · have := hlow j h2
          rw [show b.toNat.testBit j = false from this]; simp; omega
        · rw [decide_eq_false (by omega : ¬ j < p + 1), decide_eq_false (by omega : ¬ p = j)]; rfl
    conv_lhs => rw [← Nat.div_add_mod b.toNat (2 ^ (p + 1)), h1]
  have hP : 2 ^ (p + 1) = 2 * 2 ^ p := by rw [pow_succ]; omega
  have hpos : 0 < 2 ^ p := by positivity
  have hN' : b.toNat - 1 = 2 ^ (p + 1) * (b.toNat / 2 ^ (p + 1)) + (2 ^ p - 1) := by omega
  rw [BitVec.getLsbD_and]
  show (b.toNat.testBit i && (b - 1#w).toNat.testBit i) = (b.toNat.testBit i && _)
  rw [e, hN', Nat.testBit_two_pow_mul_add _ (by omega)]
  by_cases h1 : i < p + 1
  · rw [if_pos h1, Nat.testBit_two_pow_sub_one]
    by_cases h2 : i < p
    · rw [show b.toNat.testBit i = false from hlow i h2]; simp
    · have : i = p := by omega
      subst this; simp
  · rw [if_neg h1]
    have : b.toNat.testBit i = (b.toNat / 2 ^ (p + 1)).testBit (i - (p + 1)) := by
      rw [Nat.testBit_div_two_pow]; congr 1; omega
    rw [this, decide_eq_true (by omega : i ≠ p)]; simp

/-- `while (x) { x = x & (x - one); c++; }` -/
def Bits.onesLoop : Nat → Bits n false → Nat → Res Nat
  | 0, _, _ => .error .diverge
  | fuel + 1, x, c => if x.anySet then (x.sub (Bits.oneN n)).bind fun y => Bits.onesLoop fuel (x.and y) (c + 1) else .ok c

/-- the ones of `b` that have a one at or above them that `any_set()` looks at -/
def countedOnes (b : BitVec n) : Finset Nat :=
  (Finset.range n).filter fun i => b.getLsbD i = true ∧ ∃ j < n, i ≤ j ∧ (n ≤ 64 ∨ j % 64 < 32) ∧ b.getLsbD j = true

/-- **C160, exactly.** The loop counts the ones up to the highest one that `any_set()` looks at, which for
native vectors is every one, for wide ones every one in the lower half of a 64-bit chunk. -/
theorem C160_ones_exact (hn : 0 < n) : (fuel : Nat) → (x : Bits n false) → (c : Nat) → x.Clean →
    (countedOnes x.bv).card < fuel → x.onesLoop fuel c = .ok (c + (countedOnes x.bv).card)
  | 0, _, _, _, h => by omega
  | fuel + 1, x, c, hx, hf => by
    by_cases ha : x.anySet = true
    · obtain ⟨j, hj, hr⟩ := (Bits.anySet_iff x).1 ha
      have hjn : j < n := by
        by_contra h
        rw [(Bits.clean_unsigned_iff x).1 hx j (by omega)] at hr; cases hr
      have hjb : x.bv.getLsbD j = true := by rw [Bits.getLsbD_bv, hr]; simp [hjn]
      obtain ⟨p, hp, hlow⟩ : ∃ p, x.bv.getLsbD p = true ∧ ∀ i, i < p → x.bv.getLsbD i = false := by
        have hex : ∃ p, x.bv.getLsbD p = true := ⟨j, hjb⟩
        refine ⟨Nat.find hex, Nat.find_spec hex, fun i hi => ?_⟩
        rw [← Bool.not_eq_true]; exact Nat.find_min hex hi
      obtain ⟨y, hy, ey⟩ := C29_sub_partial hn x (Bits.oneN n) (fun _ h => absurd h (by decide))
      rw [(Bits.oneN_spec hn).2] at ey
      have ez : (x.and y).bv = x.bv &&& (x.bv - 1) := by rw [Bits.bv_and hn, ey]
      have hz : (x.and y : Bits n false).Clean := by
        by_cases h : n ≤ 64
        · refine (Bits.clean_unsigned_iff _).2 fun i hi => ?_
          have := Bits.raw_and_native h x y i
          rw [this, (Bits.clean_unsigned_iff x).1 hx i hi]; rfl
        · rw [Bits.clean_big h, Bits.and, dif_neg h]
          exact Big.clean_and hn _ _
      have hset : countedOnes x.bv = insert p (countedOnes (x.and y).bv) := by
        ext i
        simp only [countedOnes, Finset.mem_insert, Finset.mem_filter, Finset.mem_range]
        constructor
        · rintro ⟨hi, hb, k, hk, hik, hs, hbk⟩
          by_cases hip : i = p
          · exact Or.inl hip
          · have hgt : p < i := by
              by_contra hle
              rw [hlow i (by omega)] at hb; cases hb
            refine Or.inr ⟨hi, ?_, k, hk, hik, hs, ?_⟩
            · rw [ez, and_pred x.bv hp hlow, hb]; simpa using hip
            · rw [ez, and_pred x.bv hp hlow, hbk]; simp; omega
        · rintro (rfl | ⟨hi, hb, k, hk, hik, hs, hbk⟩)
          · refine ⟨BitVec.lt_of_getLsbD hp, hp, j, hjn, ?_, hj, hjb⟩
            by_contra hlt
            rw [hlow j (by omega)] at hjb; cases hjb
          · rw [ez, and_pred x.bv hp hlow, Bool.and_eq_true] at hb hbk
            exact ⟨hi, hb.1, k, hk, hik, hs, hbk.1⟩
      have hnot : p ∉ countedOnes (x.and y).bv := by
        simp only [countedOnes, Finset.mem_filter, not_and]
        intro _ hb
        rw [ez, and_pred x.bv hp hlow] at hb; simp at hb
      have hcard : (countedOnes x.bv).card = (countedOnes (x.and y).bv).card + 1 := by
        rw [hset, Finset.card_insert_of_notMem hnot]
      rw [Bits.onesLoop, if_pos ha, hy, res_bind_ok]
      have := C160_ones_exact hn fuel (x.and y) (c + 1) hz (by omega)
      rw [hcard]
      refine this.trans ?_
      congr 1; omega
    · have : countedOnes x.bv = ∅ := by
        ext i
        simp only [countedOnes, Finset.mem_filter, Finset.notMem_empty, iff_false, not_and, not_exists]
        intro _ _ j hj _ hs hb
        apply ha
        rw [Bits.anySet_iff]
        rw [Bits.getLsbD_bv] at hb
        exact ⟨j, hs, by simpa [hj] using hb⟩
      rw [Bits.onesLoop, if_neg ha, this]; rfl

/-- **C160, partial.** For native vectors, and for wide ones whose highest one is in the lower half of its
64-bit chunk, the loop counts the ones. Missing: the other wide vectors (`C160_refuted`). -/
theorem C160_ones_partial (hn : 0 < n) (x : Bits n false) (hx : x.Clean) (fuel : Nat)
    (hv : 64 < n → ∀ i, x.bv.getLsbD i = true → ∃ j, i ≤ j ∧ j % 64 < 32 ∧ x.bv.getLsbD j = true)
    (hf : n < fuel) :
    x.onesLoop fuel 0 = .ok ((Finset.range n).filter fun i => x.bv.getLsbD i = true).card := by
  have e : countedOnes x.bv = (Finset.range n).filter fun i => x.bv.getLsbD i = true := by
    ext i
    simp only [countedOnes, Finset.mem_filter, and_congr_right_iff, and_iff_left_iff_imp, Finset.mem_range]
    intro hi hb
    by_cases h : n ≤ 64
    · exact ⟨i, hi, le_refl _, Or.inl h, hb⟩
    · obtain ⟨j, h1, h2, h3⟩ := hv (by omega) i hb
      exact ⟨j, BitVec.lt_of_getLsbD h3, h1, Or.inr h2, h3⟩
  have hc : (countedOnes x.bv).card ≤ n := by
    refine (Finset.card_filter_le _ _).trans ?_
    rw [Finset.card_range]
  rw [C160_ones_exact hn fuel x 0 hx (by omega), e, Nat.zero_add]

/-- **C160, refuted.** A wide vector whose only one is in the upper half of a 64-bit chunk is counted as
without ones. -/
theorem C160_refuted (h : 64 < n) (k : Nat) (hk : 32 ≤ k % 64) (hkn : k < n) :
    ∃ x : Bits n false, x.Clean ∧ x.bv.toNat = 2 ^ k ∧ ∀ fuel, x.onesLoop (fuel + 1) 0 = .ok 0 := by
  obtain ⟨b, cb, nb, -⟩ := C158_refuted h k hk hkn Bits.zero
  refine ⟨b, cb, nb, fun fuel => ?_⟩
  have hn : ¬ n ≤ 64 := by omega
  have : b.anySet = false := by
    rw [← Bool.not_eq_true, Bits.anySet, dif_neg hn, Big.anySet_iff ((Bits.clean_big hn b).1 cb), ← Bits.bv_big]
    have e : b.bv = BitVec.ofNat n (2 ^ k) := BitVec.eq_of_toNat_eq (by
      rw [nb, BitVec.toNat_ofNat, Nat.mod_eq_of_lt (Nat.pow_lt_pow_right (by decide) hkn)])
    rw [e]; exact not_anyLow_pow hk
  rw [Bits.onesLoop, this]; rfl

/-! ## C161: swapping -/

/-- `a = a ^ b; b = a ^ b; a = a ^ b` -/
def Bits.xorSwap (a b : Bits n false) : Bits n false × Bits n false :=
  let a1 : Bits n false := a.xor b
  let b1 : Bits n false := a1.xor b
  (a1.xor b1, b1)

/-- `a = a + b; b = a - b; a = a - b` -/
def Bits.addSwap (a b : Bits n false) : Res (Bits n false × Bits n false) :=
  (a.add b).bind fun a1 => (Bits.sub a1 b).bind fun b1 => (Bits.sub a1 b1).map fun a2 => (a2, b1)

/-- **C161, with `^`.** At every width the two objects are exchanged, with all their storage. -/
theorem C161_xor (a b : Bits n false) : a.xorSwap b = (b, a) := by
  have h1 : ((a.xor b : Bits n false).xor b : Bits n false) = a := by
    refine Bits.cell_inj (Bits.cell_raw fun i => ?_)
    rw [Bits.raw_xor, Bits.raw_xor]; cases a.raw i <;> cases b.raw i <;> rfl
  have h2 : ((a.xor b : Bits n false).xor a : Bits n false) = b := by
    refine Bits.cell_inj (Bits.cell_raw fun i => ?_)
    rw [Bits.raw_xor, Bits.raw_xor]; cases a.raw i <;> cases b.raw i <;> rfl
  simp only [Bits.xorSwap]
  rw [h1, h2]

/-- **C161, with `+` and `-`, partial.** The same at every width above one. Missing: one bit
(`C161_one_bit_refuted`). -/
theorem C161_add_partial (h1 : 1 < n) (a b : Bits n false) : a.addSwap b = .ok (b, a) := by
  obtain ⟨a1, ha1, -⟩ := C28_add_partial h1 a b (fun h => absurd h (by decide))
  obtain ⟨b1, hb1, -⟩ := C29_sub_partial (by omega) (a1 : Bits n false) b (fun h => absurd h (by decide))
  obtain ⟨a2, ha2, -⟩ := C29_sub_partial (by omega) (a1 : Bits n false) (b1 : Bits n false) (fun h => absurd h (by decide))
  have e1 := Bits.sto_add h1 ha1
  have e2 := Bits.sto_sub h1 hb1
  have e3 := Bits.sto_sub h1 ha2
  have la := Bits.sto_lt a
  have lb := Bits.sto_lt b
  have q1 : b1 = a := by
    refine Bits.cell_inj ?_
    rw [Bits.cell_sto, Bits.cell_sto, e2, e1, Nat.mod_add_mod, show a.sto + b.sto + (2 ^ stoW n - b.sto) = a.sto + 2 ^ stoW n by omega,
      Nat.add_mod_right, Nat.mod_eq_of_lt la]
  subst q1
  have q2 : a2 = b := by
    refine Bits.cell_inj ?_
    rw [Bits.cell_sto, Bits.cell_sto, e3, e1, Nat.mod_add_mod, show Bits.sto b1 + b.sto + (2 ^ stoW n - Bits.sto b1) = b.sto + 2 ^ stoW n by omega,
      Nat.add_mod_right, Nat.mod_eq_of_lt lb]
  subst q2
  rw [Bits.addSwap, ha1, res_bind_ok, hb1, res_bind_ok, ha2]; rfl

/-- **C161, refuted for one bit**: two ones become a one and a zero. -/
theorem C161_one_bit_refuted : ∃ a b : Bits 1 false, a.Clean ∧ b.Clean ∧ a.bv = 1 ∧ b.bv = 1 ∧
    (a.addSwap b).map (fun p => (p.1.bv, p.2.bv)) = .ok (1, 0) :=
  ⟨Bits.ofInt 1, Bits.ofInt 1, by decide +kernel⟩

/-! ### concrete cases -/

/-- 13 * 11 in 7 bits; the square of 2^40 + 1 in 70 bits -/
example : ((Bits.ofInt 13 : Bits 7 false).mulLoop (Bits.ofInt 11)).map (·.bv.toNat) = .ok (143 % 128) ∧
    ((Bits.ofInt (2 ^ 40 + 1) : Bits 70 false).mulLoop (Bits.ofInt (2 ^ 40 + 1))).map (·.bv.toNat) =
      .ok ((2 ^ 40 + 1) ^ 2 % 2 ^ 70) := by decide +kernel

/-- gcd(84, 36) in 8 bits and in 70 bits; gcd(84, 2^40) comes out as 84 in 70 bits -/
example : ((Bits.ofInt 84 : Bits 8 false).gcdLoop 40 (Bits.ofInt 36)).map (·.bv.toNat) = .ok 12 ∧
    ((Bits.ofInt 84 : Bits 70 false).gcdLoop 40 (Bits.ofInt 36)).map (·.bv.toNat) = .ok 12 ∧
    ((Bits.ofInt 84 : Bits 70 false).gcdLoop 40 (Bits.ofInt (2 ^ 40))).map (·.bv.toNat) = .ok 84 := by decide +kernel

/-- rotation of a 7-bit vector by 3 -/
example : ((Bits.ofInt 0b1010011 : Bits 7 false).rotl 3).map (·.bv.toNat) = .ok 0b0011101 := by decide +kernel

/-- ones of a 7-bit and of a 70-bit vector, the latter with a one at 40 that is not counted -/
example : (Bits.ofInt 0b1010011 : Bits 7 false).onesLoop 9 0 = .ok 4 ∧
    (Bits.ofInt (2 ^ 40 + 5) : Bits 70 false).onesLoop 9 0 = .ok 2 := by decide +kernel

/-- swapping 5 and 100 -/
example : ((Bits.ofInt 5 : Bits 7 false).addSwap (Bits.ofInt 100)).map (fun p => (p.1.bv.toNat, p.2.bv.toNat)) = .ok (100, 5) := by
  decide +kernel


end Verif
