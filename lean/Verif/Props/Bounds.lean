import Verif.Model.BigChecked
import Verif.Lemmas.BigMul
import Verif.Lemmas.BitOps

/-!
# C168: the limb arrays are accessed in bounds

`Verif.Model.BigChecked` checks every array access, shift count and `clz` argument of `big_num.hh`. Each
theorem below says that the checked function is the unchecked one with outcome `ok`, so that no check
fails, for every size above zero; the multiplication is the exception, and there the checked function is
shown to agree with the model used for C33, faults included.
-/

namespace Verif
namespace Big

variable {n m : Nat} {s t : Bool}

/-- a checked loop whose steps all succeed is the unchecked loop -/
theorem loopM_pure {σ : Type} (a b : Nat) (st : σ) (f : Nat → σ → Res σ) (g : Nat → σ → σ)
    (h : ∀ i st, a ≤ i → i < b → f i st = .ok (g i st)) :
    loopM a b st f = .ok (loop a b st g) := by
  by_cases hab : b ≤ a
  · rw [loopM_zero _ _ _ _ hab, loop_zero _ _ _ _ hab]
  · obtain ⟨k, rfl⟩ := Nat.exists_eq_add_of_le (show a ≤ b by omega)
    clear hab
    induction k with
    | zero => rw [loopM_zero _ _ _ _ (by omega), loop_zero _ _ _ _ (by omega)]
    | succ k ih =>
      rw [loopM_succ, loop_succ, ih fun i st h1 h2 => h i st h1 (by omega)]
      exact h _ _ (by omega) (by omega)

theorem rd_ok (x : Big n s) {i : Nat} (h : i < limbs n) : x.rd i = .ok (x.limb i) := by
  rw [rd, if_pos h]

theorem wr_ok (x : Big n s) {i : Nat} (v : BitVec 64) (h : i < limbs n) :
    x.wr i v = .ok (x.setLimb i v) := by rw [wr, if_pos h]

theorem fromC_ok (x : Big n s) {k : Nat} (h : k ≤ limbs n) : x.fromC k = .ok (x.vals.drop k) := by
  rw [fromC, if_pos h]

theorem limbs_div {n i : Nat} (h : i < n) : i / 64 < limbs n := by
  unfold limbs; split <;> omega

theorem limbs_pos' {n : Nat} (h : 0 < n) : 0 < limbs n := by
  unfold limbs; split <;> omega

theorem limbs_spare {n : Nat} (h : 0 < n) : limbs n * 64 - n < 64 := by
  unfold limbs; split <;> omega

theorem limbs_mono' {n m : Nat} (h : n ≤ m) : limbs n ≤ limbs m := by
  unfold limbs; split <;> split <;> omega

theorem shrC_ok (v : BitVec 64) {k : Nat} (h : k < 64) : shrC v k = .ok (v >>> k) := by
  rw [shrC, if_pos h]

theorem shlC_ok (v : BitVec 64) {k : Nat} (h : k < 64) : shlC v k = .ok (v <<< k) := by
  rw [shlC, if_pos h]

/-- C168, reading a bit at any index -/
theorem C168_get (x : Big n s) (i : Nat) : x.getC i = .ok (x.get i) := by
  unfold getC get
  by_cases h : i < n
  · rw [if_pos h, if_pos h, rd_ok _ (limbs_div h), res_bind_ok, shrC_ok _ (Nat.mod_lt _ (by decide))]
    rfl
  · rw [if_neg h, if_neg h]

/-- C168, writing a bit at any index -/
theorem C168_set (x : Big n s) (i : Nat) (v : Bool) : x.setC i v = .ok (x.set i v) := by
  unfold setC set
  by_cases h : i < n
  · rw [if_pos h, if_pos h, rd_ok _ (limbs_div h), res_bind_ok, shlC_ok _ (Nat.mod_lt _ (by decide)),
      res_bind_ok, wr_ok _ _ (limbs_div h)]
    cases v <;> rfl
  · rw [if_neg h, if_neg h]

theorem copyBit_ok (x : Big n s) (r : Big m t) (i j : Nat) :
    copyBit x r i j = .ok (r.set i (x.get j)) := by
  rw [copyBit, C168_get, res_bind_ok, C168_set]

/-- C168, the sign bit -/
theorem C168_negative (x : Big n s) : x.negativeC = .ok x.negative := C168_get _ _

/-- C168, slices with constant bounds -/
theorem C168_slice (a b : Nat) (x : Big n s) : x.sliceFixedC a b = .ok (x.sliceFixed a b) :=
  loopM_pure _ _ _ _ _ fun _ _ _ _ => copyBit_ok _ _ _ _

/-- C168, slices with bounds given at run time: bounds past the size are not an access out of bounds -/
theorem C168_slice_rt (k a b : Nat) (x : Big n s) : x.sliceRtC k a b = x.sliceRt k a b := by
  unfold sliceRtC sliceRt
  split
  · rfl
  · exact loopM_pure _ _ _ _ _ fun _ _ _ _ => copyBit_ok _ _ _ _

/-- C168, extension -/
theorem C168_extend (x : Big n s) (h : n ≤ m) : x.extendC m = .ok (x.extend m) := by
  unfold extendC extend
  rw [loopM_pure _ _ _ _ (fun i r => r.setLimb i (x.limb i)) fun i r _ hi => by
    rw [mapLimb, rd_ok _ hi, res_bind_ok, wr_ok _ _ (lt_of_lt_of_le hi (limbs_mono' h))]; rfl, res_bind_ok]
  cases s
  · rfl
  · exact loopM_pure _ _ _ _ _ fun i r _ _ => C168_set _ _ _

/-- C168, concatenation -/
theorem C168_concat (x : Big n s) (y : Big m t) : x.concatC y = .ok (x.concat y) := by
  unfold concatC concat
  rw [loopM_pure _ _ _ _ (fun i r => r.setLimb i (y.limb i)) fun i r _ hi => by
    rw [mapLimb, rd_ok _ hi, res_bind_ok,
      wr_ok _ _ (lt_of_lt_of_le hi (limbs_mono' (show m ≤ n + m by omega)))]; rfl, res_bind_ok]
  exact loopM_pure _ _ _ _ _ fun i r _ _ => copyBit_ok _ _ _ _

/-- C168, the masking of the top limb -/
theorem C168_mask_off (hn : 0 < n) (x : Big n s) : x.maskOffC = .ok x.maskOff := by
  have := limbs_pos' hn
  rw [maskOffC, shrC_ok _ (limbs_spare hn), res_bind_ok, rd_ok _ (by omega), res_bind_ok,
    wr_ok _ _ (by omega)]
  rfl

/-- C168, bitwise negation -/
theorem C168_not (x : Big n s) : x.notC = .ok x.not := by
  unfold notC not
  rw [loopM_pure _ _ _ _ (fun i r => r.setLimb i (~~~ x.limb i)) fun i r _ hi => by
    rw [mapLimb, rd_ok _ hi, res_bind_ok, wr_ok _ _ hi], res_bind_ok]
  exact loopM_pure _ _ _ _ _ fun i r _ _ => C168_set _ _ _

theorem zipLimb_ok (f : BitVec 64 → BitVec 64 → BitVec 64) (x : Big n s) (y : Big n t) (i : Nat)
    (r : Big n (s && t)) (h : i < limbs n) :
    zipLimb f x y i r = .ok (r.setLimb i (f (x.limb i) (y.limb i))) := by
  rw [zipLimb, rd_ok _ h, res_bind_ok, rd_ok _ h, res_bind_ok, wr_ok _ _ h]

/-- C168, bitwise and -/
theorem C168_and (hn : 0 < n) (x : Big n s) (y : Big n t) : x.andC y = .ok (x.and y) := by
  unfold andC and
  rw [loopM_pure _ _ _ _ (fun i r => r.setLimb i (x.limb i &&& y.limb i))
    fun i r _ hi => zipLimb_ok _ _ _ _ _ hi, res_bind_ok, C168_mask_off hn]

/-- C168, bitwise exclusive or -/
theorem C168_xor (x : Big n s) (y : Big n t) : x.xorC y = .ok (x.xor y) :=
  loopM_pure _ _ _ _ _ fun _ _ _ hi => zipLimb_ok _ _ _ _ _ hi

/-- C168, bitwise or -/
theorem C168_or (x : Big n s) (y : Big n t) : x.orC y = .ok (x.or y) :=
  loopM_pure _ _ _ _ _ fun _ _ _ hi => zipLimb_ok _ _ _ _ _ hi

/-- C168, the exclusive or of all bits -/
theorem C168_r_xor (x : Big n s) : x.rXorC = .ok x.rXor := by
  rw [rXorC, C168_get, res_bind_ok]
  exact loopM_pure _ _ _ _ _ fun i b _ _ => by rw [C168_get]; rfl

/-- C168, shifting right by a number -/
theorem C168_shr (x : Big n s) (a : Nat) : x.shrNC a = .ok (x.shr a) := by
  unfold shrNC shr
  split
  · rfl
  · exact loopM_pure _ _ _ _ _ fun _ _ _ _ => copyBit_ok _ _ _ _

/-- C168, shifting left by a number -/
theorem C168_shl (x : Big n s) (a : Nat) : x.shlNC a = .ok (x.shl a) := by
  unfold shlNC shl
  split
  · rfl
  · exact loopM_pure _ _ _ _ _ fun _ _ _ _ => copyBit_ok _ _ _ _

theorem scanC_ok (a : Big m t) (k i : Nat) (h : i + k ≤ limbs m) :
    a.scanC k i = .ok ((List.range' i k).any fun i => a.limb i != 0) := by
  induction k generalizing i with
  | zero => rfl
  | succ k ih =>
    rw [scanC, rd_ok _ (by omega), res_bind_ok, ih (i + 1) (by omega), List.range'_succ, List.any_cons]
    cases a.limb i != 0 <;> rfl

/-- C168, the scan of a wide shift amount for bits above the first limb stays inside the amount -/
theorem C168_shift_amount (hm : 0 < m) (a : Big m t) : a.highLimbC = .ok a.highLimb := by
  have := limbs_pos' hm
  exact scanC_ok a _ _ (by omega)

/-- C168, shifting right by a wide amount -/
theorem C168_shr_big (hm : 0 < m) (x : Big n s) (a : Big m t) : x.shrBigC a = .ok (x.shrBig a) := by
  rw [shrBigC, shrBig, C168_shift_amount hm, res_bind_ok]
  split
  · rfl
  · rw [rd_ok _ (limbs_pos' hm), res_bind_ok, C168_shr]; rfl

/-- C168, shifting left by a wide amount -/
theorem C168_shl_big (hm : 0 < m) (x : Big n s) (a : Big m t) : x.shlBigC a = .ok (x.shlBig a) := by
  rw [shlBigC, shlBig, C168_shift_amount hm, res_bind_ok]
  split
  · rfl
  · rw [rd_ok _ (limbs_pos' hm), res_bind_ok, C168_shl]; rfl

/-- C168, setting every bit -/
theorem C168_mask (hn : 0 < n) (x : Big n s) : x.maskC = .ok x.mask := by
  have := limbs_pos' hn
  rw [maskC, loopM_pure _ _ _ _ (fun i r => r.setLimb i (BitVec.allOnes 64)) fun i r _ hi =>
    wr_ok _ _ (by omega), res_bind_ok, shrC_ok _ (limbs_spare hn), res_bind_ok, wr_ok _ _ (by omega)]
  rfl

theorem signFillC_ok (hn : 0 < n) (x : Big n s) (u : Bool) :
    x.signFillC u = .ok (if x.negative then zero.mask else zero) := by
  rw [signFillC, C168_negative, res_bind_ok]
  split
  · exact C168_mask hn _
  · rfl

/-- C168, arithmetic shift right by a number -/
theorem C168_ashr (hn : 0 < n) (x : Big n s) (a : Nat) : x.ashrC a = .ok (x.ashr a) := by
  unfold ashrC ashr
  cases s
  · exact C168_shr _ _
  · rw [if_pos rfl, if_pos rfl]
    split
    · exact signFillC_ok hn _ _
    · rw [C168_negative, res_bind_ok, loopM_pure _ _ _ _ (fun i r => r.set (n - i - 1) x.negative)
        fun i r _ _ => C168_set _ _ _, res_bind_ok]
      exact loopM_pure _ _ _ _ _ fun _ _ _ _ => copyBit_ok _ _ _ _

/-- C168, arithmetic shift right by a wide amount -/
theorem C168_ashr_big (hn : 0 < n) (hm : 0 < m) (x : Big n s) (a : Big m t) :
    x.ashrBigC a = .ok (x.ashrBig a) := by
  rw [ashrBigC, ashrBig, C168_shift_amount hm, res_bind_ok]
  split
  · cases s
    · rfl
    · exact signFillC_ok hn _ _
  · rw [rd_ok _ (limbs_pos' hm), res_bind_ok, C168_ashr hn]; rfl

theorem eqScanC_ok (x : Big n s) (y : Big m t) (k i : Nat) (h1 : i + k ≤ limbs n)
    (h2 : i + k ≤ limbs m) :
    eqScanC x y k i = .ok ((List.range' i k).all fun i => x.limb i == y.limb i) := by
  induction k generalizing i with
  | zero => rfl
  | succ k ih =>
    rw [eqScanC, rd_ok _ (by omega), res_bind_ok, rd_ok _ (by omega), res_bind_ok,
      ih (i + 1) (by omega) (by omega), List.range'_succ, List.all_cons]
    by_cases e : x.limb i = y.limb i
    · rw [e]; simp
    · simp [e]

theorem eqScanC_upTo (x : Big n s) (y : Big m t) (k : Nat) (h1 : k ≤ limbs n) (h2 : k ≤ limbs m) :
    eqScanC x y k 0 = .ok (eqUpTo k x y) := by
  rw [eqScanC_ok x y k 0 (by omega) (by omega), eqUpTo, List.range_eq_range']

/-- C168, equality of wide values of any two sizes; with two signed operands only a wider right operand
compiles -/
theorem C168_eq (x : Big n s) (y : Big m t) (h : s = true → t = true → n ≤ m) :
    x.eqC y = .ok (x.eq y) := by
  unfold eqC eq
  by_cases hst : (s && t) = true
  · rw [if_pos hst, if_pos hst]
    obtain ⟨h1, h2⟩ := Bool.and_eq_true_iff.mp hst
    rw [C168_extend _ (h h1 h2), res_bind_ok, eqScanC_upTo _ _ _ (le_refl _) (le_refl _)]
  · rw [if_neg hst, if_neg hst]
    by_cases hl : limbs n ≥ limbs m
    · rw [if_pos hl, if_pos hl, eqScanC_upTo _ _ _ hl (le_refl _), res_bind_ok]
      split
      · split
        · rfl
        · rw [fromC, if_pos hl]; rfl
      · rfl
    · rw [if_neg hl, if_neg hl, eqScanC_upTo _ _ _ (le_refl _) (by omega), res_bind_ok]
      split
      · rw [fromC, if_pos (by omega)]; rfl
      · rfl

/-- C168, equality with a number -/
theorem C168_eq_num (hn : 0 < n) (x : Big n s) (v : BitVec 64) : x.eqNumC v = .ok (x.eqNum v) := by
  have := limbs_pos' hn
  rw [eqNumC, eqNum, rd_ok _ this, res_bind_ok, fromC_ok _ (by omega)]
  split <;> rfl

theorem gtLoopC_ok (x : Big n s) (y : Big m t) (k : Nat) (h : k ≤ max (limbs n) (limbs m)) :
    gtLoopC x y k = .ok (gtLoop x y k) := by
  induction k with
  | zero => rfl
  | succ k ih =>
    rw [gtLoopC, gtLoop, ih (by omega)]
    by_cases h1 : k ≥ limbs n
    · rw [if_pos h1, if_pos h1, rd_ok _ (by omega), res_bind_ok]
      split <;> rfl
    · rw [if_neg h1, if_neg h1, rd_ok _ (by omega), res_bind_ok]
      by_cases h2 : k ≥ limbs m
      · rw [if_pos h2, if_pos h2]
        split <;> rfl
      · rw [if_neg h2, if_neg h2, res_bind_ok, rd_ok _ (by omega), res_bind_ok]
        split <;> rfl

/-- C168, the magnitude comparison of any two sizes -/
theorem C168_gt_mag (x : Big n s) (y : Big m t) : gtMagC x y = .ok (gtMag x y) :=
  gtLoopC_ok _ _ _ (le_refl _)

/-- C168, addition -/
theorem C168_add (x : Big n s) (y : Big n t) : x.addC y = .ok (x.add y) := by
  rw [addC, loopM_pure _ _ _ _ (fun i st =>
    let v := st.1 + (x.limb i).setWidth 128 + (y.limb i).setWidth 128
    (v >>> 64, st.2.setLimb i (((v <<< 64) >>> 64).setWidth 64))) fun i st _ hi => by
      rw [addLimb, rd_ok _ hi, res_bind_ok, rd_ok _ hi, res_bind_ok]
      simp only
      rw [wr_ok _ _ hi]; rfl]
  rfl

theorem ofU64C_ok (hn : 0 < n) (v : BitVec 64) : (ofU64C v : Res (Big n s)) = .ok (ofU64 v) :=
  wr_ok _ _ (limbs_pos' hn)

/-- C168, arithmetic negation -/
theorem C168_negate (hn : 0 < n) (x : Big n s) : x.negateC = .ok x.negate := by
  rw [negateC, C168_not, res_bind_ok, ofU64C_ok hn, res_bind_ok, C168_add]; rfl

/-- C168, subtraction -/
theorem C168_sub (hn : 0 < n) (x : Big n s) (y : Big n t) : x.subC y = .ok (x.sub y) := by
  rw [subC, C168_negate hn, res_bind_ok, C168_add]; rfl

theorem gtSC_ok (k : Nat) (hn : 0 < n) (hm : 0 < m) (x : Big n true) (y : Big m true) :
    gtSC k x y = gtS k x y := by
  induction k generalizing n m with
  | zero => rfl
  | succ k ih =>
    rw [gtSC, gtS, C168_negative, res_bind_ok, C168_negative, res_bind_ok, C168_negate hn, res_bind_ok,
      C168_negate hm, res_bind_ok, ih hm hn, C168_gt_mag]

/-- C168, `operator>` on any two operands -/
theorem C168_gt (hn : 0 < n) (hm : 0 < m) (x : Big n s) (y : Big m t) : x.gtC y = x.gt y := by
  unfold gtC gt
  split
  · exact gtSC_ok _ hn hm _ _
  · exact C168_gt_mag _ _

/-- C168, `operator>=` where it compiles -/
theorem C168_ge (hn : 0 < n) (hm : 0 < m) (x : Big n s) (y : Big m t)
    (h : s = true → t = true → n ≤ m) : x.geC y = x.ge y := by
  unfold geC ge
  rw [C168_gt hn hm, C168_eq x y h]
  cases x.gt y with
  | error e => rfl
  | ok b => cases b <;> rfl

/-- C168, all bits set -/
theorem C168_all_set (hn : 0 < n) (x : Big n s) : x.allSetC = .ok x.allSet := by
  have := limbs_pos' hn
  rw [allSetC, initC, if_pos (by omega), res_bind_ok, shrC_ok _ (limbs_spare hn), res_bind_ok, allSet]
  split
  · rw [rd_ok _ this]; rfl
  · rw [rd_ok _ (by omega)]
    split
    · rename_i h; rw [h]; rfl
    · rename_i h
      rw [Bool.eq_false_iff.mpr h]; rfl

/-- C168, comparison with one -/
theorem C168_is_one (hn : 0 < n) (x : Big n s) : x.isOneC = .ok x.isOne := by
  have := limbs_pos' hn
  rw [isOneC, rd_ok _ this, res_bind_ok, isOne, fromC_ok _ (by omega)]
  split
  · rfl
  · split
    · rename_i h; rw [h]; rfl
    · rename_i h
      rw [Bool.eq_false_iff.mpr h]; rfl

/-- C168, the test for a single limb: `values.begin() + 1` is a valid iterator of a non-empty array -/
theorem C168_fit (hn : 0 < n) (x : Big n s) : x.fitIn64C = .ok x.fitIn64 := by
  have := limbs_pos' hn
  rw [fitIn64C, fromC, if_pos (by omega)]; rfl

theorem highestBitLoopC_ok (x : Big n s) (k : Nat) (h : k ≤ limbs n) :
    x.highestBitLoopC k = .ok (x.highestBitLoop k) := by
  induction k with
  | zero => rfl
  | succ k ih =>
    rw [highestBitLoopC, highestBitLoop, rd_ok _ (by omega), res_bind_ok, ih (by omega)]
    split
    · rename_i h0
      rw [clzC, if_neg (by simpa using h0)]; rfl
    · rfl

theorem setLimb_back (k : Nat) (v : BitVec 64) :
    ((zero : Big n s).setLimb k v).setLimb k 0 = zero := by
  unfold setLimb zero
  congr 1
  rw [List.set_set]
  exact List.set_replicate_self ..

/-- a loop that carries a value it restores in every step -/
theorem loopM_carry {σ τ : Type} (z : τ) (a b : Nat) (st : σ) (f : Nat → τ × σ → Res (τ × σ))
    (g : Nat → σ → Res σ)
    (h : ∀ i st, a ≤ i → i < b → f i (z, st) = (g i st).map fun r => (z, r)) :
    loopM a b (z, st) f = (loopM a b st g).map fun r => (z, r) := by
  by_cases hab : b ≤ a
  · rw [loopM_zero _ _ _ _ hab, loopM_zero _ _ _ _ hab]; rfl
  · obtain ⟨k, rfl⟩ := Nat.exists_eq_add_of_le (show a ≤ b by omega)
    clear hab
    induction k with
    | zero => rw [loopM_zero _ _ _ _ (by omega), loopM_zero _ _ _ _ (by omega)]; rfl
    | succ k ih =>
      rw [loopM_succ, loopM_succ, ih fun i st h1 h2 => h i st h1 (by omega)]
      cases loopM a (a + k) st g with
      | error e => rfl
      | ok r => exact h _ _ (by omega) (by omega)

theorem mulAccC_ok (k : Nat) (v : BitVec 64) (r : Big n s) :
    mulAccC k v ((zero : Big n false), r) = (mulAcc k v r).map fun r => (zero, r) := by
  unfold mulAccC mulAcc
  by_cases h : k < n
  · rw [if_pos h, if_pos h]
    by_cases hl : k < limbs n
    · rw [wr_ok _ _ hl, if_pos hl, res_bind_ok, C168_add, res_bind_ok, wr_ok _ _ hl, setLimb_back]
      rfl
    · rw [if_neg hl, wr, if_neg hl]; rfl
  · rw [if_neg h, if_neg h]; rfl

/-- C168, multiplication: the checked function agrees with the model of C33, including the writes past
the end of the array that the guards of lines 653 and 658 let through -/
theorem C168_mul (hn : 0 < n) (x : Big n s) (y : Big n t) : x.mulC y = x.mul y := by
  have hp := limbs_pos' hn
  unfold mulC mul
  rw [C168_fit hn, res_bind_ok, C168_fit hn,
    show (if x.fitIn64 = true then (.ok y.fitIn64 : Res Bool) else .ok false)
      = .ok (x.fitIn64 && y.fitIn64) by cases x.fitIn64 <;> rfl, res_bind_ok]
  split
  · rw [rd_ok _ hp, res_bind_ok, rd_ok _ hp, res_bind_ok]
    simp only
    rw [wr_ok _ _ hp, res_bind_ok]
    by_cases h2 : limbs n < 2
    · rw [if_pos h2, wr, if_neg (by omega)]
    · rw [if_neg h2, wr_ok _ _ (by omega)]
  · refine (congrArg (Except.map (·.2)) (loopM_carry _ _ _ _ _ (fun i result =>
      if x.limb i = 0 then .ok result
      else
        loopM 0 (limbs n) result fun j result =>
          if y.limb j = 0 then .ok result
          else
            let c : BitVec 128 := (x.limb i).setWidth 128 * (y.limb j).setWidth 128
            let hi := (c >>> 64).setWidth 64
            let lo := ((c <<< 64) >>> 64).setWidth 64
            (mulAcc (i + j) lo result).bind (mulAcc (i + j + 1) hi)) ?_)).trans ?_
    · intro i st _ hi
      rw [rd_ok _ hi, res_bind_ok]
      by_cases h0 : x.limb i = 0
      · rw [if_pos h0, if_pos h0]; rfl
      · rw [if_neg h0, if_neg h0]
        refine loopM_carry _ _ _ _ _ _ ?_
        intro j st _ hj
        rw [rd_ok _ hj, res_bind_ok]
        by_cases h1 : y.limb j = 0
        · rw [if_pos h1, if_pos h1]; rfl
        · rw [if_neg h1, if_neg h1]
          simp only
          rw [mulAccC_ok]
          cases mulAcc (i + j) _ st with
          | error e => rfl
          | ok r => exact mulAccC_ok _ _ _
    · generalize loopM 0 (limbs n) zero _ = r
      cases r <;> rfl

/-- C168, the highest set bit; `clz` is never applied to zero -/
theorem C168_highest_bit (x : Big n s) : x.highestBitC = .ok x.highestBit := by
  rw [highestBitC, highestBitLoopC_ok _ _ (le_refl _)]; rfl

theorem divLoopC_ok (hn : 0 < n) (y : Big n false) (k : Nat) (st : Big n false × Big n false) :
    divLoopC y k st = .ok (divLoop y k st) := by
  induction k generalizing st with
  | zero => rfl
  | succ k ih =>
    obtain ⟨q, r⟩ := st
    rw [divLoopC, divLoop, C168_shl, res_bind_ok, C168_ge hn hn _ _ (by simp), C168_sub hn, C168_set]
    have hg : r.ge (y.shl k) = .ok (gtMag r (y.shl k) || r.eq (y.shl k)) := by
      unfold ge
      rw [show r.gt (y.shl k) = .ok (gtMag r (y.shl k)) from rfl]
      cases gtMag r (y.shl k) <;> rfl
    rw [hg, res_bind_ok]
    simp only [res_bind_ok, ih]
    split <;> rfl

/-- C168, unsigned division: the only fault is a division by zero, and it is the model's -/
theorem C168_div_mod_unsigned (hn : 0 < n) (x y : Big n false) :
    divModUnsignedC x y = divModUnsigned x y := by
  have hp := limbs_pos' hn
  unfold divModUnsignedC divModUnsigned
  rw [C168_is_one hn, res_bind_ok]
  split
  · rw [ofU64C_ok hn]; rfl
  · rw [C168_eq _ _ (by simp), res_bind_ok]
    split
    · rw [ofU64C_ok hn, res_bind_ok, ofU64C_ok hn]; rfl
    · rw [C168_gt hn hn, show y.gt x = .ok (gtMag y x) from rfl, res_bind_ok]
      split
      · rw [ofU64C_ok hn]; rfl
      · rw [C168_fit hn, res_bind_ok, C168_fit hn,
          show (if x.fitIn64 = true then (.ok y.fitIn64 : Res Bool) else .ok false)
            = .ok (x.fitIn64 && y.fitIn64) by cases x.fitIn64 <;> rfl, res_bind_ok]
        split
        · rw [rd_ok _ hp, res_bind_ok, rd_ok _ hp, res_bind_ok]
          split
          · rfl
          · rw [ofU64C_ok hn, res_bind_ok, ofU64C_ok hn]; rfl
        · rw [C168_highest_bit, res_bind_ok, C168_highest_bit, res_bind_ok, divLoopC_ok hn]

/-- C168, division and remainder -/
theorem C168_div_mod (hn : 0 < n) (x : Big n false) (y : Big n t) : divModC x y = divMod x y := by
  unfold divModC divMod
  split
  · rfl
  · exact C168_div_mod_unsigned hn _ _

/-- C168, the conversion to `uint64_t` -/
theorem C168_to_uint64 (hn : 0 < n) (x : Big n s) : x.toUint64C = .ok x.toUint64 :=
  rd_ok _ (limbs_pos' hn)

/-- the test of `fit_in_64()`, lines 814-817: no limb but the first has a one among its lower 32 bits -/
def LowHalvesZero (x : Big n s) : Prop := ∀ i, 1 ≤ i → ∀ j, j < 32 → (x.limb i).getLsbD j = false

/-- C168, multiplication of more than 64 bits: an access out of bounds happens exactly when one operand
fails `fit_in_64()` and two non-zero limbs have a product that reaches past the array; in all other
cases there is a result -/
theorem C168_mul_iff (hn : 64 < n) (x : Big n s) (y : Big n t) :
    (x.mulC y = .error .oob ↔ ¬ (LowHalvesZero x ∧ LowHalvesZero y) ∧
      ∃ i j, i < limbs n ∧ j < limbs n ∧ x.limb i ≠ 0 ∧ y.limb j ≠ 0 ∧ limbs n ≤ i + j + 1) ∧
    (x.mulC y ≠ .error .oob → ∃ z, x.mulC y = .ok z) := by
  rw [C168_mul (by omega)]
  have hf : (x.fitIn64 = true ∧ y.fitIn64 = true) ↔ LowHalvesZero x ∧ LowHalvesZero y := by
    rw [fitIn64, reduceOr_drop, fitIn64, reduceOr_drop]; rfl
  by_cases h : x.fitIn64 = true ∧ y.fitIn64 = true
  · obtain ⟨z, hz, _⟩ := mul_fast hn x y h.1 h.2
    rw [hz]
    exact ⟨⟨fun e => by simp at e, fun e => absurd (hf.mp h) e.1⟩, fun _ => ⟨z, rfl⟩⟩
  · rw [mul_eq x y h]
    by_cases he : ∃ i j, i < limbs n ∧ j < limbs n ∧ x.limb i ≠ 0 ∧ y.limb j ≠ 0 ∧ limbs n ≤ i + j + 1
    · obtain ⟨i, j, hi, hj, hx, hy, hij⟩ := he
      rw [mulSlow_oob hn x y hi hj hx hy hij]
      exact ⟨⟨fun _ => ⟨fun e => h (hf.mpr e), i, j, hi, hj, hx, hy, hij⟩, fun _ => rfl⟩,
        fun e => absurd rfl e⟩
    · have hb : ∀ {u : Bool} (z : Big n u) i, z.limb i ≠ 0 → i < limbs n := by
        intro u z i hi
        by_contra hc
        exact hi (by rw [limb, List.getD_eq_default _ _ (by rw [z.len]; omega)])
      obtain ⟨z, hz, _⟩ := mulSlow_spec hn x y fun i j hx hy => by
        by_contra hc
        exact he ⟨i, j, hb x i hx, hb y j hy, hx, hy, by omega⟩
      rw [hz]
      exact ⟨⟨fun e => by simp at e, fun e => absurd e.2 he⟩, fun _ => ⟨z, rfl⟩⟩

/-- C168, multiplication of one limb: writing `values[1]` is always out of bounds (no vector is
stored this way; `big_num` can be used alone) -/
theorem C168_mul_one_limb (h0 : 0 < n) (hn : n ≤ 64) (x : Big n s) (y : Big n t) :
    x.mulC y = .error .oob := by
  have hl : limbs n = 1 := by unfold limbs; split <;> omega
  have fit : ∀ {u : Bool} (z : Big n u), z.fitIn64 = true := by
    intro u z
    rw [fitIn64, List.drop_eq_nil_of_le (by rw [z.len]; omega)]; rfl
  rw [C168_mul h0, mul, fit, fit, if_pos (by rfl)]
  simp only
  rw [if_pos (by omega)]

/-- **C168 is false as stated**: `2^64 * 1` in 128 bits is written past the end of the array. -/
theorem C168_refuted : ¬ ∀ (n : Nat) (x y : Big n false), 64 < n → ∃ z, x.mulC y = .ok z := by
  intro H
  obtain ⟨z, hz⟩ := H 128 (zero.setLimb 1 1) (ofU64 1) (by decide)
  rw [((C168_mul_iff (by decide) _ _).1).mpr
    ⟨fun h => absurd (h.1 1 (by decide) 0 (by decide)) (by decide),
      1, 0, by decide, by decide, by decide, by decide, by decide⟩] at hz
  simp at hz

-- a read past the end is a fault of the checked model, and the functions above do not perform one
example : (ofU64 5 : Big 100 false).rd 2 = .error .oob := by decide +kernel
example : (ofU64 5 : Big 100 false).getC 99 = .ok false ∧ (ofU64 5 : Big 100 false).getC 128 = .ok false := by
  decide +kernel
example : ((zero : Big 130 false).setLimb 2 1).highLimbC = .ok true := by decide +kernel
example : (ofU64 7 : Big 65 true).negateC = .ok (ofU64 7 : Big 65 true).negate := by decide +kernel
example : divModUnsignedC ((zero : Big 128 false).setLimb 1 1) (ofU64 3) =
    .ok ((ofU64 (BitVec.ofNat 64 (2 ^ 64 / 3))), ofU64 1) := by decide +kernel
example : (ofU64 7 : Big 128 false).mulC (ofU64 6 : Big 128 false) = .ok (ofU64 42) := by decide +kernel
example : ((zero : Big 192 false).setLimb 1 1).mulC ((zero : Big 192 false).setLimb 1 1) = .error .oob := by
  decide +kernel

end Big
end Verif
