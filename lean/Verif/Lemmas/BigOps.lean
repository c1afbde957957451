import Verif.Lemmas.Big

/-! Bit-wise description of the limb-array operations. -/

namespace Verif
namespace Big

variable {n m : Nat} {s t : Bool}

theorem raw_eq (x : Big n s) (i : Nat) : x.raw i = (x.limb (i / 64)).getLsbD (i % 64) := rfl

theorem getLsbD_allOnes_shr (k j : Nat) :
    (BitVec.allOnes 64 >>> k).getLsbD j = decide (j + k < 64) := by
  rw [BitVec.getLsbD_ushiftRight, BitVec.getLsbD_allOnes, Nat.add_comm]

theorem raw_maskOff (hn : 0 < n) (x : Big n s) (i : Nat) :
    x.maskOff.raw i = (decide (i < n) && x.raw i) := by
  have h1 := le_limbs n
  have h2 := limbs_lt n
  by_cases hl : i < limbs n * 64
  · rw [raw_eq, raw_eq, maskOff, limb_setLimb]
    by_cases hi : limbs n - 1 = i / 64
    · rw [if_pos ⟨hi, by omega⟩, BitVec.getLsbD_and, getLsbD_allOnes_shr, ← hi, Bool.and_comm]
      congr 1
      rw [decide_eq_decide]
      omega
    · rw [if_neg (by tauto)]
      have : i < n := by omega
      simp [this]
  · rw [raw_of_ge _ (by omega), raw_of_ge _ (by omega)]
    simp

theorem clean_maskOff (hn : 0 < n) (x : Big n s) : x.maskOff.Clean := by
  rw [clean_iff]
  intro i hi
  rw [raw_maskOff hn]
  simp; omega

theorem get_maskOff (hn : 0 < n) (x : Big n s) (i : Nat) : x.maskOff.get i = x.get i := by
  rw [get_eq, get_eq, raw_maskOff hn]
  cases decide (i < n) <;> simp

theorem limb_not (x : Big n s) (j : Nat) (hj : j < limbs n) : x.not.limb j = ~~~ x.limb j := by
  have hs : ∀ (r : Big n s), (loop n (limbs n * 64) r fun i r => r.set i false) = r := by
    intro r
    refine loop_induct n (limbs n * 64) r _ (fun _ q => q = r) (le_limbs n) rfl ?_
    intro i q hi _ hq
    rw [hq, set, if_neg (by omega)]
  rw [not, hs, limb_loop_setLimb _ _ _ _ (le_refl _), if_pos hj]

theorem raw_not (x : Big n s) (i : Nat) (hi : i < limbs n * 64) : x.not.raw i = !x.raw i := by
  rw [raw_eq, limb_not x _ (by omega), BitVec.getLsbD_not]
  have : i % 64 < 64 := by omega
  simp [this, raw_eq]

theorem get_not (x : Big n s) (i : Nat) (hi : i < n) : x.not.get i = !x.get i := by
  rw [get_eq, get_eq, raw_not _ _ (by have := le_limbs n; omega)]
  simp [hi]

theorem limb_xor (x : Big n s) (y : Big n t) (j : Nat) :
    (x.xor y).limb j = x.limb j ^^^ y.limb j := by
  rw [xor, limb_loop_setLimb _ _ _ _ (le_refl _)]
  split_ifs with h
  · rfl
  · rw [limb_of_ge x (by omega), limb_of_ge y (by omega)]; simp

theorem limb_or (x : Big n s) (y : Big n t) (j : Nat) :
    (x.or y).limb j = x.limb j ||| y.limb j := by
  rw [or, limb_loop_setLimb _ _ _ _ (le_refl _)]
  split_ifs with h
  · rfl
  · rw [limb_of_ge x (by omega), limb_of_ge y (by omega)]; simp

theorem raw_xor (x : Big n s) (y : Big n t) (i : Nat) :
    (x.xor y).raw i = (x.raw i ^^ y.raw i) := by
  rw [raw_eq, limb_xor, BitVec.getLsbD_xor]; rfl

theorem raw_or (x : Big n s) (y : Big n t) (i : Nat) :
    (x.or y).raw i = (x.raw i || y.raw i) := by
  rw [raw_eq, limb_or, BitVec.getLsbD_or]; rfl

theorem raw_and (hn : 0 < n) (x : Big n s) (y : Big n t) (i : Nat) :
    (x.and y).raw i = (decide (i < n) && (x.raw i && y.raw i)) := by
  rw [and, raw_maskOff hn]
  congr 1
  rw [raw_eq, limb_loop_setLimb _ _ _ _ (le_refl _)]
  split_ifs with h
  · rw [BitVec.getLsbD_and]; rfl
  · rw [raw_of_ge x (by omega)]; simp

theorem get_xor (x : Big n s) (y : Big n t) (i : Nat) :
    (x.xor y).get i = (x.get i ^^ y.get i) := by
  rw [get_eq, get_eq, get_eq, raw_xor]; cases decide (i < n) <;> simp

theorem get_or (x : Big n s) (y : Big n t) (i : Nat) :
    (x.or y).get i = (x.get i || y.get i) := by
  rw [get_eq, get_eq, get_eq, raw_or]; cases decide (i < n) <;> simp

theorem get_and (hn : 0 < n) (x : Big n s) (y : Big n t) (i : Nat) :
    (x.and y).get i = (x.get i && y.get i) := by
  rw [get_eq, get_eq, get_eq, raw_and hn]; cases decide (i < n) <;> simp

theorem clean_and (hn : 0 < n) (x : Big n s) (y : Big n t) : (x.and y).Clean := by
  rw [clean_iff]; intro i hi; rw [raw_and hn]; simp; omega

theorem Clean.xor {x : Big n s} {y : Big n t} (hx : x.Clean) (hy : y.Clean) :
    (x.xor y).Clean := by
  rw [clean_iff] at *; intro i hi; rw [raw_xor, hx i hi, hy i hi]; rfl

theorem Clean.or {x : Big n s} {y : Big n t} (hx : x.Clean) (hy : y.Clean) :
    (x.or y).Clean := by
  rw [clean_iff] at *; intro i hi; rw [raw_or, hx i hi, hy i hi]; rfl

/-! ### shifts -/

theorem clean_shr (x : Big n s) (k : Nat) : (x.shr k).Clean := by
  rw [shr]; split
  · exact clean_zero
  · exact clean_loop_set clean_zero _ _ _ _

theorem get_shr (x : Big n s) (k i : Nat) : (x.shr k).get i = x.get (i + k) := by
  rw [(clean_shr x k).get, shr]
  split_ifs with h
  · rw [get_eq]; simp; omega
  · have := raw_loop_set (zero : Big n s) k n (fun i => i - k) (fun i => x.get i) i
      (by intros; omega)
    by_cases hi : i + k < n
    · rw [this.1 (i + k) (by omega) hi (by omega) (by omega)]
    · rw [this.2 (by intros; omega), get_eq]; simp; omega

theorem clean_shl (x : Big n s) (k : Nat) : (x.shl k).Clean := by
  rw [shl]; split
  · exact clean_zero
  · exact clean_loop_set clean_zero _ _ _ _

theorem get_shl (x : Big n s) (k i : Nat) :
    (x.shl k).get i = (decide (k ≤ i) && decide (i < n) && x.get (i - k)) := by
  rw [(clean_shl x k).get, shl]
  split_ifs with h
  · simp; omega
  · have := raw_loop_set (zero : Big n s) 0 (n - k) (fun i => i + k) (fun i => x.get i) i
      (by intros; omega)
    by_cases hi : k ≤ i ∧ i < n
    · rw [this.1 (i - k) (by omega) (by omega) (by omega) (by omega)]
      simp [hi]
    · rw [this.2 (by intros; omega)]
      by_cases h1 : k ≤ i
      · have : ¬ i < n := by tauto
        simp [this]
      · simp [h1]

theorem bv_shr (x : Big n s) (k : Nat) : (x.shr k).bv = x.bv >>> k := by
  apply BitVec.eq_of_getLsbD_eq
  intro i hi
  rw [getLsbD_bv, get_shr, BitVec.getLsbD_ushiftRight, getLsbD_bv, Nat.add_comm]

theorem bv_shl (x : Big n s) (k : Nat) : (x.shl k).bv = x.bv <<< k := by
  apply BitVec.eq_of_getLsbD_eq
  intro i hi
  rw [getLsbD_bv, get_shl, BitVec.getLsbD_shiftLeft, getLsbD_bv]
  by_cases h : k ≤ i
  · simp [h, hi]
  · simp [h]

/-! ### mask -/

theorem limb_mask (x : Big n s) (hn : 0 < n) (j : Nat) :
    x.mask.limb j = if j < limbs n - 1 then BitVec.allOnes 64
      else if j = limbs n - 1 then BitVec.allOnes 64 >>> (limbs n * 64 - n) else 0 := by
  have h1 := le_limbs n
  rw [mask, limb_setLimb]
  by_cases h : limbs n - 1 = j
  · rw [if_pos ⟨h, by omega⟩, if_neg (by omega), if_pos h.symm]
  · rw [if_neg (by tauto), limb_loop_setLimb _ _ _ _ (by omega)]
    split_ifs
    · rfl
    · omega
    · exact limb_of_ge _ (by omega)

theorem raw_mask (x : Big n s) (hn : 0 < n) (i : Nat) : x.mask.raw i = decide (i < n) := by
  have h1 := le_limbs n
  have h2 := limbs_lt n
  rw [raw_eq, limb_mask x hn]
  split_ifs with h h'
  · have h3 : i < n := by omega
    have h4 : i % 64 < 64 := by omega
    rw [BitVec.getLsbD_allOnes]; simp [h3, h4]
  · rw [getLsbD_allOnes_shr, decide_eq_decide]; omega
  · simp; omega

theorem clean_mask (x : Big n s) (hn : 0 < n) : x.mask.Clean := by
  rw [clean_iff]; intro i hi; rw [raw_mask x hn]; simp; omega

theorem bv_mask (x : Big n s) (hn : 0 < n) : x.mask.bv = BitVec.allOnes n := by
  apply BitVec.eq_of_getLsbD_eq
  intro i hi
  rw [getLsbD_bv, get_eq, raw_mask x hn]; simp [hi]

/-! ### arithmetic right shift -/

theorem clean_ashr (x : Big n s) (hn : 0 < n) (k : Nat) : (x.ashr k).Clean := by
  rw [ashr]
  split_ifs
  · exact clean_mask _ hn
  · exact clean_zero
  · exact clean_loop_set (clean_loop_set clean_zero _ _ _ _) _ _ _ _
  · exact clean_shr _ _

/-- what the signed shift computes: bit `n-1-k` is never written -/
theorem get_ashr_signed (x : Big n true) (k i : Nat) (hn : 0 < n) :
    (x.ashr k).get i = (decide (i < n) &&
      if k > n - 1 then x.get (n - 1)
      else if i + k + 1 < n then x.get (i + k)
      else if i + k + 1 = n then false else x.get (n - 1)) := by
  rw [(clean_ashr x hn k).get]
  simp only [ashr, if_true]
  by_cases hk : k > n - 1
  · rw [if_pos hk, if_pos hk]
    rw [negative]
    by_cases hx : x.get (n - 1)
    · rw [if_pos hx, raw_mask _ hn, hx]; simp
    · simp only [hx]; simp
  · rw [if_neg hk, if_neg hk]
    by_cases hin : i < n
    · simp only [hin, decide_true, Bool.true_and]
      have h2 := raw_loop_set (loop 0 k (zero : Big n true) fun i res => res.set (n - i - 1) x.negative)
        k (n - 1) (fun i => i - k) (fun i => x.get i) i (by intros; omega)
      have h1 := raw_loop_set (zero : Big n true) 0 k (fun i => n - i - 1) (fun _ => x.negative) i
        (by intros; omega)
      by_cases hi : i + k + 1 < n
      · rw [if_pos hi, h2.1 (i + k) (by omega) (by omega) (by omega) hin]
      · rw [if_neg hi, h2.2 (by intros; omega)]
        by_cases he : i + k + 1 = n
        · rw [if_pos he, h1.2 (by intros; omega)]; simp
        · rw [if_neg he, h1.1 (n - 1 - i) (by omega) (by omega) (by omega) hin]; rfl
    · simp only [hin, decide_false, Bool.false_and]
      have := clean_loop_set (clean_loop_set (clean_zero : (zero : Big n true).Clean) 0 k
        (fun i => n - i - 1) (fun _ => x.negative)) k (n - 1) (fun i => i - k) (fun i => x.get i)
      exact (clean_iff _).1 this i (by omega)

/-! ### extension, concatenation, slices -/

theorem raw_loop_copy (st : Big m t) (x : Big n s) (h : limbs n ≤ limbs m) (i : Nat) :
    (loop 0 (limbs n) st fun i r => r.setLimb i (x.limb i)).raw i =
      if i < limbs n * 64 then x.raw i else st.raw i := by
  rw [raw_eq, limb_loop_setLimb _ _ _ _ h]
  split_ifs
  · rfl
  · omega
  · omega
  · rfl

theorem raw_extend_unsigned (x : Big n false) (h : n ≤ m) (i : Nat) :
    (x.extend m).raw i = x.raw i := by
  rw [extend]
  simp only [Bool.false_eq_true, if_false]
  rw [raw_loop_copy _ _ (limbs_mono h)]
  split_ifs with h1
  · rfl
  · rw [raw_of_ge x (by omega)]; simp

theorem raw_extend_signed (x : Big n true) (h : n ≤ m) (i : Nat) :
    (x.extend m).raw i = if n ≤ i ∧ i < m then true else x.raw i := by
  have hr : ∀ i, (loop 0 (limbs n) (zero : Big m true) fun i r => r.setLimb i (x.limb i)).raw i
      = x.raw i := by
    intro i
    rw [raw_loop_copy _ _ (limbs_mono h)]
    split_ifs with h1
    · rfl
    · rw [raw_of_ge x (by omega)]; simp
  rw [extend]
  simp only [if_true]
  have h2 := raw_loop_set (loop 0 (limbs n) (zero : Big m true) fun i r => r.setLimb i (x.limb i))
    n m (fun i => i) (fun _ => true) i (by intros; omega)
  split_ifs with h1
  · exact h2.1 i h1.1 h1.2 rfl h1.2
  · rw [h2.2 (by intros; omega), hr]

theorem Clean.extend_unsigned {x : Big n false} (hx : x.Clean) (h : n ≤ m) :
    (x.extend m).Clean := by
  rw [clean_iff] at *
  intro i hi
  rw [raw_extend_unsigned x h, hx i (by omega)]

theorem get_extend_unsigned {x : Big n false} (hx : x.Clean) (h : n ≤ m) (i : Nat) :
    (x.extend m).get i = x.get i := by
  rw [(hx.extend_unsigned h).get, raw_extend_unsigned x h, hx.get]

theorem sliceFixed_get (x : Big n s) (a b : Nat) (i : Nat) :
    (x.sliceFixed a b).get i = (decide (i ≤ max a b - min a b) && x.get (min a b + i)) := by
  have hc : (x.sliceFixed a b).Clean := by
    rw [sliceFixed]; exact clean_loop_set clean_zero _ _ _ _
  rw [hc.get, sliceFixed]
  have h2 := raw_loop_set (zero : Big (max a b - min a b + 1) false) (min a b) (max a b + 1)
    (fun i => i - min a b) (fun i => x.get i) i (by intros; omega)
  by_cases hi : i ≤ max a b - min a b
  · rw [h2.1 (min a b + i) (by omega) (by omega) (by omega) (by omega)]; simp [hi]
  · rw [h2.2 (by intros; omega)]; simp [hi]

theorem sliceFixed_clean (x : Big n s) (a b : Nat) : (x.sliceFixed a b).Clean := by
  rw [sliceFixed]; exact clean_loop_set clean_zero _ _ _ _

theorem sliceRt_get (x : Big n s) (k a b : Nat) (hab : max a b + 1 < 2 ^ 64) :
    ∃ z, x.sliceRt k a b = .ok z ∧ z.Clean ∧ ∀ i,
      z.get i = (decide (i < k) && decide (i ≤ max a b - min a b) && x.get (min a b + i)) := by
  have hc : (loop (min a b) (max a b + 1) (zero : Big k false)
      fun i res => res.set (i - min a b) (x.get i)).Clean := clean_loop_set clean_zero _ _ _ _
  refine ⟨_, by rw [sliceRt, if_neg (by omega)], hc, ?_⟩
  intro i
  rw [hc.get]
  have h2 := raw_loop_set (zero : Big k false) (min a b) (max a b + 1)
    (fun i => i - min a b) (fun i => x.get i) i (by intros; omega)
  by_cases hi : i ≤ max a b - min a b
  · by_cases hk : i < k
    · rw [h2.1 (min a b + i) (by omega) (by omega) (by omega) hk]; simp [hi, hk]
    · rw [h2.2 (by intros; omega)]; simp [hk]
  · rw [h2.2 (by intros; omega)]; simp [hi]

theorem concat_get (x : Big n s) (y : Big m t) (hy : y.Clean) (i : Nat) :
    (x.concat y).get i = if i < m then y.get i else x.get (i - m) := by
  have hc1 : (loop 0 (limbs m) (zero : Big (n + m) false) fun i r => r.setLimb i (y.limb i)).Clean := by
    rw [clean_iff]
    intro j hj
    rw [raw_loop_copy _ _ (limbs_mono (by omega))]
    split_ifs
    · exact (clean_iff y).1 hy j (by omega)
    · simp
  have hc : (x.concat y).Clean := clean_loop_set hc1 _ _ _ _
  rw [hc.get, concat]
  have h2 := raw_loop_set (loop 0 (limbs m) (zero : Big (n + m) false)
      fun i r => r.setLimb i (y.limb i)) m (n + m)
    (fun i => i) (fun i => x.get (i - m)) i (by intros; omega)
  by_cases hi : i < m
  · rw [if_pos hi, h2.2 (by intros; omega), raw_loop_copy _ _ (limbs_mono (by omega)), if_pos, hy.get]
    have := le_limbs m; omega
  · rw [if_neg hi]
    by_cases hi2 : i < n + m
    · rw [h2.1 i (by omega) hi2 rfl hi2]
    · rw [h2.2 (by intros; omega), (clean_iff _).1 hc1 i (by omega), get_eq]
      simp; omega

end Big
end Verif
