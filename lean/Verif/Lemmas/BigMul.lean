import Verif.Lemmas.BigArith
import Mathlib.Data.Nat.ModEq

/-! Multiplication of limb arrays. -/

namespace Verif

/-- every step either succeeds or fails with `e`; then so does the loop -/
theorem loopM_ok_or {σ : Type} (a k : Nat) (st : σ) (f : Nat → σ → Res σ) (e : Fault)
    (hf : ∀ i s, (∃ s', f i s = .ok s') ∨ f i s = .error e) :
    (∃ s', loopM a (a + k) st f = .ok s') ∨ loopM a (a + k) st f = .error e := by
  induction k with
  | zero => left; exact ⟨st, loopM_zero _ _ _ _ (by omega)⟩
  | succ k ih =>
    rw [loopM_succ]
    rcases ih with ⟨s', h⟩ | h
    · rw [h]; exact hf (a + k) s'
    · rw [h]; right; rfl

/-- a loop whose steps can only fail with `e`, one of which always fails, fails with `e` -/
theorem loopM_error {σ : Type} (a b : Nat) (st : σ) (f : Nat → σ → Res σ) (e : Fault)
    (hf : ∀ i s, (∃ s', f i s = .ok s') ∨ f i s = .error e) {i : Nat} (ha : a ≤ i) (hb : i < b)
    (hi : ∀ s, f i s = .error e) : loopM a b st f = .error e := by
  obtain ⟨k, rfl⟩ : ∃ k, b = a + k := ⟨b - a, by omega⟩
  induction k with
  | zero => omega
  | succ k ih =>
    rw [loopM_succ]
    by_cases h : i = a + k
    · subst h
      rcases loopM_ok_or a k st f e hf with ⟨s', h⟩ | h
      · rw [h]; exact hi s'
      · rw [h]; rfl
    · rw [ih (by omega)]; rfl

namespace Big

variable {n m : Nat} {s t : Bool}

theorem val_setLimb_zero (k : Nat) (hk : k < limbs n) (v : BitVec 64) :
    val (setLimb (zero : Big n s) k v).vals = 2 ^ (64 * k) * v.toNat := by
  have : ∀ j, (setLimb (zero : Big n s) k v).pre j =
      if k < j then 2 ^ (64 * k) * v.toNat else 0 := by
    intro j
    induction j with
    | zero => simp [pre_zero]
    | succ j ih =>
      rw [pre_succ, ih, limb_setLimb, limb_zero]
      by_cases h : j = k
      · subst h; simp [hk]
      · rw [if_neg (show ¬ (k = j ∧ k < limbs n) by omega)]
        by_cases h2 : k < j
        · simp [h2, Nat.lt_succ_of_lt h2]
        · simp [h2, show ¬ k < j + 1 by omega]
  rw [← pre_limbs, this, if_pos hk]

theorem mulAcc_ok (k : Nat) (v : BitVec 64) (r : Big n s) (hk : k < limbs n) (hkn : k < n) :
    ∃ r', mulAcc k v r = .ok r' ∧
      val r'.vals ≡ val r.vals + 2 ^ (64 * k) * v.toNat [MOD 2 ^ (64 * limbs n)] := by
  refine ⟨(r.add (setLimb zero k v : Big n false)).toSign s, ?_, ?_⟩
  · rw [mulAcc, if_pos hkn, if_pos hk]
  · show val (r.add (setLimb zero k v : Big n false)).vals ≡ _ [MOD _]
    rw [add_spec, val_setLimb_zero k hk]
    exact Nat.mod_modEq _ _

theorem limbs_pred_lt {n : Nat} (h : 64 < n) {k : Nat} (hk : k < 2 * limbs n) : k < n := by
  have := limbs_lt n
  omega

/-- the two halves of a 64 x 64 bit product -/
theorem mul128 (a b : BitVec 64) :
    let c : BitVec 128 := a.setWidth 128 * b.setWidth 128
    (((c <<< 64) >>> 64).setWidth 64).toNat + 2 ^ 64 * ((c >>> 64).setWidth 64).toNat =
      a.toNat * b.toNat := by
  intro c
  have ha := a.isLt
  have hb := b.isLt
  have hlt : a.toNat * b.toNat < 2 ^ 128 := by
    have := Nat.mul_lt_mul'' ha hb
    calc _ < _ := this
      _ = 2 ^ 128 := by rw [← Nat.pow_add]
  have hc : c.toNat = a.toNat * b.toNat := by
    simp only [c, BitVec.toNat_mul, BitVec.toNat_setWidth]
    rw [Nat.mod_eq_of_lt (a := a.toNat) (by omega), Nat.mod_eq_of_lt (a := b.toNat) (by omega),
      Nat.mod_eq_of_lt hlt]
  have hclt := c.isLt
  generalize c = c at *
  simp only [BitVec.toNat_setWidth, BitVec.toNat_ushiftRight, BitVec.toNat_shiftLeft,
    Nat.shiftRight_eq_div_pow, Nat.shiftLeft_eq]
  omega

/-- the loops of `operator*`, lines 640-664 of `big_num.hh` -/
def mulSlow (x : Big n s) (y : Big n t) : Res (Big n (s && t)) :=
  loopM 0 (limbs n) zero fun i result =>
    if x.limb i = 0 then .ok result
    else
      loopM 0 (limbs n) result fun j result =>
        if y.limb j = 0 then .ok result
        else
          let c : BitVec 128 := (x.limb i).setWidth 128 * (y.limb j).setWidth 128
          let hi := (c >>> 64).setWidth 64
          let lo := ((c <<< 64) >>> 64).setWidth 64
          (mulAcc (i + j) lo result).bind (mulAcc (i + j + 1) hi)

theorem mulSlow_spec (hn : 64 < n) (x : Big n s) (y : Big n t)
    (hsmall : ∀ i j, x.limb i ≠ 0 → y.limb j ≠ 0 → i + j + 1 < limbs n) :
    ∃ z, mulSlow x y = .ok z ∧
      val z.vals = (val x.vals * val y.vals) % 2 ^ (64 * limbs n) := by
  have key := loopM_induct 0 (limbs n) (zero : Big n (s && t)) (fun i result =>
    if x.limb i = 0 then .ok result
    else
      loopM 0 (limbs n) result fun j result =>
        if y.limb j = 0 then .ok result
        else
          let c : BitVec 128 := (x.limb i).setWidth 128 * (y.limb j).setWidth 128
          let hi := (c >>> 64).setWidth 64
          let lo := ((c <<< 64) >>> 64).setWidth 64
          (mulAcc (i + j) lo result).bind (mulAcc (i + j + 1) hi))
    (fun k r => val r.vals ≡ x.pre k * val y.vals [MOD 2 ^ (64 * limbs n)])
    (Nat.zero_le _) (by simp only [pre_zero, val_zero, Nat.zero_mul]; rfl) ?_
  · obtain ⟨z, hz, h⟩ := key
    refine ⟨z, hz, ?_⟩
    rw [pre_limbs] at h
    have := val_lt' z
    rw [← Nat.mod_eq_of_lt this]
    exact h
  · intro i r _ hi hr
    by_cases hx : x.limb i = 0
    · refine ⟨r, by rw [if_pos hx], ?_⟩
      rw [pre_succ, hx]
      simpa using hr
    · rw [if_neg hx]
      have inner := loopM_induct 0 (limbs n) r (fun j result =>
        if y.limb j = 0 then .ok result
        else
          let c : BitVec 128 := (x.limb i).setWidth 128 * (y.limb j).setWidth 128
          let hi := (c >>> 64).setWidth 64
          let lo := ((c <<< 64) >>> 64).setWidth 64
          (mulAcc (i + j) lo result).bind (mulAcc (i + j + 1) hi))
        (fun k r' => val r'.vals ≡ val r.vals + 2 ^ (64 * i) * (x.limb i).toNat * y.pre k
          [MOD 2 ^ (64 * limbs n)])
        (Nat.zero_le _) (by simp only [pre_zero, Nat.mul_zero, Nat.add_zero]; rfl) ?_
      · obtain ⟨z, hz, h⟩ := inner
        refine ⟨z, hz, h.trans ?_⟩
        rw [pre_limbs, pre_succ, Nat.add_mul]
        exact Nat.ModEq.add_right _ hr
      · intro j r1 _ hj hr1
        by_cases hy : y.limb j = 0
        · refine ⟨r1, by rw [if_pos hy], ?_⟩
          rw [pre_succ, hy]
          simpa using hr1
        · rw [if_neg hy]
          have hlt := hsmall i j hx hy
          obtain ⟨r2, h2, hr2⟩ := mulAcc_ok (i + j)
            (((((x.limb i).setWidth 128 * (y.limb j).setWidth 128 : BitVec 128) <<< 64) >>> 64).setWidth 64)
            r1 (by omega) (limbs_pred_lt hn (by omega))
          obtain ⟨r3, h3, hr3⟩ := mulAcc_ok (i + j + 1)
            ((((x.limb i).setWidth 128 * (y.limb j).setWidth 128 : BitVec 128) >>> 64).setWidth 64)
            r2 (by omega) (limbs_pred_lt hn (by omega))
          refine ⟨r3, ?_, ?_⟩
          · simp only
            rw [h2]
            exact h3
          · refine hr3.trans ?_
            refine (Nat.ModEq.add_right _ (hr2.trans (Nat.ModEq.add_right _ hr1))).trans ?_
            have hm := mul128 (x.limb i) (y.limb j)
            simp only at hm
            rw [pre_succ]
            generalize (((((x.limb i).setWidth 128 * (y.limb j).setWidth 128 : BitVec 128) <<< 64) >>> 64).setWidth 64).toNat = lo at *
            generalize ((((x.limb i).setWidth 128 * (y.limb j).setWidth 128 : BitVec 128) >>> 64).setWidth 64).toNat = hi at *
            have e1 : 2 ^ (64 * (i + j)) = 2 ^ (64 * i) * 2 ^ (64 * j) := by
              rw [← Nat.pow_add]; congr 1; omega
            have e2 : 2 ^ (64 * (i + j + 1)) = 2 ^ (64 * i) * 2 ^ (64 * j) * 2 ^ 64 := by
              rw [← Nat.pow_add, ← Nat.pow_add]; congr 1; omega
            have e3 : val r.vals + 2 ^ (64 * i) * (x.limb i).toNat * y.pre j +
                2 ^ (64 * (i + j)) * lo + 2 ^ (64 * (i + j + 1)) * hi =
                val r.vals + 2 ^ (64 * i) * (x.limb i).toNat *
                  (y.pre j + 2 ^ (64 * j) * (y.limb j).toNat) := by
              rw [e1, e2]
              have : 2 ^ (64 * i) * (x.limb i).toNat * (y.pre j + 2 ^ (64 * j) * (y.limb j).toNat) =
                2 ^ (64 * i) * (x.limb i).toNat * y.pre j +
                  2 ^ (64 * i) * 2 ^ (64 * j) * ((x.limb i).toNat * (y.limb j).toNat) := by ring
              rw [this, ← hm]
              ring
            rw [e3]

/-- One pair of non-zero limbs whose high product word has no place in the result
makes the slow path write out of bounds. -/
theorem mulSlow_oob (hn : 64 < n) (x : Big n s) (y : Big n t) {i j : Nat} (hi : i < limbs n)
    (hj : j < limbs n) (hx : x.limb i ≠ 0) (hy : y.limb j ≠ 0) (hij : limbs n ≤ i + j + 1) :
    mulSlow x y = .error .oob := by
  have acc : ∀ k v (r : Big n (s && t)), k < 2 * limbs n →
      (∃ r', mulAcc k v r = .ok r') ∨ mulAcc k v r = .error .oob := by
    intro k v r hk
    rw [mulAcc, if_pos (limbs_pred_lt hn hk)]
    by_cases h : k < limbs n
    · left; exact ⟨_, by rw [if_pos h]⟩
    · right; rw [if_neg h]
  have acc' : ∀ k v (r : Big n (s && t)),
      (∃ r', mulAcc k v r = .ok r') ∨ mulAcc k v r = .error .oob := by
    intro k v r
    by_cases hkn : k < n
    · by_cases h : k < limbs n
      · left; exact ⟨_, by rw [mulAcc, if_pos hkn, if_pos h]⟩
      · right; rw [mulAcc, if_pos hkn, if_neg h]
    · left; exact ⟨r, by rw [mulAcc, if_neg hkn]⟩
  have step : ∀ i j (r : Big n (s && t)) (lo hi : BitVec 64),
      (∃ r', (mulAcc (i + j) lo r).bind (mulAcc (i + j + 1) hi) = .ok r') ∨
      (mulAcc (i + j) lo r).bind (mulAcc (i + j + 1) hi) = .error .oob := by
    intro i j r lo hi
    rcases acc' (i + j) lo r with ⟨r', h⟩ | h
    · rw [h]; exact acc' (i + j + 1) hi r'
    · rw [h]; right; rfl
  have inner : ∀ i (r : Big n (s && t)) j,
      (∃ r', (fun j (result : Big n (s && t)) =>
        if y.limb j = 0 then Except.ok result
        else
          let c : BitVec 128 := (x.limb i).setWidth 128 * (y.limb j).setWidth 128
          let hi := (c >>> 64).setWidth 64
          let lo := ((c <<< 64) >>> 64).setWidth 64
          (mulAcc (i + j) lo result).bind (mulAcc (i + j + 1) hi) : Nat → Big n (s && t) → Res (Big n (s && t))) j r = .ok r') ∨
      (fun j (result : Big n (s && t)) =>
        if y.limb j = 0 then Except.ok result
        else
          let c : BitVec 128 := (x.limb i).setWidth 128 * (y.limb j).setWidth 128
          let hi := (c >>> 64).setWidth 64
          let lo := ((c <<< 64) >>> 64).setWidth 64
          (mulAcc (i + j) lo result).bind (mulAcc (i + j + 1) hi) : Nat → Big n (s && t) → Res (Big n (s && t))) j r = .error .oob := by
    intro i r j
    by_cases h : y.limb j = 0
    · left; exact ⟨r, by simp only; rw [if_pos h]⟩
    · simp only; rw [if_neg h]; exact step i j r _ _
  rw [mulSlow]
  apply loopM_error 0 (limbs n) _ _ .oob ?_ (Nat.zero_le i) hi ?_
  · intro i r
    by_cases h : x.limb i = 0
    · left; exact ⟨r, by rw [if_pos h]⟩
    · rw [if_neg h]
      have := loopM_ok_or 0 (limbs n) r _ .oob (fun j r => inner i r j)
      rw [Nat.zero_add] at this
      exact this
  · intro r
    rw [if_neg hx]
    apply loopM_error 0 (limbs n) _ _ .oob (fun j r => inner i r j) (Nat.zero_le j) hj
    intro r
    simp only
    rw [if_neg hy]
    rcases acc' (i + j) (((((x.limb i).setWidth 128 * (y.limb j).setWidth 128 : BitVec 128) <<< 64) >>> 64).setWidth 64) r with ⟨r', h⟩ | h
    · rw [h]
      show mulAcc (i + j + 1) _ r' = _
      rw [mulAcc, if_pos (limbs_pred_lt hn (by omega)), if_neg (by omega)]
    · rw [h]; rfl

theorem mul_eq (x : Big n s) (y : Big n t) (h : ¬ (x.fitIn64 = true ∧ y.fitIn64 = true)) :
    x.mul y = mulSlow x y := by
  rw [mul, if_neg (by simpa using h)]
  rfl

theorem mul_fast (hn : 64 < n) (x : Big n s) (y : Big n t) (hx : x.fitIn64 = true)
    (hy : y.fitIn64 = true) :
    ∃ z, x.mul y = .ok z ∧ val z.vals = (x.limb 0).toNat * (y.limb 0).toNat := by
  have h2 := limbs_ge_two (n := n) (by omega)
  rw [mul, hx, hy]
  simp only [Bool.and_self, if_true]
  rw [if_neg (by omega)]
  refine ⟨_, rfl, ?_⟩
  rw [← mul128, ← pre_limbs]
  have : ∀ (a b : BitVec 64) k, (((zero : Big n (s && t)).setLimb 0 a).setLimb 1 b).pre (k + 2) =
      a.toNat + 2 ^ 64 * b.toNat := by
    intro a b k
    induction k with
    | zero =>
      rw [pre_succ, pre_succ, pre_zero, limb_setLimb, limb_setLimb, limb_setLimb]
      simp [show 0 < limbs n by omega, show 1 < limbs n by omega]
    | succ k ih =>
      rw [pre_succ, ih, limb_setLimb, limb_setLimb, limb_zero]
      simp
  obtain ⟨k, hk⟩ : ∃ k, limbs n = k + 2 := ⟨limbs n - 2, by omega⟩
  rw [hk, this]

end Big
end Verif
