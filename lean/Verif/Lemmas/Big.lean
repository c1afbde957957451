import Verif.Lemmas.CInt
import Verif.Abs

/-! Limb arrays: numbers, single bits, element-wise loops. -/

namespace Verif

/-! ### numbers of limb lists -/

theorem val_lt (l : List (BitVec 64)) : val l < 2 ^ (64 * l.length) := by
  induction l with
  | nil => simp [val]
  | cons v vs ih =>
    have hv := v.isLt
    simp only [val, List.length_cons]
    have : 2 ^ (64 * (vs.length + 1)) = 2 ^ 64 * 2 ^ (64 * vs.length) := by
      rw [← Nat.pow_add]; congr 1; omega
    rw [this]
    have h1 : 2 ^ 64 * (val vs + 1) ≤ 2 ^ 64 * 2 ^ (64 * vs.length) := Nat.mul_le_mul_left _ ih
    omega

theorem val_append (a b : List (BitVec 64)) :
    val (a ++ b) = val a + 2 ^ (64 * a.length) * val b := by
  induction a with
  | nil => simp [val]
  | cons v vs ih =>
    simp only [List.cons_append, val, ih, List.length_cons]
    have : 2 ^ (64 * (vs.length + 1)) = 2 ^ 64 * 2 ^ (64 * vs.length) := by
      rw [← Nat.pow_add]; congr 1; omega
    rw [this]
    ring

theorem testBit_val (l : List (BitVec 64)) (i : Nat) :
    (val l).testBit i = (l.getD (i / 64) 0).getLsbD (i % 64) := by
  induction l generalizing i with
  | nil => simp [val]
  | cons v vs ih =>
    have hv : v.toNat < 2 ^ 64 := v.isLt
    simp only [val]
    rw [Nat.add_comm, Nat.testBit_two_pow_mul_add _ hv]
    by_cases h : i < 64
    · rw [if_pos h]
      have h1 : i / 64 = 0 := by omega
      have h2 : i % 64 = i := by omega
      simp [h1, h2, BitVec.getLsbD]
    · rw [if_neg h, ih]
      have h1 : i / 64 = (i - 64) / 64 + 1 := by omega
      have h2 : (i - 64) % 64 = i % 64 := by omega
      rw [h1, h2]
      simp

theorem val_replicate_zero (k : Nat) : val (List.replicate k 0) = 0 := by
  induction k with
  | zero => simp [val]
  | succ k ih => rw [List.replicate_succ, val, ih]; rfl

theorem val_inj {a b : List (BitVec 64)} (hl : a.length = b.length) (h : val a = val b) :
    a = b := by
  induction a generalizing b with
  | nil => cases b with
    | nil => rfl
    | cons _ _ => simp at hl
  | cons v vs ih => cases b with
    | nil => simp at hl
    | cons w ws =>
      simp only [val] at h
      have hv : v.toNat < 2 ^ 64 := v.isLt
      have hw : w.toNat < 2 ^ 64 := w.isLt
      have h1 : v.toNat = w.toNat := by omega
      have h2 : val vs = val ws := by omega
      rw [BitVec.eq_of_toNat_eq h1, ih (by simpa using hl) h2]

/-! ### widths -/

theorem le_limbs (n : Nat) : n ≤ limbs n * 64 := by
  unfold limbs; split <;> omega

theorem limbs_lt (n : Nat) : limbs n * 64 < n + 64 := by
  unfold limbs; split <;> omega

theorem limbs_ge_two {n : Nat} (h : ¬ n ≤ 64) : 2 ≤ limbs n := by
  unfold limbs; split <;> omega

theorem div_lt_limbs {i n : Nat} (h : i < n) : i / 64 < limbs n := by
  have := le_limbs n; omega

theorem limbs_mono {n m : Nat} (h : n ≤ m) : limbs n ≤ limbs m := by
  unfold limbs; split <;> split <;> omega

namespace Big

variable {n m : Nat} {s t : Bool}

@[ext] theorem ext' {x y : Big n s} (h : x.vals = y.vals) : x = y := by
  cases x; cases y; cases h; rfl

theorem val_lt' (x : Big n s) : val x.vals < 2 ^ (64 * limbs n) := by
  have := val_lt x.vals; rwa [x.len] at this

/-- the stored bit at any position, also above the declared width -/
def raw (x : Big n s) (i : Nat) : Bool := (x.limb (i / 64)).getLsbD (i % 64)

theorem testBit_val' (x : Big n s) (i : Nat) : (val x.vals).testBit i = x.raw i :=
  testBit_val _ _

theorem limb_of_ge (x : Big n s) {i : Nat} (h : limbs n ≤ i) : x.limb i = 0 := by
  simp [limb, List.getD, x.len, h]

theorem raw_of_ge (x : Big n s) {i : Nat} (h : limbs n * 64 ≤ i) : x.raw i = false := by
  rw [raw, limb_of_ge x (by omega)]; simp

theorem ext_limb {x y : Big n s} (h : ∀ i, i < limbs n → x.limb i = y.limb i) : x = y := by
  apply ext'
  apply List.ext_getElem (by rw [x.len, y.len])
  intro i h1 h2
  have := h i (by rw [← x.len]; exact h1)
  simpa [limb, List.getD, h1, h2] using this

theorem ext_raw {x y : Big n s} (h : ∀ i, i < limbs n * 64 → x.raw i = y.raw i) : x = y := by
  apply ext_limb
  intro i hi
  apply BitVec.eq_of_getLsbD_eq
  intro j hj
  have := h (i * 64 + j) (by omega)
  have h1 : (i * 64 + j) / 64 = i := by omega
  have h2 : (i * 64 + j) % 64 = j := by omega
  simpa [raw, h1, h2] using this

@[simp] theorem limb_setLimb (x : Big n s) (i j : Nat) (v : BitVec 64) :
    (x.setLimb i v).limb j = if i = j ∧ i < limbs n then v else x.limb j := by
  by_cases h : i < limbs n
  · simp only [limb, setLimb, List.getD_eq_getElem?_getD, List.getElem?_set, x.len, h, and_true]
    split_ifs <;> rfl
  · simp only [h, and_false, if_false, limb, setLimb]
    rw [List.set_eq_of_length_le (by rw [x.len]; omega)]

@[simp] theorem limb_zero (i : Nat) : (zero : Big n s).limb i = 0 := by
  simp only [limb, zero, List.getD_eq_getElem?_getD, List.getElem?_replicate]
  split_ifs <;> simp

@[simp] theorem raw_zero (i : Nat) : (zero : Big n s).raw i = false := by simp [raw]

theorem val_zero : val (zero : Big n s).vals = 0 := val_replicate_zero _

@[simp] theorem limb_toSign (x : Big n s) (i : Nat) : (x.toSign t).limb i = x.limb i := rfl
@[simp] theorem raw_toSign (x : Big n s) (i : Nat) : (x.toSign t).raw i = x.raw i := rfl
@[simp] theorem vals_toSign (x : Big n s) : (x.toSign t).vals = x.vals := rfl
@[simp] theorem get_toSign (x : Big n s) (i : Nat) : (x.toSign t).get i = x.get i := rfl

theorem get_eq (x : Big n s) (i : Nat) : x.get i = (decide (i < n) && x.raw i) := by
  by_cases h : i < n
  · simp only [get, h, if_true, raw, decide_true, Bool.true_and]
    have hk : i % 64 < 64 := by omega
    rw [Bool.eq_iff_iff]
    simp only [bne_iff_ne, ne_eq]
    constructor
    · intro hne
      by_contra hb
      apply hne
      apply BitVec.eq_of_getLsbD_eq
      intro j hj
      simp only [BitVec.getLsbD_and, BitVec.getLsbD_ushiftRight, BitVec.getLsbD_one]
      by_cases hj0 : j = 0
      · subst hj0
        simp only [Nat.add_zero]
        rw [Bool.not_eq_true] at hb
        rw [hb]; simp
      · simp [hj0]
    · intro hb heq
      have := congrArg (fun v => BitVec.getLsbD v 0) heq
      simp [hb] at this
  · simp [get, h]

theorem getLsbD_one_shl (k j : Nat) (hk : k < 64) :
    (1#64 <<< k).getLsbD j = decide (j = k) := by
  simp only [BitVec.getLsbD_shiftLeft, BitVec.getLsbD_one]
  by_cases h : j = k
  · subst h; simp [hk]
  · simp only [h, decide_false]
    by_cases h2 : j < k
    · simp [h2]
    · have : ¬ (j - k = 0) := by omega
      simp [this]

theorem raw_set (x : Big n s) (i j : Nat) (v : Bool) :
    (x.set i v).raw j = if j = i ∧ i < n then v else x.raw j := by
  by_cases hi : i < n
  · have hl := div_lt_limbs hi
    have hk : i % 64 < 64 := by omega
    simp only [set, hi, if_true, and_true]
    by_cases hj : j = i
    · subst hj
      simp only [if_true]
      cases v
      · simp [raw, hl, hk]
      · simp [raw, hl, getLsbD_one_shl _ _ hk]
    · simp only [hj, if_false]
      by_cases hd : i / 64 = j / 64
      · have hm : ¬ (j % 64 = i % 64) := by omega
        have hj64 : j % 64 < 64 := by omega
        have hjl : j / 64 < limbs n := hd ▸ hl
        cases v
        · simp only [raw, Bool.false_eq_true, if_false, limb_setLimb, hd, hjl, and_self, if_true,
            BitVec.getLsbD_and, BitVec.getLsbD_not, getLsbD_one_shl _ _ hk, hm, hj64]
          simp
        · simp [raw, hd, hjl, getLsbD_one_shl _ _ hk, hm]
      · cases v <;> simp [raw, hd]
  · simp [set, hi]

theorem get_set (x : Big n s) (i j : Nat) (v : Bool) :
    (x.set i v).get j = if j = i ∧ i < n then v else x.get j := by
  rw [get_eq, get_eq, raw_set]
  by_cases h : j = i
  · subst h
    by_cases h2 : j < n <;> simp [h2]
  · simp [h]

/-! ### clean values -/

/-- nothing is stored above the declared width -/
def Clean (x : Big n s) : Prop := val x.vals < 2 ^ n

theorem clean_iff (x : Big n s) : x.Clean ↔ ∀ i, n ≤ i → x.raw i = false := by
  constructor
  · intro h i hi
    rw [← testBit_val']
    apply Nat.testBit_lt_two_pow
    exact lt_of_lt_of_le h (Nat.pow_le_pow_right (by omega) hi)
  · intro h
    apply Nat.lt_pow_two_of_testBit
    intro i hi
    rw [testBit_val']; exact h i hi

theorem Clean.get (x : Big n s) (h : x.Clean) (i : Nat) : x.get i = x.raw i := by
  rw [get_eq]
  by_cases hi : i < n
  · simp [hi]
  · simp [hi, (clean_iff x).1 h i (by omega)]

theorem clean_zero : (zero : Big n s).Clean := by
  rw [clean_iff]; intro i _; simp

theorem Clean.set {x : Big n s} (h : x.Clean) (i : Nat) (v : Bool) : (x.set i v).Clean := by
  rw [clean_iff] at *
  intro j hj
  rw [raw_set]
  rw [if_neg (by omega)]
  exact h j hj

/-- the declared bits as a bit vector -/
def bv (x : Big n s) : BitVec n := BitVec.ofNat n (val x.vals)

theorem getLsbD_bv (x : Big n s) (i : Nat) : x.bv.getLsbD i = x.get i := by
  rw [bv, BitVec.getLsbD_ofNat, testBit_val', get_eq]

theorem toNat_bv (x : Big n s) : x.bv.toNat = val x.vals % 2 ^ n := by
  simp [bv]

theorem Clean.toNat_bv {x : Big n s} (h : x.Clean) : x.bv.toNat = val x.vals := by
  rw [Big.toNat_bv, Nat.mod_eq_of_lt h]

@[simp] theorem bv_toSign (x : Big n s) : (x.toSign t).bv = x.bv := rfl

theorem clean_toSign (x : Big n s) : (x.toSign t).Clean ↔ x.Clean := Iff.rfl

theorem Clean.ext {x y : Big n s} (hx : x.Clean) (hy : y.Clean) (h : x.bv = y.bv) : x = y := by
  apply ext'
  apply val_inj (by rw [x.len, y.len])
  rw [← hx.toNat_bv, ← hy.toNat_bv, h]

/-! ### element-wise loops -/

theorem limb_loop_setLimb (st : Big n s) (f : Nat → BitVec 64) (k j : Nat) (hk : k ≤ limbs n) :
    (loop 0 k st fun i r => r.setLimb i (f i)).limb j = if j < k then f j else st.limb j := by
  refine loop_induct 0 k st _ (fun i r => r.limb j = if j < i then f j else st.limb j)
    (by omega) (by simp) ?_
  intro i r _ hi ih
  rw [limb_setLimb, ih]
  by_cases h : i = j
  · subst h
    rw [if_pos ⟨rfl, by omega⟩, if_pos (by omega)]
  · simp only [h, false_and, if_false]
    by_cases h2 : j < i
    · rw [if_pos h2, if_pos (by omega)]
    · rw [if_neg h2, if_neg (by omega)]

/-- a loop that stores bit `f i` at position `g i` -/
theorem raw_loop_set (st : Big n s) (a b : Nat) (g : Nat → Nat) (f : Nat → Bool) (j : Nat)
    (hg : ∀ i i', a ≤ i → i < b → a ≤ i' → i' < b → g i = g i' → i = i') :
    (∀ i, a ≤ i → i < b → g i = j → j < n →
      (loop a b st fun i r => r.set (g i) (f i)).raw j = f i) ∧
    ((∀ i, a ≤ i → i < b → g i = j → ¬ j < n) →
      (loop a b st fun i r => r.set (g i) (f i)).raw j = st.raw j) := by
  by_cases hab : a ≤ b
  · have := loop_induct a b st (fun i r => r.set (g i) (f i))
      (fun k r => k ≤ b → (∀ i, a ≤ i → i < k → g i = j → j < n → r.raw j = f i) ∧
        ((∀ i, a ≤ i → i < k → g i = j → ¬ j < n) → r.raw j = st.raw j))
      hab (fun _ => ⟨by intros; omega, fun _ => rfl⟩) ?_
    · exact this (le_refl _)
    · intro i r hai hib ih hi1
      obtain ⟨ih1, ih2⟩ := ih (by omega)
      constructor
      · intro i' h1 h2 h3 h4
        rw [raw_set]
        by_cases h5 : i' = i
        · subst h5
          rw [if_pos ⟨h3.symm, by omega⟩]
        · rw [if_neg, ih1 i' h1 (by omega) h3 h4]
          rintro ⟨h6, -⟩
          exact h5 (hg i' i h1 (by omega) hai hib (by omega))
      · intro hno
        rw [raw_set, if_neg, ih2]
        · intro i' h1 h2 h3
          exact hno i' h1 (by omega) h3
        · rintro ⟨h6, h7⟩
          exact hno i hai (by omega) h6.symm (by omega)
  · rw [loop_zero _ _ _ _ (by omega)]
    exact ⟨by intros; omega, fun _ => rfl⟩

theorem clean_loop_set {st : Big n s} (h : st.Clean) (a b : Nat) (g : Nat → Nat)
    (f : Nat → Bool) : (loop a b st fun i r => r.set (g i) (f i)).Clean := by
  by_cases hab : a ≤ b
  · exact loop_induct a b st _ (fun _ r => r.Clean) hab h fun i r _ _ hr => hr.set _ _
  · rwa [loop_zero _ _ _ _ (by omega)]

end Big
end Verif
