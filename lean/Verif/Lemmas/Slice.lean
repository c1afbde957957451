import Verif.Lemmas.IntBits
import Verif.Lemmas.BigOps
import Verif.Lemmas.Access

/-!
# Slices
-/

namespace Verif
namespace Bits

variable {n m : Nat} {s t : Bool}

/-- the mask built by lines 1137-1141 and 1163-1167: ones at `mn .. e` -/
theorem slice_mask (h : n ≤ 64) (h1 : 1 < n) {a c : TV} {mn e : Nat} (ha : a.v = mn) (hmn : mn < hw n)
    (hc : c.v = (hw n - e - 1 : Nat)) (he : e < hw n) :
    ∃ m1 m2, TV.shl (bitMask n) a = .ok m1 ∧ TV.shr (bitMask n) c = .ok m2 ∧
      ∀ s, (((TV.band (m1.cast tU64) m2).cast tU64).cast (holderTy n s)).Fits (holderTy n s) ∧
      ∀ j, ibit (((TV.band (m1.cast tU64) m2).cast tU64).cast (holderTy n s)).v j =
        if j < hw n then decide (mn ≤ j) && decide (j ≤ e) else s && decide (mn ≤ e) && decide (e + 1 = hw n) := by
  have h1' : ¬ n ≤ 1 := by omega
  have hwn := le_hw h
  have hw64 := hw_le n
  have hp := hw_pos n
  have hb : bitMask n = ⟨.int (hw n) false, 2 ^ hw n - 1⟩ := by simp [bitMask, holderMax, h1']
  have hprom : ∃ w sg, (CTy.int (hw n) false).promote = .int w sg ∧ 32 ≤ w ∧ hw n ≤ w ∧ w ≤ 64 ∧
      (sg = true → hw n < 32) := by
    by_cases hlt : hw n < 32
    · exact ⟨32, true, by simp [CTy.promote, hlt], by decide, by omega, by decide, fun _ => hlt⟩
    · exact ⟨hw n, false, by simp [CTy.promote, hlt], by omega, le_refl _, hw64, by simp⟩
  obtain ⟨w, sg, hpe, h32, hle, hw', hsg⟩ := hprom
  have hw0 : 0 < w := by omega
  have hbty : (bitMask n).ty.promote = .int w sg := by rw [hb, ← hpe]
  have hbv : (bitMask n).v = 2 ^ hw n - 1 := by rw [hb]
  have hones : ∀ k, k ≤ hw n → (CTy.int w sg).conv (2 ^ k - 1) = 2 ^ k - 1 := by
    intro k hk
    apply ibit_ext
    intro j
    rw [ibit_conv hw0, ibit_ones, ibit_ones]
    split
    · rfl
    · cases sg with
      | false => simp; omega
      | true =>
        have := hsg rfl
        have : ¬ w - 1 < k := by omega
        have : ¬ j < k := by omega
        simp [*]
  refine ⟨_, _, TV.shl_ok ha (by rw [hbty]; show mn < w; omega),
    TV.shr_ok hc (by rw [hbty]; show _ < w; omega), ?_⟩
  rw [hbty, hbv, hones _ (le_refl _)]
  have hd : ((2 : Int) ^ hw n - 1) / 2 ^ (hw n - e - 1) = 2 ^ (e + 1) - 1 := by
    have : (2 : Int) ^ hw n = 2 ^ (e + 1 + (hw n - e - 1)) := by congr 1; omega
    rw [this, ones_div]
  rw [hd, hones _ (by omega)]
  have hu : CTy.usual tU64 (.int w sg) = .int 64 false := by
    rw [CTy.usual]
    have : (CTy.int w sg).promote = .int w sg := by simp [CTy.promote]; omega
    rw [this]
    have e0 : tU64.promote = .int 64 false := rfl
    rw [e0]
    cases sg with
    | false => simp; omega
    | true => simp; omega
  have hbits : ∀ j, j < hw n → ibit (TV.band ((⟨.int w sg, (CTy.int w sg).conv ((2 ^ hw n - 1) * 2 ^ mn)⟩ : TV).cast tU64)
      ⟨.int w sg, 2 ^ (e + 1) - 1⟩).v j = (decide (mn ≤ j) && decide (j ≤ e)) := by
    intro j hj
    rw [ibit_band (w := 64) (sg := false) (by decide) hu ?_ ?_]
    · rw [ibit_ones]
      simp only [TV.cast]
      rw [ibit_conv (by decide), if_pos (by omega), ibit_conv hw0, if_pos (by omega), ibit_mul_pow, ibit_ones]
      congr 1
      · by_cases hc : mn ≤ j
        · simp [hc]; omega
        · simp [hc]
      · rw [decide_eq_decide]; omega
    · simp only [TV.cast, TV.Fits]
      apply ibit_ext
      intro j
      rw [ibit_conv (by decide), ibit_conv (by decide)]
      split <;> rfl
    · simp only [TV.Fits]
      apply CTy.conv_unsigned_of_lt
      · have : (1 : Int) ≤ 2 ^ (e + 1) := one_le_pow₀ (by norm_num)
        omega
      · have : (2 : Int) ^ (e + 1) ≤ 2 ^ 64 := pow_le_pow_right₀ (by norm_num) (by omega)
        omega
  intro s
  rw [holderTy_ge h1']
  constructor
  · simp only [TV.cast, TV.Fits]
    apply ibit_ext
    intro j
    rw [ibit_conv hp, ibit_conv hp, ibit_conv hp]
    split
    · rfl
    · rw [if_pos (by omega)]
  · intro j
    simp only [TV.cast]
    rw [ibit_conv hp]
    split
    · rename_i hj
      rw [ibit_conv (by decide), if_pos (by omega)]
      exact hbits j hj
    · rw [ibit_conv (by decide), if_pos (by omega)]
      have := hbits (hw n - 1) (by omega)
      simp only [TV.cast] at this
      rw [this, Bool.and_assoc]
      congr 1
      rw [← Bool.decide_and, ← Bool.decide_and, decide_eq_decide]
      omega

/-- Native slice with an upper mask bit `e`: the value before the final conversion. -/
theorem slice_core (h : n ≤ 64) (h1 : 1 < n) (x : Bits n s) {a c : TV} {mn e : Nat} (ha : a.v = mn)
    (hmn : mn < hw n) (hme : mn ≤ e) (hc : c.v = (hw n - e - 1 : Nat)) (he : e < hw n) :
    ∃ v, ((TV.shl (bitMask n) a).bind fun m1 => (TV.shr (bitMask n) c).bind fun m2 =>
        TV.shr (TV.band x.nv (((TV.band (m1.cast tU64) m2).cast tU64).cast (holderTy n s))) a) = .ok v ∧
      ∀ j, ibit v.v j = if mn + j ≤ e then x.raw (mn + j)
        else (s && decide (e + 1 = hw n) && x.raw (hw n - 1)) := by
  obtain ⟨m1, m2, hm1, hm2, hmask⟩ := slice_mask h h1 ha hmn hc he
  obtain ⟨hf, hbits⟩ := hmask s
  have hwn := le_hw h
  rw [hm1, hm2, res_bind_ok, res_bind_ok]
  obtain ⟨v, hv, hvb⟩ := mask_shr h h1 x (by rfl) hf ha (by omega)
  refine ⟨v, hv, fun j => ?_⟩
  rw [hvb, hbits, ibit_nv h h1, Nat.add_comm j mn]
  by_cases hj : mn + j < hw n
  · rw [if_pos hj, if_pos hj]
    by_cases hje : mn + j ≤ e
    · rw [if_pos hje]; simp [hje]
    · rw [if_neg hje]
      have : ¬ e + 1 = hw n := by omega
      simp [hje, this]
  · rw [if_neg hj, if_neg hj, if_neg (by omega)]
    cases s <;> cases x.raw (hw n - 1) <;> simp [hme]

theorem u64_v {a : Int} {k : Nat} (ha : a = k) (hk : k < 2 ^ 64) : (TV.u64 a).v = k := by
  show tU64.conv a = k
  rw [ha, tU64_conv_of (by omega) (by omega)]

/-- raw bits of the result of a native slice, unsigned source -/
theorem mkN_slice {k : Nat} (hk : k ≤ 64) (h0 : 0 < k) {v : TV} {P : Nat → Bool}
    (hv : ∀ j, ibit v.v j = P j) (hP : ∀ j, k ≤ j → P j = false) (i : Nat) :
    (mkN hk v : Bits k t).raw i = P i := by
  by_cases h1 : k = 1
  · subst h1
    rw [raw_mkN_one]
    rcases i with _ | i
    · simp only [decide_true, Bool.true_and]
      rw [← hv 0, Bool.eq_iff_iff, decide_eq_true_iff]
      constructor
      · intro hne
        obtain ⟨j, hj⟩ := exists_ibit hne
        rcases j with _ | j
        · exact hj
        · rw [hv, hP _ (by omega)] at hj; exact absurd hj (by decide)
      · intro hb h0
        rw [h0, ibit_zero] at hb; exact absurd hb (by decide)
    · rw [hP _ (by omega)]; simp
  · rw [raw_mkN hk (by omega), hv]
    by_cases hi : i < hw k
    · simp [hi]
    · rw [hP i (by have := le_hw hk; omega)]; simp

end Bits
end Verif

namespace Verif
namespace Bits

variable {n m : Nat} {s t : Bool}

theorem bind_bind_map {α β γ δ : Type} (A : Res α) (B : Res β) (F : α → β → Res γ) (g : γ → δ) :
    (A.bind fun a => B.bind fun b => (F a b).map g) =
      (A.bind fun a => B.bind fun b => F a b).map g := by
  cases A with
  | error e => rfl
  | ok a => cases B with
    | error e => rfl
    | ok b => rfl

/-- The run-time slice of a native value of more than one bit, bounds within the
holder. -/
theorem sliceRt_holder (h : n ≤ 64) (h1 : 1 < n) (r : Rng) (x : Bits n s) {k : Nat} (hk : k ≤ 64) {a b : Int}
    {p q : Nat} (hp : min a b - r.lo = p) (hq : max a b - r.lo = q) (hqn : q < hw n) :
    ∃ v : TV, x.sliceRt r k a b = .ok (mkN hk v) ∧
      ∀ j, ibit v.v j = if p + j ≤ q then x.raw (p + j)
        else (s && decide (q + 1 = hw n) && x.raw (hw n - 1)) := by
  have hpq : p ≤ q := by omega
  have hwn := le_hw h
  have hw64 := hw_le n
  have hsz : sizeofBits n = hw n := sizeof_eq (by omega)
  obtain ⟨v, hv, hb⟩ := slice_core h h1 x (a := TV.int p) (c := TV.u64 ((sizeofBits n : Int) - q - 1))
    (mn := p) (e := q) rfl (by omega) hpq (u64_v (by rw [hsz]; omega) (by omega)) hqn
  refine ⟨v, ?_, hb⟩
  rw [sliceRt, dif_pos h, dif_pos hk]
  simp only [hp, hq]
  rw [bind_bind_map, hv, res_map_ok]

theorem sliceRt_native (h : n ≤ 64) (h1 : 1 < n) (r : Rng) (x : Bits n s) {k : Nat} (hk : k ≤ 64) {a b : Int}
    {p q : Nat} (hp : min a b - r.lo = p) (hq : max a b - r.lo = q) (_ : p < n) (hqn : q < hw n) :
    ∃ v : TV, x.sliceRt r k a b = .ok (mkN hk v) ∧
      ∀ j, ibit v.v j = if p + j ≤ q then x.raw (p + j)
        else (s && decide (q + 1 = hw n) && x.raw (hw n - 1)) := sliceRt_holder h h1 r x hk hp hq hqn

/-- The same slice reaching past the holder: the count of the mask shift is negative. -/
theorem sliceRt_native_fault (h : n ≤ 64) (h1 : 1 < n) (r : Rng) (x : Bits n s) {k : Nat} (hk : k ≤ 64) {a b : Int}
    {p q : Nat} (hp : min a b - r.lo = p) (hq : max a b - r.lo = q) (hpn : p < n) (hqn : hw n ≤ q)
    (hq64 : q < 2 ^ 32) : x.sliceRt r k a b = .error .shift := by
  have hwn := le_hw h
  have hw64 := hw_le n
  have hsz : sizeofBits n = hw n := sizeof_eq (by omega)
  rw [sliceRt, dif_pos h, dif_pos hk]
  simp only [hp, hq]
  obtain ⟨m1, m2, hm1, -, -⟩ := slice_mask h h1 (a := TV.int p) (c := TV.u64 ((sizeofBits n : Int) - p - 1))
    (mn := p) (e := p) rfl (by omega) (u64_v (by rw [hsz]; omega) (by omega)) (by omega)
  rw [hm1, res_bind_ok]
  have hc : 2 ^ 64 - 2 ^ 33 ≤ (TV.u64 ((sizeofBits n : Int) - q - 1)).v := by
    show _ ≤ tU64.conv _
    rw [hsz]
    simp only [CTy.conv]
    omega
  rw [TV.shr_fault (Or.inr _)]
  · rfl
  · have hb : (bitMask n).ty.promote.width ≤ 64 := by
      rw [bitMask, holderMax, if_neg (by omega)]
      simp only [Bool.false_eq_true, if_false, CTy.promote]
      split <;> simp only [CTy.width] <;> omega
    have : (((bitMask n).ty.promote.width : Nat) : Int) ≤ 64 := by exact_mod_cast hb
    omega

/-- The constant slice of a native value of more than one bit: the mask reaches one
bit further when the source is signed. -/
theorem slice_native (h : n ≤ 64) (h1 : 1 < n) (r : Rng) (x : Bits n s) {a b : Nat}
    (hk : max a b - min a b + 1 ≤ 64)
    {p q : Nat} (hp : ((min a b : Nat) : Int) - r.lo = p) (hq : ((max a b : Nat) : Int) - r.lo = q) (hqn : q < n) :
    (q + (if s then 1 else 0) < hw n → ∃ v : TV, x.slice r a b = .ok (mkN hk v) ∧
      ∀ j, ibit v.v j = if p + j ≤ q + (if s then 1 else 0) then x.raw (p + j)
        else (s && decide (q + (if s then 1 else 0) + 1 = hw n) && x.raw (hw n - 1))) ∧
    (¬ q + (if s then 1 else 0) < hw n → x.slice r a b = .error .shift) := by
  have hpq : p ≤ q := by omega
  have hwn := le_hw h
  have hw64 := hw_le n
  have hsz : sizeofBits n = hw n := sizeof_eq (by omega)
  have e1 : (min (a : Int) b - r.lo) = p := by omega
  have e2 : (max (a : Int) b - r.lo) = q := by omega
  have hne : ¬ (max a b - min a b + 1 = 1 ∧ n = 1) := by omega
  constructor
  · intro hlt
    obtain ⟨v, hv, hb⟩ := slice_core h h1 x (a := TV.int p)
      (c := TV.u64 ((sizeofBits n : Int) - q - (if s then 2 else 1)))
      (mn := p) (e := q + (if s then 1 else 0)) rfl (by omega) (by omega)
      (u64_v (by rw [hsz]; cases s <;> simp at hlt ⊢ <;> omega) (by omega)) hlt
    refine ⟨v, ?_, hb⟩
    rw [slice, dif_pos h, dif_pos hk, sliceNat]
    simp only [e1, e2]
    rw [if_neg hne, bind_bind_map, hv, res_map_ok]
  · intro hge
    have hs : s = true := by
      by_contra hc
      rw [Bool.not_eq_true] at hc
      subst hc
      simp at hge; omega
    subst hs
    simp only [if_true] at hge
    have hq1 : q = hw n - 1 := by omega
    rw [slice, dif_pos h, dif_pos hk, sliceNat]
    simp only [e1, e2]
    rw [if_neg hne]
    obtain ⟨m1, m2, hm1, -, -⟩ := slice_mask h h1 (a := TV.int p) (c := TV.u64 ((sizeofBits n : Int) - q - 1))
      (mn := p) (e := q) rfl (by omega) (u64_v (by rw [hsz]; omega) (by omega)) (by omega)
    rw [hm1, res_bind_ok]
    have hc : (TV.u64 ((sizeofBits n : Int) - q - 2)).v = 2 ^ 64 - 1 := by
      show tU64.conv _ = _
      rw [hsz, hq1, show ((hw n : Nat) : Int) - ((hw n - 1 : Nat) : Int) - 2 = -1 by omega]
      rfl
    rw [TV.shr_fault (Or.inr _)]
    · rfl
    · simp only [if_true]
      rw [hc]
      have hb : (bitMask n).ty.promote.width ≤ 64 := by
        rw [bitMask, holderMax, if_neg (by omega)]
        simp only [Bool.false_eq_true, if_false, CTy.promote]
        split <;> simp only [CTy.width] <;> omega
      have : (((bitMask n).ty.promote.width : Nat) : Int) ≤ 64 := by exact_mod_cast hb
      omega

end Bits
end Verif
