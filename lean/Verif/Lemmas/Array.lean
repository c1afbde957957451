import Verif.Model.Array
import Verif.Lemmas.Update
import Verif.Lemmas.Slice
import Verif.Props.Compare
import Verif.Props.Convert

/-! Packed arrays: the index guard, one element slice, one element update. -/

namespace Verif

variable {n m w k : Nat} {s t u : Bool} {ra : Rng}

namespace Bits

/-- clearing a bit of a native value: any index the shift accepts -/
theorem setNat_clear (h : n ≤ 64) (h1 : 1 < n) (x : Bits n s) (c : TV) (i : Nat) (hc : c.v = i) (hi : i < 64) :
    ∃ y, setNat h x c false = .ok y ∧ ∀ j, y.raw j = if j = i then false else x.raw j := by
  have hsh : TV.shl (TV.u64 1) c = .ok ⟨tU64, 2 ^ i⟩ := by
    rw [TV.shl_ok hc (by show i < 64; omega)]
    show Except.ok (⟨tU64, tU64.conv (tU64.conv (tU64.conv 1) * 2 ^ i)⟩ : TV) = _
    have h1 : tU64.conv (tU64.conv 1) = 1 := by decide
    rw [h1, one_mul, tU64_conv_of (by positivity)]
    exact pow_lt_pow_right₀ (by norm_num) (by omega)
  rw [setNat, hsh, res_map_ok]
  refine ⟨_, rfl, fun j => ?_⟩
  have hw64 := hw_le n
  simp only [Bool.false_eq_true, if_false]
  rw [raw_native h, hold_mkN h (by omega), TV.ofInt_band _ _ (Or.inr (Or.inl (by
    show hw n ≤ (TV.bnot ⟨tU64, 2 ^ i⟩).ty.width
    exact hw64))), TV.ofInt_bnot _ (Or.inl hw64), ofInt_nv h x (le_refl _), BitVec.setWidth_eq,
    BitVec.getLsbD_and, BitVec.getLsbD_not, getLsbD_ofInt_pow, ← raw_native h]
  by_cases hj : j = i
  · simp [hj]
  · simp only [hj, decide_false, Bool.and_false, Bool.not_false, Bool.and_true, if_false]
    by_cases hjw : j < hw n
    · simp [hjw]
    · rw [raw_of_ge_native h x (by omega)]; simp

/-- clearing a bit at any index: nothing else changes -/
theorem set_clear (h1 : 1 < n) (hN : n ≤ 2 ^ 31) (x : Bits n s) (i : Nat) (hi : i < 64 ∨ 64 < n)
    (hi2 : i ≤ 2 ^ 31) :
    ∃ y, x.set (Rng.down n) i false = .ok y ∧ (∀ j, j ≠ i → y.raw j = x.raw j) ∧
      (i < n ∨ x.raw i = false → y.raw i = false) := by
  have hl := Rng.lo_down (show 0 < n by omega)
  have hp : physIdx (Rng.down n) i - (Rng.down n).lo = i := by rw [physIdx_down (by omega), hl]; omega
  by_cases h : n ≤ 64
  · have hc : (TV.u64 (physIdx (Rng.down n) i - (Rng.down n).lo)).v = i := by
      rw [hp]; exact tU64_conv_of (by omega) (by omega)
    obtain ⟨y, hy, hr⟩ := setNat_clear h h1 x _ i hc (by omega)
    exact ⟨y, by rw [set, dif_pos h, hy], fun j hj => by rw [hr, if_neg hj], fun _ => by rw [hr, if_pos rfl]⟩
  · by_cases hin : i < n
    · obtain ⟨y, hy, hr⟩ := set_phys _ x i i hp hin (by omega) false
      exact ⟨y, hy, fun j hj => by rw [hr, if_neg hj], fun _ => by rw [hr, if_pos rfl]⟩
    · have hx : x.set (Rng.down n) i false = .ok x := by
        apply set_out_big h
        rw [hp, tU64_conv_of (a := (i : Int)) (by omega) (by omega)]
        omega
      exact ⟨x, hx, fun j _ => rfl, fun ho => ho.resolve_left hin⟩

theorem set_clear_fault (x : Bits 64 s) : x.set (Rng.down 64) 64 false = .error .shift := by
  rw [set, dif_pos (by decide), setNat]
  have : TV.shl (TV.u64 1) (TV.u64 (physIdx (Rng.down 64) 64 - (Rng.down 64).lo)) = .error .shift := by
    decide
  rw [this]; rfl

/-- the bits of a clean native value as a number -/
theorem nv_numOf (h : n ≤ 64) {x : Bits n s} (hx : x.Clean) : x.nv.v = numOf s x.bv :=
  (clean_native h x).1 hx

theorem ge_unsigned (hn : n ≤ 64) (hm : m ≤ 64) (x : Bits n s) (y : Bits m false) :
    x.ge y = .ok (decide (tU64.conv y.nv.v ≤ tU64.conv x.nv.v)) := by
  rw [ge, dif_pos hn, if_pos hm, cmpNat, if_neg (by simp)]
  have aux : ∀ v : Int, tU64.conv (tU64.conv v) = tU64.conv v := fun v => by
    simp only [CTy.conv]; omega
  congr 1
  show decide (tU64.conv (tU64.conv y.nv.v) ≤ tU64.conv (tU64.conv x.nv.v)) = _
  rw [aux, aux]

end Bits

namespace Lg

/-- the last step of an update that is one position longer than its operand -/
theorem update_snoc (r ro : Rng) (x : Lg n s) (op : Lg ro.size t) (he : r.bigEndian = ro.bigEndian)
    (ho : ro.lo = 0) (hM : ro.hi < 2 ^ 31) (a : Int) :
    x.update r a (a + ro.size) ro op =
      (x.update r a (a + ro.size - 1) ro op).bind fun y => y.setL r (a + ro.size) zero1 := by
  have hs := size_hi ho
  have hpos : 0 < ro.size := by simp only [Rng.lo, Rng.hi, Rng.size] at *; omega
  rw [update, update]
  simp only [show min a (a + (ro.size : Int)) = a by omega, show max a (a + (ro.size : Int)) = a + ro.size by omega,
    show min a (a + (ro.size : Int) - 1) = a by omega,
    show max a (a + (ro.size : Int) - 1) = a + ro.size - 1 by omega,
    show (a + (ro.size : Int) + 1 - a).toNat = 0 + (ro.size + 1) by omega,
    show (a + (ro.size : Int) - 1 + 1 - a).toNat = 0 + ro.size by omega]
  rw [loopM_succ]
  congr 1
  funext y
  rw [Nat.zero_add, updateStep_eq r ro op he ho hM a ro.size (by omega), if_neg (by omega)]

theorem setL_zero (h1 : 1 < n) (hN : n ≤ 2 ^ 31) (x : Lg n s) (i : Nat) (hi : i < 64 ∨ 64 < n) (hi2 : i ≤ 2 ^ 31) :
    ∃ y, x.setL (Rng.down n) i zero1 = .ok y ∧ (∀ j, j < n → y.at j = if j = i then .b0 else x.at j) ∧
      (s = false → x.Clean → y.Clean) := by
  obtain ⟨a, ha, har, hac⟩ := Bits.set_clear h1 hN x.value i hi hi2
  obtain ⟨b, hb, hbr, hbc⟩ := Bits.set_clear h1 hN x.xz i hi hi2
  have hz : hold1 zero1.value = false ∧ hold1 zero1.xz = false := by decide
  refine ⟨⟨a, b⟩, ?_, fun j hj => ?_, fun hs hx => ?_⟩
  · rw [setL, hz.1, hz.2, ha, res_bind_ok, hb, res_map_ok]
  · rw [at_of_raw hj]
    by_cases hji : j = i
    · subst hji
      show V4.mk (a.raw j) (b.raw j) = _
      rw [if_pos rfl, hac (Or.inl hj), hbc (Or.inl hj)]; rfl
    · show V4.mk (a.raw j) (b.raw j) = _
      rw [if_neg hji, at_of_raw hj, har j hji, hbr j hji]
  · subst hs
    have aux : ∀ {p q : Bits n false}, (∀ j, j ≠ i → p.raw j = q.raw j) → (i < n ∨ q.raw i = false → p.raw i = false) →
        q.Clean → p.Clean := by
      intro p q h1 h2 hq
      rw [Bits.clean_unsigned_iff] at hq ⊢
      intro j hj
      by_cases hji : j = i
      · subst hji; exact h2 (Or.inr (hq j hj))
      · rw [h1 j hji]; exact hq j hj
    exact ⟨aux har hac hx.1, aux hbr hbc hx.2⟩

end Lg
end Verif
