import Verif.Props.Compare
import Verif.Props.Shift
import Verif.Props.Arith
import Verif.Props.Bitwise
import Verif.Lemmas.OfBV

/-!
# 4-state operators are conservative over 2-state (C15)
-/

namespace Verif

variable {n m : Nat} {s t : Bool}

theorem CTy.conv_zero (t : CTy) : t.conv 0 = 0 := by
  rcases t with _ | ⟨w, sg⟩
  · rfl
  · cases sg <;> simp [CTy.conv]

namespace Bits

theorem eq_zero_of_raw {x : Bits n false} (hx : ∀ i, x.raw i = false) : x = Bits.zero := by
  apply Clean.ext (clean_of_raw_zero hx) (clean_of_raw_zero fun i => raw_zero i)
  apply BitVec.eq_of_getLsbD_eq
  intro i hi
  rw [getLsbD_bv, getLsbD_bv, hx, raw_zero]

theorem nv_zero (h : n ≤ 64) : (Bits.zero : Bits n s).nv = ⟨holderTy n s, 0⟩ := by
  rw [Bits.zero, dif_pos h, nv_mkN]
  congr 1
  show (holderTy n s).conv 0 = 0
  by_cases h1 : n ≤ 1
  · rw [holderTy_one h1]; rfl
  · rw [holderTy_ge h1]; cases s <;> simp [CTy.conv]

theorem promote_width_eq (n : Nat) (s : Bool) :
    (holderTy n s).promote.width = (holderTy n false).promote.width := by
  by_cases h1 : n ≤ 1
  · rw [holderTy_one h1, holderTy_one h1]
  · rw [holderTy_ge h1, holderTy_ge h1]
    rcases hw_cases n with h | h | h | h | h <;> rw [h] <;> rfl

/-- an in-range shift count is the same number in the signed and unsigned holder -/
theorem count_transfer {a : Int} (h0 : 0 ≤ (holderTy n s).conv a)
    (h : (holderTy n s).conv a < (holderTy n s).promote.width) :
    (holderTy n false).conv a = (holderTy n s).conv a := by
  by_cases h1 : n ≤ 1
  · rw [holderTy_one h1, holderTy_one h1]
  · have h8 := hw_ge_eight h1
    rw [holderTy_ge h1] at h0 h ⊢
    rw [holderTy_ge h1]
    have e : ((CTy.int (hw n) false).conv a) = (CTy.int (hw n) false).conv ((CTy.int (hw n) s).conv a) := by
      cases s
      · simp [CTy.conv]
      · show a % ((2 ^ hw n : Nat) : Int) = (a.bmod (2 ^ hw n)) % ((2 ^ hw n : Nat) : Int)
        rw [Int.bmod_emod]
    rw [e]
    apply CTy.conv_unsigned_of_lt h0
    have hW : ((CTy.int (hw n) s).promote.width : Int) < 2 ^ hw n := by
      rcases hw_cases n with h | h | h | h | h <;> rw [h] <;> first | (rw [h] at h8; omega) | (cases s <;> decide)
    omega

/-- the zero plane is shifted without fault whenever the value plane is -/
theorem count_ok {x : Bits n s} {y : Bits m t} {v : TV} (h : n ≤ 64)
    (hv : TV.shr x.nv (y.nv.cast (holderTy n s)) = .ok v ∨ TV.shl x.nv (y.nv.cast (holderTy n s)) = .ok v) :
    ∃ c : Nat, (y.nv.cast (holderTy n false)).v = c ∧ c < (holderTy n false).promote.width := by
  have hc : ¬ ((holderTy n s).conv y.nv.v < 0 ∨
      ((holderTy n s).promote.width : Int) ≤ (holderTy n s).conv y.nv.v) := by
    intro hc
    have hx : x.nv.ty = holderTy n s := nv_ty x
    rcases hv with hv | hv
    · simp only [TV.shr, TV.cast, hx] at hv
      rw [if_pos hc] at hv; exact absurd hv (by simp)
    · simp only [TV.shl, TV.cast, hx] at hv
      rw [if_pos hc] at hv; exact absurd hv (by simp)
  push Not at hc
  have e := count_transfer hc.1 hc.2
  refine ⟨((holderTy n s).conv y.nv.v).toNat, ?_, ?_⟩
  · show (holderTy n false).conv y.nv.v = _
    rw [e, Int.toNat_of_nonneg hc.1]
  · rw [← promote_width_eq n s]; omega

theorem promote_conv_zero (n : Nat) (s : Bool) : (holderTy n s).promote.conv 0 = 0 := by
  obtain ⟨w, sg, he, _, _⟩ := CTy.promote_spec (holderTy n s)
  rw [he]; cases sg <;> simp [CTy.conv]

theorem shr_zero {x : Bits n s} {y : Bits m t} {v : Bits n (s && t)} (hv : x.shr y = .ok v) :
    ∃ k : Bits n false, (Bits.zero : Bits n false).shr y = .ok k ∧ ∀ i, k.raw i = false := by
  by_cases h : n ≤ 64
  · by_cases hm : m ≤ 64
    · rw [shr, dif_pos h, if_pos hm] at hv
      cases e1 : TV.shr x.nv (y.nv.cast (holderTy n s)) with
      | error e => rw [e1] at hv; exact absurd hv (by simp [Except.bind])
      | ok a =>
        rw [e1, res_bind_ok] at hv
        cases e2 : TV.sub (TV.int n) y.nv with
        | error e => rw [e2] at hv; exact absurd hv (by simp [Except.bind])
        | ok req =>
          rw [e2, res_bind_ok] at hv
          obtain ⟨c, hc, hcw⟩ := count_ok h (Or.inl e1)
          have e3 : ∃ M, valueMask n false req = .ok M := by
            rw [valueMask] at hv ⊢
            cases e4 : TV.sub (TV.u64 64) (req.cast tU64) with
            | error e => rw [e4] at hv; exact absurd hv (by simp [Except.bind, Except.map])
            | ok d =>
              rw [e4, res_bind_ok] at hv
              rw [res_bind_ok]
              cases e5 : TV.shr (TV.u64 (2 ^ 64 - 1)) d with
              | error e => rw [e5] at hv; exact absurd hv (by simp [Except.map])
              | ok m => exact ⟨_, rfl⟩
          obtain ⟨M, hM⟩ := e3
          refine ⟨_, by
            rw [shr, dif_pos h, if_pos hm, TV.shr_ok hc (by rw [nv_ty]; exact hcw), res_bind_ok, e2,
              res_bind_ok, hM, res_map_ok], ?_⟩
          have z0 : (Bits.zero : Bits n false).nv.v = 0 := by rw [nv_zero h]
          rw [← nv_eq_zero_iff h, nv_mkN]
          show (holderTy n (false && t)).conv _ = 0
          rw [z0]
          simp only [nv_ty, promote_conv_zero, Int.zero_ediv]
          have : (TV.band ⟨(holderTy n false).promote, 0⟩ M).v = 0 := by
            rw [TV.band, TV.bitw]
            rw [show BitVec.ofInt (CTy.usual (holderTy n false).promote M.ty).width 0 = 0 from by simp]
            simp only [BitVec.zero_eq, BitVec.zero_and, BitVec.toInt_zero]
            obtain ⟨w, sg, he, _, _⟩ := CTy.usual_spec (holderTy n false).promote M.ty
            rw [he]; cases sg <;> simp [CTy.conv]
          rw [this]
          exact (CTy.conv_zero _)
    · rw [shr, dif_pos h, if_neg hm] at hv; exact absurd hv (by simp)
  · by_cases hm : m ≤ 64
    · refine ⟨_, by rw [shr, dif_neg h, dif_pos hm], ?_⟩
      intro i
      rw [raw_big h, bg_big]
      show ((zero.bg h : Big n false).shr _).raw i = false
      rw [← (Big.Clean.get _ (Big.clean_shr _ _)), Big.get_shr, Bits.zero, dif_neg h, bg_big, Big.get_eq, Big.raw_zero, Bool.and_false]
    · refine ⟨_, by rw [shr, dif_neg h, dif_neg hm], ?_⟩
      intro i
      rw [raw_big h, bg_big, Big.shrBig]
      split_ifs
      · exact Big.raw_zero i
      · show ((zero.bg h : Big n false).shr _).raw i = false
        rw [← (Big.Clean.get _ (Big.clean_shr _ _)), Big.get_shr, Bits.zero, dif_neg h, bg_big, Big.get_eq, Big.raw_zero, Bool.and_false]

theorem shl_zero {x : Bits n s} {y : Bits m t} {v : Bits n (s && t)} (hv : x.shl y = .ok v) :
    ∃ k : Bits n false, (Bits.zero : Bits n false).shl y = .ok k ∧ ∀ i, k.raw i = false := by
  by_cases h : n ≤ 64
  · by_cases hm : m ≤ 64
    · rw [shl, dif_pos h, if_pos hm] at hv
      cases e1 : TV.shl x.nv (y.nv.cast (holderTy n s)) with
      | error e => rw [e1] at hv; exact absurd hv (by simp [Except.map])
      | ok a =>
        obtain ⟨c, hc, hcw⟩ := count_ok h (Or.inr e1)
        refine ⟨_, by
          rw [shl, dif_pos h, if_pos hm, TV.shl_ok hc (by rw [nv_ty]; exact hcw), res_map_ok], ?_⟩
        have z0 : (Bits.zero : Bits n false).nv.v = 0 := by rw [nv_zero h]
        rw [← nv_eq_zero_iff h, nv_mkN]
        simp only [z0, nv_ty, promote_conv_zero, Int.zero_mul]
        exact (CTy.conv_zero _)
    · rw [shl, dif_pos h, if_neg hm] at hv; exact absurd hv (by simp)
  · by_cases hm : m ≤ 64
    · refine ⟨_, by rw [shl, dif_neg h, dif_pos hm], ?_⟩
      intro i
      rw [raw_big h, bg_big]
      show ((zero.bg h : Big n false).shl _).raw i = false
      rw [← (Big.Clean.get _ (Big.clean_shl _ _)), ← Big.getLsbD_bv,
        Big.bv_shl, Bits.zero, dif_neg h, bg_big, BitVec.getLsbD_shiftLeft, Big.getLsbD_bv, Big.get_eq,
        Big.raw_zero]
      simp
    · refine ⟨_, by rw [shl, dif_neg h, dif_neg hm], ?_⟩
      intro i
      rw [raw_big h, bg_big, Big.shlBig]
      split_ifs
      · exact Big.raw_zero i
      · show ((zero.bg h : Big n false).shl _).raw i = false
        rw [← (Big.Clean.get _ (Big.clean_shl _ _)), ← Big.getLsbD_bv,
          Big.bv_shl, Bits.zero, dif_neg h, bg_big, BitVec.getLsbD_shiftLeft, Big.getLsbD_bv, Big.get_eq,
          Big.raw_zero]
        simp

theorem ashr_zero {x : Bits n s} {y : Bits m t} {v : Bits n (s && t)} (hv : x.ashr y = .ok v) :
    ∃ k : Bits n false, (Bits.zero : Bits n false).ashr y = .ok k ∧ ∀ i, k.raw i = false := by
  by_cases h : n ≤ 64
  · by_cases hm : m ≤ 64
    · rw [ashr, dif_pos h, if_pos hm] at hv
      cases e1 : TV.shr x.nv (y.nv.cast (holderTy n s)) with
      | error e => rw [e1] at hv; exact absurd hv (by simp [Except.map])
      | ok a =>
        obtain ⟨c, hc, hcw⟩ := count_ok h (Or.inl e1)
        refine ⟨_, by
          rw [ashr, dif_pos h, if_pos hm, TV.shr_ok hc (by rw [nv_ty]; exact hcw), res_map_ok], ?_⟩
        have z0 : (Bits.zero : Bits n false).nv.v = 0 := by rw [nv_zero h]
        rw [← nv_eq_zero_iff h, nv_mkN]
        simp only [z0, nv_ty, promote_conv_zero, Int.zero_ediv]
        exact (CTy.conv_zero _)
    · rw [ashr, dif_pos h, if_neg hm] at hv; exact absurd hv (by simp)
  · obtain ⟨w, hw⟩ : ∃ w, x.shr y = .ok w := by
      by_cases hm : m ≤ 64
      · exact ⟨_, by rw [shr, dif_neg h, dif_pos hm]⟩
      · exact ⟨_, by rw [shr, dif_neg h, dif_neg hm]⟩
    obtain ⟨k, hk, hr⟩ := shr_zero hw
    refine ⟨k, ?_, hr⟩
    rw [← hk]
    by_cases hm : m ≤ 64
    · rw [shr, ashr, dif_neg h, dif_pos hm, dif_neg h, dif_pos hm]
      simp [Big.ashr]
    · rw [shr, ashr, dif_neg h, dif_neg hm, dif_neg h, dif_neg hm, Big.shrBig, Big.ashrBig]
      simp [Big.ashr]

end Bits

/-- **C15, bitwise operators.** -/
theorem C15_bitwise (hn : 0 < n) (x : Lg n s) (y : Lg n t) (hx : x.Known) (hy : y.Known) :
    (∃ z, x.and y = .ok z ∧ ∀ i, i < n → z.at i = V4.ofBool ((x.value.and y.value).bv.getLsbD i)) ∧
    (∃ z, x.or y = .ok z ∧ ∀ i, i < n → z.at i = V4.ofBool ((x.value.or y.value).bv.getLsbD i)) ∧
    (∃ z, x.xor y = .ok z ∧ ∀ i, i < n → z.at i = V4.ofBool ((x.value.xor y.value).bv.getLsbD i)) ∧
    (∃ z, x.not = .ok z ∧ ∀ i, i < n → z.at i = V4.ofBool (x.value.not.bv.getLsbD i)) := by
  obtain ⟨e1, e2, e3, e4, _⟩ := C14_bitwise hn x.value y.value
  refine ⟨?_, ?_, ?_, ?_⟩
  · obtain ⟨z, hz, hb⟩ := C10_and_table_partial hn x y
    refine ⟨z, hz, fun i hi => ?_⟩
    rw [hb i hi, hx.at hi, hy.at hi, e1, BitVec.getLsbD_and]
    cases x.value.bv.getLsbD i <;> cases y.value.bv.getLsbD i <;> rfl
  · obtain ⟨z, hz, hb⟩ := C11_or_table_partial hn x y
    refine ⟨z, hz, fun i hi => ?_⟩
    rw [hb i hi, hx.at hi, hy.at hi, e2, BitVec.getLsbD_or]
    cases x.value.bv.getLsbD i <;> cases y.value.bv.getLsbD i <;> rfl
  · obtain ⟨z, hz, hb⟩ := C08_xor_table hn x y
    refine ⟨z, hz, fun i hi => ?_⟩
    rw [hb i hi, hx.at hi, hy.at hi, e3, BitVec.getLsbD_xor]
    cases x.value.bv.getLsbD i <;> cases y.value.bv.getLsbD i <;> rfl
  · obtain ⟨z, hz, hb⟩ := C09_not_table hn x
    refine ⟨z, hz, fun i hi => ?_⟩
    rw [hb i hi, hx.at hi, e4, BitVec.getLsbD_not]
    simp only [hi, decide_true, Bool.true_and]
    cases x.value.bv.getLsbD i <;> rfl

/-- **C15, shifts.** Whenever the 2-state shift is defined, the 4-state shift is
defined, free of x/z and has its bits. -/
theorem C15_shift (hn : 0 < n) (x : Lg n s) (y : Lg m t) (hx : x.Known) (hy : y.Known)
    (v : Bits n (s && t)) :
    (x.value.shr y.value = .ok v → ∃ z, x.shr y = .ok z ∧ z.Known ∧
      ∀ i, i < n → z.at i = V4.ofBool (v.bv.getLsbD i)) ∧
    (x.value.shl y.value = .ok v → ∃ z, x.shl y = .ok z ∧ z.Known ∧
      ∀ i, i < n → z.at i = V4.ofBool (v.bv.getLsbD i)) ∧
    (x.value.ashr y.value = .ok v → ∃ z, x.ashr y = .ok z ∧ z.Known ∧
      ∀ i, i < n → z.at i = V4.ofBool (v.bv.getLsbD i)) ∧
    (x.value.ashl y.value = .ok v → ∃ z, x.ashl y = .ok z ∧ z.Known ∧
      ∀ i, i < n → z.at i = V4.ofBool (v.bv.getLsbD i)) := by
  have hz : x.xz = Bits.zero := Bits.eq_zero_of_raw hx.raw
  have fin : ∀ k : Bits n false, (∀ i, k.raw i = false) →
      (⟨v, k⟩ : Lg n (s && t)).Known ∧
      ∀ i, i < n → (⟨v, k⟩ : Lg n (s && t)).at i = V4.ofBool (v.bv.getLsbD i) := by
    intro k hk
    have hkn : (⟨v, k⟩ : Lg n (s && t)).Known := Lg.known_of_raw hk
    exact ⟨hkn, fun i hi => hkn.at hi⟩
  refine ⟨fun hv => ?_, fun hv => ?_, fun hv => ?_, fun hv => ?_⟩
  · obtain ⟨k, hk, hr⟩ := Bits.shr_zero hv
    exact ⟨⟨v, k⟩, Lg.shiftWith_known hn Bits.shr hx hy hv (by rw [hz]; exact hk), fin k hr⟩
  · obtain ⟨k, hk, hr⟩ := Bits.shl_zero hv
    exact ⟨⟨v, k⟩, Lg.shiftWith_known hn Bits.shl hx hy hv (by rw [hz]; exact hk), fin k hr⟩
  · obtain ⟨k, hk, hr⟩ := Bits.ashr_zero hv
    exact ⟨⟨v, k⟩, Lg.shiftWith_known hn Bits.ashr hx hy hv (by rw [hz]; exact hk), fin k hr⟩
  · obtain ⟨k, hk, hr⟩ := Bits.shl_zero hv
    exact ⟨⟨v, k⟩, Lg.shiftWith_known hn Bits.ashl hx hy hv (by rw [hz]; exact hk), fin k hr⟩

/-- **C15, arithmetic.** Whenever the 2-state operator is defined, so is the 4-state
one, with a result free of x/z and the same value. For `/` and `%` the divisor has to
pass the library's emptiness test. Missing: wide divisors that are not zero and fail that test,
which give x (`C15_refuted_all`). -/
theorem C15_arith_partial (x : Lg n s) (y : Lg n t) (hx : x.Known) (hy : y.Known)
    (v : Bits n (s && t)) :
    (x.value.add y.value = .ok v → ∃ z, x.add y = .ok z ∧ z.Known ∧ z.value = v) ∧
    (x.value.sub y.value = .ok v → ∃ z, x.sub y = .ok z ∧ z.Known ∧ z.value = v) ∧
    (x.value.mul y.value = .ok v → ∃ z, x.mul y = .ok z ∧ z.Known ∧ z.value = v) ∧
    (y.value.Clean → y.value.bv ≠ 0 → (64 < n → LowHalves y.value.bv) →
      (x.value.div y.value = .ok v → ∃ z, x.div y = .ok z ∧ z.Known ∧ z.value = v) ∧
      (x.value.mod y.value = .ok v → ∃ z, x.mod y = .ok z ∧ z.Known ∧ z.value = v)) := by
  refine ⟨fun hv => ?_, fun hv => ?_, fun hv => ?_, fun hc h0 hl => ⟨fun hv => ?_, fun hv => ?_⟩⟩
  · exact ⟨_, Lg.arithWith_known hx hy hv, Lg.known_zero _, rfl⟩
  · exact ⟨_, Lg.arithWith_known hx hy hv, Lg.known_zero _, rfl⟩
  · exact ⟨_, Lg.arithWith_known hx hy hv, Lg.known_zero _, rfl⟩
  · exact ⟨_, Lg.divWith_known hx hy (Lg.anySet_of_ne hc h0 fun h => hl (by omega)) hv, Lg.known_zero _, rfl⟩
  · exact ⟨_, Lg.divWith_known hx hy (Lg.anySet_of_ne hc h0 fun h => hl (by omega)) hv, Lg.known_zero _, rfl⟩

/-- **C15, comparison**: the statement of C43 for operands without x/z. -/
theorem C15_compare (x : Lg n s) (y : Lg m t) (hx : x.Known) (hy : y.Known) (b : Bool) :
    ((x.value.eq y.value = b → ∃ z, x.eq y = .ok z ∧ z.at 0 = V4.ofBool b) ∧
    (x.value.ne y.value = b → ∃ z, x.ne y = .ok z ∧ z.at 0 = V4.ofBool b)) ∧
    (x.value.gt y.value = .ok b → ∃ z, x.gt y = .ok z ∧ z.at 0 = V4.ofBool b) ∧
    (x.value.lt y.value = .ok b → ∃ z, x.lt y = .ok z ∧ z.at 0 = V4.ofBool b) ∧
    (x.value.ge y.value = .ok b → ∃ z, x.ge y = .ok z ∧ z.at 0 = V4.ofBool b) ∧
    (x.value.le y.value = .ok b → ∃ z, x.le y = .ok z ∧ z.at 0 = V4.ofBool b) :=
  C43_rel_known x y hx hy b

example : (⟨Bits.ofInt 13, Bits.ofInt 0⟩ : Lg 6 true).Known ∧
    Lg.bits ((⟨Bits.ofInt 13, Bits.ofInt 0⟩ : Lg 6 true).shl (⟨Bits.ofInt 2, Bits.ofInt 0⟩ : Lg 3 false)) =
      some [.b0, .b0, .b1, .b0, .b1, .b1] ∧
    Lg.bits ((⟨Bits.ofInt 13, Bits.ofInt 0⟩ : Lg 6 false).div (⟨Bits.ofInt 2, Bits.ofInt 0⟩ : Lg 6 false)) =
      some [.b0, .b1, .b1, .b0, .b0, .b0] ∧
    Bits.num ((Bits.ofInt 13 : Bits 6 true).shl (Bits.ofInt 2 : Bits 3 false)) = some 52 := by
  decide +kernel

/-- **C15 is false of the code** for division: dividing a known 70-bit number by the
known number `2^32` gives all x although the 2-state quotient is defined. -/
theorem C15_refuted : ∃ (x y z : Lg 70 false) (v : Bits 70 false), x.Clean ∧ y.Clean ∧ x.Known ∧ y.Known ∧
    x.value.div y.value = .ok v ∧ x.div y = .ok z ∧ (z.at 0).isKnown = false := by
  let y : Bits 70 false := .big (by decide) (Big.zero.set 32 true)
  have hc : y.Clean := by decide +kernel
  have ha : y.anySet = false := by decide +kernel
  have hd : ∃ v, (Bits.ofInt 5 : Bits 70 false).div y = .ok v := by
    have : ((Bits.ofInt 5 : Bits 70 false).div y).toOption.isSome = true := by decide +kernel
    cases e : (Bits.ofInt 5 : Bits 70 false).div y with
    | error e' => rw [e] at this; exact absurd this (by simp [Except.toOption])
    | ok v => exact ⟨v, rfl⟩
  obtain ⟨v, hv⟩ := hd
  obtain ⟨z, hz, hb⟩ := Lg.divWith_x (n := 70) (by decide) (f := Bits.div)
    (x := (⟨Bits.ofInt 5, Bits.zero⟩ : Lg 70 false)) (y := (⟨y, Bits.zero⟩ : Lg 70 false))
    (Or.inr (Or.inr ha))
  refine ⟨⟨Bits.ofInt 5, Bits.zero⟩, ⟨y, Bits.zero⟩, z, v, by decide +kernel, ⟨hc, by decide +kernel⟩,
    Lg.known_zero _, Lg.known_zero _, hv, hz, ?_⟩
  rw [hb 0 (by decide)]; rfl

end Verif
