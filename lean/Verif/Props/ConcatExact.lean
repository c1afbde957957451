import Verif.Props.Concat

/-!
# Concatenation that outgrows the promoted type

Completes C52: a left operand of at most 32 bits is shifted in 32 bits. Together with
`C52_concat_exact` and the first case of `C52_refuted` this covers every concatenation
that compiles.
-/

namespace Verif

variable {n m : Nat} {s t : Bool}

/-- the result type of `(x << m) | y` on 32-bit promoted operands -/
theorem usual_concat (hn : hw n ≤ 32) (hm : hw m ≤ 32) :
    CTy.usual (holderTy n s).promote (holderTy m t) =
      .int 32 ((decide (hw n < 32) || s) && (decide (hw m < 32) || t)) := by
  simp only [CTy.usual]
  rw [Bits.promote_holder m, Bits.promote_holder n]
  rcases hw_cases n with e | e | e | e | e <;> rcases hw_cases m with f | f | f | f | f <;>
    rw [e] at hn ⊢ <;> rw [f] at hm ⊢ <;> cases s <;> cases t <;> first | rfl | omega

theorem bor_of {x y : TV} {T : CTy} (h : CTy.usual x.ty y.ty = T) :
    TV.bor x y = ⟨T, T.conv (BitVec.ofInt T.width x.v ||| BitVec.ofInt T.width y.v).toInt⟩ := by
  subst h; rfl

/-- **C52, the truncating case, exactly.** With a left operand of at most 32 bits, a right
operand below 32 bits and more than 32 bits in total, the lower 32 bits are those of the
concatenation and the others copy bit 31 if both promoted operands are signed (they are
up to 16 bits, whatever their declared sign), and are 0 otherwise. -/
theorem C52_truncated_exact (hm : 0 < m) (h64 : n + m < 64) (hn32 : n ≤ 32) (hm32 : m < 32)
    (hW : 32 < n + m) (x : Bits n s) (y : Bits m t) (hx : x.Clean) (hy : y.Clean) :
    ∃ z, x.concat y h64 = .ok z ∧ ∀ i, i < n + m → z.bv.getLsbD i =
      if i < m then y.bv.getLsbD i
      else if i < 32 then x.bv.getLsbD (i - m) || (t && decide (1 < m) && y.bv.getLsbD (m - 1))
      else ((decide (n ≤ 16) || s) && (decide (m ≤ 16) || t) &&
        (x.bv.getLsbD (31 - m) || (t && decide (1 < m) && y.bv.getLsbD (m - 1)))) := by
  have hn : 1 < n := by omega
  have hwn : hw n ≤ 32 := by simp only [hw]; split_ifs <;> omega
  have hwm : hw m ≤ 32 := by simp only [hw]; split_ifs <;> omega
  have en : decide (hw n < 32) = decide (n ≤ 16) := by
    simp only [hw]; split_ifs <;> simp <;> omega
  have em : decide (hw m < 32) = decide (m ≤ 16) := by
    simp only [hw]; split_ifs <;> simp <;> omega
  have hu := usual_concat (n := n) (m := m) (s := s) (t := t) hwn hwm
  rw [en, em] at hu
  have hp : ∃ sg, (holderTy n s).promote = .int 32 sg := by
    rw [Bits.promote_holder]; split_ifs with h
    · exact ⟨_, rfl⟩
    · exact ⟨s, by rw [show hw n = 32 by omega]⟩
  obtain ⟨sg, hp⟩ := hp
  have hty : x.nv.ty.promote = .int 32 sg := by rw [Bits.nv_ty, hp]
  have hsh := TV.shl_ok (x := x.nv) (c := TV.int m) (k := m) rfl (by rw [hty]; exact hm32)
  rw [hty] at hsh
  refine ⟨_, by rw [Bits.concat, hsh, res_map_ok], fun i hi => ?_⟩
  have hwt : hw (n + m) = 64 := by simp only [hw]; split_ifs <;> omega
  rw [Bits.getLsbD_bv, Bits.raw_mkN (by omega) (by omega), hwt]
  have hxc : (CTy.int 32 sg).conv x.nv.v = x.nv.v := by
    have := Bits.promote_conv_nv (show n ≤ 64 by omega) x
    rw [hp] at this; exact this
  rw [hxc]
  rw [hp] at hu
  have key : ∀ (S : Bool), CTy.usual (.int 32 sg) (holderTy m t) = .int 32 S → ∀ j,
      ibit (TV.bor ⟨.int 32 sg, (CTy.int 32 sg).conv (x.nv.v * 2 ^ m)⟩ y.nv).v j =
        if j < 32 then ((decide (m ≤ j) && ibit x.nv.v (j - m)) || ibit y.nv.v j)
        else (S && (ibit x.nv.v (31 - m) || ibit y.nv.v 31)) := by
    intro S hS j
    have b : ∀ j, j < 32 → ibit ((BitVec.ofInt 32 ((CTy.int 32 sg).conv (x.nv.v * 2 ^ m)) |||
        BitVec.ofInt 32 y.nv.v).toInt) j = ((decide (m ≤ j) && ibit x.nv.v (j - m)) || ibit y.nv.v j) := by
      intro j hj
      rw [ibit_toInt (by decide), if_pos hj, BitVec.getLsbD_or, getLsbD_ibit, getLsbD_ibit,
        ibit_conv (by decide), if_pos hj, ibit_mul_pow]
      simp [hj]
    rw [bor_of (T := .int 32 S) (by rw [Bits.nv_ty]; exact hS)]
    show ibit ((CTy.int 32 S).conv _) j = _
    rw [ibit_conv (by decide)]
    split_ifs with hj
    · exact b j hj
    · have := b 31 (by decide)
      show (S && ibit ((BitVec.ofInt 32 ((CTy.int 32 sg).conv (x.nv.v * 2 ^ m)) |||
        BitVec.ofInt 32 y.nv.v).toInt) 31) = _
      rw [this]; simp [show m ≤ 31 by omega]
  rw [key _ hu, Bits.ibit_clean (by omega) hm hy, Bits.ibit_clean (by omega) hm hy,
    Bits.ibit_clean (by omega) (by omega) hx, Bits.ibit_clean (by omega) (by omega) hx]
  by_cases h32 : i < 32
  · by_cases him : i < m
    · simp [hi, h32, him, show ¬ m ≤ i by omega]; omega
    · simp [hi, h32, him, show m ≤ i by omega, show i - m < n by omega]; omega
  · simp [hi, h32, show ¬ i < m by omega, show ¬ 31 < m by omega, show 31 - m < n by omega]; omega

/-- **C52 is false for every such pair of widths**: the concatenation of an unsigned value
that has its top bits set and others not with 0 loses them. -/
theorem C52_truncated_refuted (hm : 0 < m) (h64 : n + m < 64) (hn32 : n ≤ 32) (hm32 : m < 32)
    (hW : 32 < n + m) (x : Bits n false) (y : Bits m false) (hx : x.Clean) (hy : y.Clean)
    (htop : x.bv.getLsbD (n - 1) = true) (h31 : x.bv.getLsbD (31 - m) = false) :
    ∃ z, x.concat y h64 = .ok z ∧ z.bv ≠ x.bv ++ y.bv := by
  obtain ⟨z, hz, e⟩ := C52_truncated_exact hm h64 hn32 hm32 hW x y hx hy
  refine ⟨z, hz, fun hc => ?_⟩
  have h1 := e (n + m - 1) (by omega)
  rw [hc, BitVec.getLsbD_append, if_neg (by omega), if_neg (by omega), if_neg (by omega), h31,
    show n + m - 1 - m = n - 1 by omega, htop] at h1
  simp at h1

-- 16 bits with 20 bits: bits 32 to 35 copy bit 11 of the left operand
example : ((Bits.ofInt 0x0800 : Bits 16 false).concat (Bits.ofInt 0x12345 : Bits 20 false) (by decide)).map
    (·.bv) = .ok 0x080012345#36 := by decide +kernel
example : ((Bits.ofInt 0x0800 : Bits 16 false).concat (Bits.ofInt 5 : Bits 16 true) (by decide)).map
    (·.bv) = .ok 0x08000005#32 := by decide +kernel

end Verif
