import Verif.Props.ArithExact
import Verif.Props.Unary
import Verif.Props.Measure
import Verif.Props.Assign
import Verif.Props.Convert
import Verif.Props.Compare
import Verif.Props.LogicBit
import Verif.Props.Format
import Verif.Props.SignedWide
import Verif.Show

/-!
# When exactly the partial properties hold

For properties that the code meets only in part: on canonical operands, the condition under
which it meets them, as an equivalence.
-/

namespace Verif

variable {n m : Nat} {s t : Bool}

/-! ## C28, C29: sums and differences -/

/-- both signed, of 32 or 64 bits, and the result `r` not a number of that width -/
def Overflows (s t : Bool) (n : Nat) (r : Int) : Prop :=
  s = true ∧ t = true ∧ (n = 32 ∨ n = 64) ∧ (r < -2 ^ (n - 1) ∨ 2 ^ (n - 1) ≤ r)

/-- **C28, exactly.** `a + b` of canonical operands is right if and only if it is not the one
bit sum `1 + 1` and does not overflow a signed sum of 32 or 64 bits. -/
theorem C28_add_iff (hn : 0 < n) (x : Bits n s) (y : Bits n t) (hx : x.Clean) (hy : y.Clean) :
    (∃ z, x.add y = .ok z ∧ z.bv = x.bv + y.bv) ↔
      ¬ (n = 1 ∧ x.bv.toNat = 1 ∧ y.bv.toNat = 1) ∧ ¬ Overflows s t n (x.bv.toInt + y.bv.toInt) := by
  by_cases h1 : n = 1
  · subst h1
    obtain ⟨z, hz, e⟩ := C28_one_bit x y
    have hno : ¬ Overflows s t 1 (x.bv.toInt + y.bv.toInt) := by rintro ⟨-, -, h, -⟩; omega
    have key : (∃ z, x.add y = .ok z ∧ z.bv = x.bv + y.bv) ↔ x.bv ||| y.bv = x.bv + y.bv := by
      rw [hz]
      constructor
      · rintro ⟨w, hw, e'⟩; cases hw; rw [← e, e']
      · intro h; exact ⟨z, rfl, by rw [e, h]⟩
    rw [key]
    simp only [hno, not_false_eq_true, and_true, true_and]
    generalize x.bv = a, y.bv = b
    revert a b; decide
  · have h2 : 1 < n := by omega
    constructor
    · rintro ⟨z, hz, -⟩
      refine ⟨fun h => h1 h.1, ?_⟩
      rintro ⟨rfl, rfl, hn', ho⟩
      rw [C28_signed_overflow hn' x y hx hy ho] at hz
      cases hz
    · rintro ⟨-, ho⟩
      refine C28_add_partial h2 x y fun a b _ _ => ⟨hx, hy, fun hn' => ?_⟩
      by_contra hc
      exact ho ⟨a, b, hn', by omega⟩

/-- **C29, exactly.** `a - b` of canonical operands is right if and only if it does not
overflow a signed difference of 32 or 64 bits. -/
theorem C29_sub_iff (hn : 0 < n) (x : Bits n s) (y : Bits n t) (hx : x.Clean) (hy : y.Clean) :
    (∃ z, x.sub y = .ok z ∧ z.bv = x.bv - y.bv) ↔ ¬ Overflows s t n (x.bv.toInt - y.bv.toInt) := by
  constructor
  · rintro ⟨z, hz, -⟩ ⟨rfl, rfl, hn', ho⟩
    rw [C29_signed_overflow hn' x y hx hy ho] at hz
    cases hz
  · intro ho
    refine C29_sub_partial hn x y fun a b _ _ => ⟨hx, hy, fun hn' => ?_⟩
    by_contra hc
    exact ho ⟨a, b, hn', by omega⟩

example : Overflows true true 32 (2 ^ 31) ∧ ¬ Overflows true false 32 (2 ^ 31) := by
  constructor
  · exact ⟨rfl, rfl, .inl rfl, .inr (by decide)⟩
  · rintro ⟨-, h, -⟩; cases h

/-! ## C34, C35: signed division and negation -/

/-- **C34, exactly.** The quotient and the remainder of canonical signed native operands, the
divisor not zero, are right if and only if it is not the least number of 32 or 64 bits
divided by -1. -/
theorem C34_div_iff (h : n ≤ 64) (h1 : 1 < n) (x y : Bits n true) (hx : x.Clean) (hy : y.Clean)
    (hy0 : y.bv ≠ 0) :
    ((∃ q, x.div y = .ok q ∧ q.bv = BitVec.ofInt n (x.bv.toInt.tdiv y.bv.toInt)) ↔
      ¬ ((n = 32 ∨ n = 64) ∧ x.bv.toInt = -2 ^ (n - 1) ∧ y.bv.toInt = -1)) ∧
    ((∃ r, x.mod y = .ok r ∧ r.bv.toInt = x.bv.toInt.tmod y.bv.toInt) ↔
      ¬ ((n = 32 ∨ n = 64) ∧ x.bv.toInt = -2 ^ (n - 1) ∧ y.bv.toInt = -1)) := by
  by_cases hm : (n = 32 ∨ n = 64) ∧ x.bv.toInt = -2 ^ (n - 1) ∧ y.bv.toInt = -1
  · obtain ⟨e1, e2⟩ := C34_min_overflow hm.1 x y hx hy hm.2.1 hm.2.2
    rw [e1, e2]
    constructor <;> constructor
    · rintro ⟨q, hq, -⟩; cases hq
    · exact fun c => absurd hm c
    · rintro ⟨q, hq, -⟩; cases hq
    · exact fun c => absurd hm c
  · obtain ⟨⟨q, hq, eq, -⟩, ⟨r, hr, er⟩⟩ := C34_div_partial h h1 x y hx hy hy0
      (fun c => hm ⟨c.2.2, c.1, c.2.1⟩)
    exact ⟨⟨fun _ => hm, fun _ => ⟨q, hq, eq⟩⟩, ⟨fun _ => hm, fun _ => ⟨r, hr, er⟩⟩⟩

/-- `negate()` of the least signed number of 32 or 64 bits is undefined too -/
theorem negate_min_overflow (hn : n = 32 ∨ n = 64) (x : Bits n true) (hc : x.Clean)
    (hx : x.bv.toInt = -2 ^ (n - 1)) : x.negate = .error .overflow := by
  have h : n ≤ 64 := by omega
  have e := (Bits.clean_signed_bounds h (by omega) hc).1
  have ev : x.nv = ⟨holderTy n true, -2 ^ (n - 1)⟩ := by
    have e1 := x.nv_ty
    generalize x.nv = v at e e1
    cases v; simp only at e e1; rw [e, e1, hx]
  have : TV.add (TV.bnot x.nv) (TV.int 1) = .error .overflow := by
    rw [ev]; rcases hn with rfl | rfl <;> rfl
  rw [Bits.negate, dif_pos h, this]; rfl

/-- **C35, exactly.** Unary minus on canonical native operands and `negate()` on all canonical
operands are right if and only if the operand is not the least signed number of 32 or 64
bits. -/
theorem C35_neg_iff (hn : 0 < n) (x : Bits n s) (hx : x.Clean) :
    (∀ h : n ≤ 64, (∃ z, x.neg h = .ok z ∧ z.bv = - x.bv) ↔
      ¬ (s = true ∧ (n = 32 ∨ n = 64) ∧ x.bv.toInt = -2 ^ (n - 1))) ∧
    ((∃ z, x.negate = .ok z ∧ z.bv = - x.bv) ↔
      ¬ (s = true ∧ (n = 32 ∨ n = 64) ∧ x.bv.toInt = -2 ^ (n - 1))) := by
  refine ⟨fun h => ⟨?_, fun hm => (C35_neg_partial hn x (fun _ _ _ => hx) hm).1 h⟩,
    ⟨?_, fun hm => (C35_neg_partial hn x (fun _ _ _ => hx) hm).2⟩⟩
  · rintro ⟨z, hz, -⟩ ⟨rfl, hn', hm⟩
    rw [C35_min_overflow h hn' x hx hm] at hz
    cases hz
  · rintro ⟨z, hz, -⟩ ⟨rfl, hn', hm⟩
    rw [negate_min_overflow hn' x hx hm] at hz
    cases hz

/-- **C36, exactly.** `++` is right if and only if the operand is not the one bit 1. -/
theorem C36_inc_iff (hn : 0 < n) (x : Bits n s) :
    (∃ z, x.inc = .ok z ∧ z.bv = x.bv + 1 ∧ x.postInc = .ok (z, x)) ↔ ¬ (n = 1 ∧ x.bv.toNat = 1) := by
  by_cases h1 : n = 1
  · subst h1
    obtain ⟨z, hz, e⟩ := C36_one_bit x
    have hp : x.postInc = .ok (z, x) := by rw [Bits.postInc, hz]; rfl
    constructor
    · rintro ⟨w, hw, e', -⟩ ⟨-, h⟩
      rw [hz] at hw; cases hw
      rw [e] at e'
      have : x.bv = 1#1 := BitVec.eq_of_toNat_eq (by simpa using h)
      rw [this] at e'
      exact absurd e' (by decide)
    · intro h
      refine ⟨z, hz, ?_, hp⟩
      have : x.bv = 0#1 := by
        rcases Bits.bv_one_cases x with ⟨-, h'⟩ | ⟨-, h'⟩
        · exact h'
        · exact absurd ⟨rfl, by rw [h']; rfl⟩ h
      rw [e, this]; decide
  · exact ⟨fun _ h => h1 h.1, fun _ => C36_inc_partial (by omega) x⟩

/-! ## C38, C44, C45: operands of different signedness -/

/-- **C38 and C44 are false at every native width that is not that of a C++ type**: a signed
and an unsigned vector with the same bits, the top one set, are not equal and do not match,
either way round. -/
theorem C38_refuted_all (h : n ≤ 64) (hn : 0 < n) (hf : ¬ Full n) (x : Bits n true) (y : Bits n false)
    (hx : x.Clean) (hy : y.Clean) (hb : x.bv = y.bv) (hm : x.bv.msb = true) :
    x.eq y = false ∧ y.eq x = false ∧ x.matches' y = false ∧ y.matches' x = false := by
  obtain ⟨e1, -, m1, -⟩ := C38_eq_partial hn (by simp) x y hx hy
  obtain ⟨e2, -, m2, -⟩ := C38_eq_partial hn (by simp) y x hy hx
  have g1 : x.eq y = false := by
    rw [e1, decide_eq_false_iff_not]; rintro ⟨-, h | h | h | h⟩
    · cases h
    · exact hf h
    · rw [hm] at h; cases h
    · omega
  have g2 : y.eq x = false := by
    rw [e2, decide_eq_false_iff_not]; rintro ⟨-, h | h | h | h⟩
    · cases h
    · exact hf h
    · rw [← hb, hm] at h; cases h
    · omega
  exact ⟨g1, g2, by rw [m1, g1], by rw [m2, g2]⟩

/-- **C44 is false at every native width that is not that of a C++ type**: a signed 4-state
vector whose top value bit is set matches no unsigned one, not even one with the same bits. -/
theorem C44_refuted_all (h : n ≤ 64) (hn : 0 < n) (hf : ¬ Full n) (x : Lg n true) (y : Lg n false)
    (hx : x.Clean) (hy : y.Clean) (hm : x.value.bv.msb = true) :
    x.matches' y = false := by
  rw [(C44_match_partial hn (by simp) x y hx hy).1, decide_eq_false_iff_not]
  rintro ⟨-, h | h | h | h⟩
  · cases h
  · exact hf h
  · rw [hm] at h; cases h
  · omega

example : ¬ Full 12 ∧ (Bits.ofInt (-1) : Bits 12 true).Clean ∧ (Bits.ofInt 4095 : Bits 12 false).Clean ∧
    (Bits.ofInt (-1) : Bits 12 true).bv = (Bits.ofInt 4095 : Bits 12 false).bv ∧
    (Bits.ofInt (-1) : Bits 12 true).bv.msb = true := by decide +kernel

/-- **C45 is false at every native width**: every negative 2-state number is reported greater
than every known 4-state number below `2^(n-1)`. -/
theorem C45_refuted_all (h : n ≤ 64) (h1 : 1 < n) (x : Bits n true) (v : Lg n false) (hx : x.Clean) (hv : v.Clean)
    (hm : x.bv.msb = true) (hk : ∀ i, i < n → (v.at i).isKnown = true) (hs : v.value.bv.msb = false) :
    numOf true x.bv < numOf false v.value.bv ∧
    x.gtL v = .ok true ∧ x.geL v = .ok true ∧ x.ltL v = .ok false ∧ x.leL v = .ok false := by
  obtain ⟨g, l, ge, le⟩ := C45_mixed_exact h h1 x v hx hv
  have hle := le_hw h
  have hk' : decide (∀ i, i < n → (v.at i).isKnown = true) = true := decide_eq_true hk
  have b1 : v.value.bv.toNat < 2 ^ (n - 1) := by
    have := BitVec.msb_eq_decide v.value.bv
    rw [hs] at this
    simpa using this
  have b2 : 2 ^ (hw n - 1) ≤ (x.bv.signExtend (hw n)).toNat := by
    have e : (x.bv.signExtend (hw n)).msb = true := by
      rw [BitVec.msb_signExtend]
      have h0 : 0 < hw n := by omega
      split
      · rename_i hge
        have : n - hw n = 0 := by omega
        rw [this, ← BitVec.msb, hm]; simpa using h0
      · rw [hm]; simpa using h0
    rw [BitVec.msb_eq_decide] at e
    simpa using e
  have b3 : 2 ^ (n - 1) ≤ 2 ^ (hw n - 1) := Nat.pow_le_pow_right (by decide) (by omega)
  have b4 : numOf true x.bv < 0 := by
    have e : numOf true x.bv = x.bv.toInt := by simp [numOf]; omega
    rw [e]
    exact (neg_bounds x.bv hm).2
  have b5 : 0 ≤ numOf false v.value.bv := by simp [numOf]
  refine ⟨by omega, ?_, ?_, ?_, ?_⟩
  · rw [g, hk', decide_eq_true (by omega)]; rfl
  · rw [ge, hk', decide_eq_true (by omega)]; rfl
  · rw [l, hk', decide_eq_false (by omega)]; rfl
  · rw [le, hk', decide_eq_false (by omega)]; rfl

-- -1 > 5 for twelve bits
example : (Bits.ofInt (-1) : Bits 12 true).gtL (⟨Bits.ofInt 5, Bits.zero⟩ : Lg 12 false) = .ok true := by decide +kernel

/-! ## C59, C105, C107: x/z bits that are not seen -/

/-- **C59, exactly.** A 4-state object converts to 0 if it has an x or z that the emptiness
test sees, and otherwise to the number of its value plane. -/
theorem C59_logic_exact (x : Lg n s) (hx : x.xz.Clean) :
    (x.SeenXZ → x.toUint64 = 0 ∧ x.toNum = 0) ∧
    (¬ x.SeenXZ → x.toUint64 = x.value.toUint64 ∧ x.toNum = x.value.toNum) := by
  rw [← Lg.anySet_iff_seen hx, Lg.toUint64, Lg.toNum]
  constructor <;> intro h
  · rw [if_pos h, if_pos h]; exact ⟨rfl, rfl⟩
  · rw [if_neg h, if_neg h]; exact ⟨rfl, rfl⟩

/-- **C107, exactly.** `+x` is `x` itself unless it has an x or z that the emptiness test
sees; then it is all x. -/
theorem C107_plus_exact (hn : 0 < n) (x : Lg n s) (hx : x.xz.Clean) :
    (x.SeenXZ → ∃ z, x.pos = .ok z ∧ ∀ i, i < n → z.at i = .x) ∧ (¬ x.SeenXZ → x.pos = .ok x) := by
  refine ⟨(C107_plus_partial hn x).2, fun h => ?_⟩
  rw [← Lg.anySet_iff_seen hx] at h
  rw [Lg.pos, if_neg h]

/-- **C105, exactly.** With a 2-state right operand the six relational operators answer x, and
sums, differences and products are all x, if and only if the 4-state operand has an x or z
that the emptiness test sees. -/
theorem C105_x_iff (hn : 0 < n) (x : Lg n s) (y : Bits n s) (hx : x.xz.Clean) :
    (∀ r ∈ [x.eqBit y, x.neBit y, x.gtBit y, x.ltBit y, x.geBit y, x.leBit y],
      (∃ z, r = .ok z ∧ z.at 0 = .x) ↔ x.SeenXZ) ∧
    ((∃ z, x.addBit y = .ok z ∧ ∀ i, i < n → z.at i = .x) ↔ x.SeenXZ) ∧
    ((∃ z, x.subBit y = .ok z ∧ ∀ i, i < n → z.at i = .x) ↔ x.SeenXZ) ∧
    ((∃ z, x.mulBit y = .ok z ∧ ∀ i, i < n → z.at i = .x) ↔ x.SeenXZ) := by
  have hk := Lg.known_zero y
  have hz : ¬ (⟨y, Bits.zero⟩ : Lg n s).SeenXZ := by
    rintro ⟨i, hi, -, hc⟩; rw [hk.2 i hi] at hc; cases hc
  have h1 := C43_rel_x_iff x ⟨y, Bits.zero⟩ hx hk.1
  have h2 := C33_arith_x_iff hn x ⟨y, Bits.zero⟩ hx hk.1
  simp only [hz, or_false] at h1 h2
  refine ⟨?_, ?_⟩
  · simpa only [Lg.eqBit, Lg.neBit, Lg.gtBit, Lg.ltBit, Lg.geBit, Lg.leBit, Lg.withBit_self] using h1
  · simpa only [Lg.addBit, Lg.subBit, Lg.mulBit, Lg.withBit_self] using h2

/-! ## C92, C98, C104: native values made from integers -/

theorem conv_eq_iff {w : Nat} {sg : Bool} (a b : Int) :
    (CTy.int w sg).conv a = (CTy.int w sg).conv b ↔ (2 ^ w : Int) ∣ a - b := by
  have key : (CTy.int w sg).conv a = (CTy.int w sg).conv b ↔ a % (2 ^ w : Nat) = b % (2 ^ w : Nat) := by
    constructor
    · intro h; rw [← CTy.conv_mod (sg := sg) a, h, CTy.conv_mod]
    · intro h
      cases sg
      · exact h
      · show a.bmod (2 ^ w) = b.bmod (2 ^ w)
        rw [Int.bmod_def, Int.bmod_def, h]
  rw [key, Int.emod_eq_emod_iff_emod_sub_eq_zero, ← Int.dvd_iff_emod_eq_zero]
  norm_cast

/-- **C92, exactly.** `x = k` leaves a canonical `x` if and only if `k` differs from the number
that its low `n` bits denote by a multiple of `2^w`, `w` the width of the C++ type that holds
`x`. -/
theorem C92_clean_iff (h : n ≤ 64) (h1 : 1 < n) (k : TV) :
    (Bits.assignInt h k : Bits n s).Clean ↔ (2 ^ hw n : Int) ∣ k.v - numOf s (BitVec.ofInt n k.v) := by
  have hb : (Bits.assignInt h k : Bits n s).bv = BitVec.ofInt n k.v := Bits.bv_mkN h (by omega) k
  rw [Bits.clean_native h, hb, Bits.assignInt, Bits.nv_mkN]
  show (holderTy n s).conv k.v = _ ↔ _
  rw [← holder_numOf (s := s) h (BitVec.ofInt n k.v), holderTy_ge (by omega), conv_eq_iff,
    ← holderTy_ge (by omega), holder_numOf h]

/-- **C104, exactly.** The native value made from a `big_num` is canonical if and only if the
number in its lowest limb differs from the number that its low `n` bits denote by a multiple
of `2^w`, `w` the width of the C++ type that holds the result. -/
theorem C104_clean_iff (h : n ≤ 64) (h1 : 1 < n) (b : Big m t) :
    (Bits.ofBig h b : Bits n s).Clean ↔
      (2 ^ hw n : Int) ∣ (val b.vals % 2 ^ 64 : Nat) - numOf s (BitVec.ofNat n (val b.vals)) := by
  have hb := (C104_of_big_partial (s := s) h h1 b).1
  rw [Bits.clean_native h, hb, Bits.ofBig, Bits.nv_mkN, b.limb0_val]
  show (holderTy n s).conv _ = _ ↔ _
  rw [← holder_numOf (s := s) h (BitVec.ofNat n (val b.vals)), holderTy_ge (by omega), conv_eq_iff,
    ← holderTy_ge (by omega), holder_numOf h]

-- 65536 + 5 in twelve bits is canonical (16-bit holder), 4096 + 5 is not
example : (Bits.ofBig (by decide) (Big.ofU64 65541 : Big 70 false) : Bits 12 false).Clean ∧
    ¬ (Bits.ofBig (by decide) (Big.ofU64 4101 : Big 70 false) : Bits 12 false).Clean := by decide +kernel
example : (Bits.assignInt (by decide) ⟨tU64, 65541⟩ : Bits 12 false).Clean ∧
    ¬ (Bits.assignInt (by decide) ⟨tU64, 4101⟩ : Bits 12 false).Clean := by decide +kernel

/-- **C98, exactly.** `popcount()` counts the ones of the whole storage; it is the number of ones
of the vector if and only if no stored bit above the width is set. -/
theorem C98_popcount_exact (h : n ≤ 64) (x : Bits n false) :
    x.popcount = (List.range (hw n)).countP x.raw ∧
    (x.popcount = (List.range n).countP (fun i => x.bv.getLsbD i) ↔ ∀ i, n ≤ i → x.raw i = false) := by
  have hle := le_hw h
  have e : x.popcount = Bits.countOnes x.hold := by rw [← Bits.nat_hold h x]; rfl
  have e1 : x.popcount = (List.range (hw n)).countP x.raw := by
    rw [e, Bits.countOnes]
    apply List.countP_congr
    intro i _
    rw [Bits.raw_native h]
  refine ⟨e1, ?_⟩
  obtain ⟨d, hd⟩ := Nat.exists_eq_add_of_le hle
  have e2 : (List.range n).countP (fun i => x.bv.getLsbD i) = (List.range n).countP x.raw := by
    apply List.countP_congr
    intro i hi
    rw [Bits.getLsbD_bv]; simp [List.mem_range.1 hi]
  rw [e1, e2, hd, List.range_add, List.countP_append]
  constructor
  · intro h0 i hi
    have hz : ((List.range d).map (n + ·)).countP x.raw = 0 := by omega
    by_cases hin : i < hw n
    · rw [List.countP_eq_zero] at hz
      have := hz i (List.mem_map.2 ⟨i - n, List.mem_range.2 (by omega), by omega⟩)
      simpa using this
    · rw [Bits.raw_native h]; exact BitVec.getLsbD_of_ge _ _ (by omega)
  · intro h0
    have hz : ((List.range d).map (n + ·)).countP x.raw = 0 := by
      rw [List.countP_eq_zero]
      intro i hi
      obtain ⟨j, -, rfl⟩ := List.mem_map.1 hi
      rw [h0 _ (by omega)]; decide
    omega

-- twelve bits set to 4096 + 5: two ones, three are counted
example : (Bits.assignInt (by decide) ⟨tU64, 4101⟩ : Bits 12 false).popcount = 3 ∧
    (Bits.assignInt (by decide) ⟨tU64, 4101⟩ : Bits 12 false).bv = 5#12 := by decide +kernel

/-! ## C61: binary literals -/

/-- **C61, exactly.** A native binary literal of at most `n` digits is read right if and only if
no x or z digit is at position 32 or above; otherwise the constructor is undefined. -/
theorem C61_binary_iff (hn : 0 < n) (h64 : n ≤ 64) {pre mid body : List Char} {b : Char} (hb : b = 'b' ∨ b = 'B')
    (hl : LitOk pre mid b) (hc : ∀ c ∈ body, c ∈ binChars) (hd : (digitsOf body).length ≤ n) :
    (∃ z : Lg n s, Lg.ofString (lit pre mid b body) = .ok z ∧
      ∀ i, i < n → z.at i = match (digitsOf body)[i]? with
        | some '1' => .b1 | some 'x' => .x | some 'z' => .z | _ => .b0) ↔
      ∀ i c, (digitsOf body)[i]? = some c → c = 'x' ∨ c = 'z' → i < 32 := by
  constructor
  · rintro ⟨z, hz, -⟩ i c hi hxz
    by_contra hge
    rw [C61_refuted h64 hb hl hc hd ⟨i, c, hi, hxz, by omega⟩] at hz
    cases hz
  · intro hx
    obtain ⟨z, h1, -, h3, -⟩ := C61_binary_partial (s := s) hn h64 hb hl hc hd hx
    exact ⟨z, h1, h3⟩

-- an x at position 31 is read, one at position 32 is not
example : (∃ z : Lg 40 false, Lg.ofString ("40'bx".toList ++ List.replicate 31 '0') = .ok z ∧ z.at 31 = .x) ∧
    (Lg.ofString ("40'bx".toList ++ List.replicate 32 '0') : Res (Lg 40 false)) = .error .shift :=
  ⟨⟨_, rfl, by decide +kernel⟩, rfl⟩

end Verif
