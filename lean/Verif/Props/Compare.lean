import Verif.Lemmas.Compare
import Verif.Show

/-!
# Comparison (C38 - C46)

`x.bv` is the bit vector of an operand, `numOf s x.bv` the number it denotes with
signedness `s`.
-/

namespace Verif

variable {n m : Nat} {s t : Bool}

/-! ## C38: equality at equal width -/

/-- **C38, partial; the exact answer of `==`.** Equally wide clean operands are
equal exactly when their bits agree, except that operands of different signedness
whose width is not that of a C++ integer type and whose sign bit is set never
compare equal (`C38_refuted`). Two signed wide operands of one width do not
compile. -/
theorem C38_eq_partial (hn : 0 < n) (hc : ¬ (s = true ∧ t = true ∧ 64 < n)) (x : Bits n s) (y : Bits n t)
    (hx : x.Clean) (hy : y.Clean) :
    x.eq y = decide (x.bv = y.bv ∧ (s = t ∨ Full n ∨ x.bv.msb = false ∨ 64 < n)) ∧
    x.ne y = !x.eq y ∧ x.matches' y = x.eq y ∧ x.nmatches y = !x.eq y :=
  ⟨Bits.eq_clean hn hc hx hy, rfl, rfl, rfl⟩

/-- **C38** without exception for operands of the same signedness. -/
theorem C38_eq_same_sign (hn : 0 < n) (hc : ¬ (s = true ∧ 64 < n)) (x y : Bits n s)
    (hx : x.Clean) (hy : y.Clean) : x.eq y = true ↔ ∀ i, i < n → x.bv.getLsbD i = y.bv.getLsbD i := by
  rw [Bits.eq_clean hn (by rintro ⟨h, _, h'⟩; exact hc ⟨h, h'⟩) hx hy, decide_eq_true_iff]
  simp only [true_or, and_true]
  constructor
  · intro h i _; rw [h]
  · exact fun h => BitVec.eq_of_getLsbD_eq h

/-- **C38 is false as stated**: the 4-bit patterns 1111 of a signed and an
unsigned object are not equal. -/
theorem C38_refuted : ∃ (x : Bits 4 true) (y : Bits 4 false), x.Clean ∧ y.Clean ∧ x.bv = y.bv ∧
    x.eq y = false ∧ y.eq x = false :=
  ⟨Bits.ofInt (-1), Bits.ofInt 15, by decide +kernel, by decide +kernel, by decide +kernel,
    by decide +kernel, by decide +kernel⟩

example : (Bits.ofInt (-1) : Bits 8 true).eq (Bits.ofInt 255 : Bits 8 false) = true := by decide +kernel
example : (Bits.ofInt 5 : Bits 70 false).eq (Bits.ofInt 5 : Bits 70 false) = true := by decide +kernel
example : (Bits.ofInt 5 : Bits 70 false).eq ((Bits.ofInt 5 : Bits 70 false).set (Rng.down 70) 69 true).toOption.get! =
  false := by decide +kernel

/-! ## C39: equality at different widths -/

/-- **C39, partial.** Native operands: the right operand is first reduced to the
holder type of the left one, so `==` is numeric equality when the right number
fits. Missing: numbers that do not fit, for which it is false (`C39_eq_native_exact`,
`C39_refuted`). -/
theorem C39_eq_native_partial (hn : 0 < n) (h : n ≤ 64) (hm : m ≤ 64) (x : Bits n false) (y : Bits m false)
    (hx : x.Clean) (hy : y.Clean) (hfit : y.bv.toNat < 2 ^ hw n) :
    x.eq y = decide (x.bv.toNat = y.bv.toNat) := by
  by_cases h1 : 1 < n
  · rw [Bits.eq_unsigned_native h h1 hm hx hy, Nat.mod_eq_of_lt hfit]
  · have e : n = 1 := by omega
    subst e
    rw [Bits.eq_unsigned_one hm hx hy]
    have : y.bv.toNat < 2 := hfit
    rw [Nat.min_eq_right (by omega)]

/-- **C39, the exact native answer**: reduction modulo the holder for more than
one bit, conversion to `bool` for one bit. -/
theorem C39_eq_native_exact (hn : 0 < n) (h : n ≤ 64) (hm : m ≤ 64) (x : Bits n false) (y : Bits m false)
    (hx : x.Clean) (hy : y.Clean) :
    x.eq y = decide (x.bv.toNat = if n = 1 then min 1 y.bv.toNat else y.bv.toNat % 2 ^ hw n) := by
  by_cases h1 : n = 1
  · subst h1
    rw [Bits.eq_unsigned_one hm hx hy, if_pos rfl]
  · rw [Bits.eq_unsigned_native h (by omega) hm hx hy, if_neg h1]

/-- **C39** for a wide and a native operand, in both orders. -/
theorem C39_eq_wide_native (h : 64 < n) (hm : m ≤ 64) (x : Bits n false) (y : Bits m false)
    (hx : x.Clean) (hy : y.Clean) :
    x.eq y = decide (x.bv.toNat = y.bv.toNat) ∧ y.eq x = decide (y.bv.toNat = x.bv.toNat) :=
  Bits.eq_wide_native (by omega) hm hx hy

/-- **C39, partial.** Two wide operands: numeric equality when the limb counts
agree, or when every non-zero limb has a one in its lower half. Missing: other contents, for which
it is false (`C39_wide_exact`, `C39_wide_refuted_all`). -/
theorem C39_eq_wide_partial (h : 64 < n) (hm : 64 < m) (x : Bits n s) (y : Bits m t)
    (hst : (s && t) = false) (hx : x.Clean) (hy : y.Clean)
    (hv : limbs n = limbs m ∨ LowHalves x.bv ∧ LowHalves y.bv) :
    x.eq y = decide (x.bv.toNat = y.bv.toNat) :=
  Bits.eq_wide_visible (by omega) (by omega) hst hx hy hv

/-- **C39 is false as stated**: the 8-bit 1 equals the 16-bit 257, but not the
other way round. -/
theorem C39_refuted : ∃ (x : Bits 8 false) (y : Bits 16 false), x.Clean ∧ y.Clean ∧
    x.bv.toNat ≠ y.bv.toNat ∧ x.eq y = true ∧ y.eq x = false :=
  ⟨Bits.ofInt 1, Bits.ofInt 257, by decide +kernel, by decide +kernel, by decide +kernel,
    by decide +kernel, by decide +kernel⟩

/-- **C39 is false for wide operands**: 2^160 in 161 bits equals 0 in 65 bits. -/
theorem C39_wide_refuted : ∃ (x : Bits 161 false) (y : Bits 65 false), x.Clean ∧ y.Clean ∧
    x.bv.toNat ≠ y.bv.toNat ∧ x.eq y = true ∧ y.eq x = true :=
  ⟨((Bits.zero : Bits 161 false).set (Rng.down 161) 160 true).toOption.get!, Bits.zero, by decide +kernel,
    by decide +kernel, by decide +kernel, by decide +kernel, by decide +kernel⟩

example : (Bits.ofInt 200 : Bits 8 false).eq (Bits.ofInt 200 : Bits 12 false) = true := by decide +kernel
example : (Bits.ofInt 200 : Bits 100 false).eq (Bits.ofInt 200 : Bits 12 false) = true := by decide +kernel
example : (Bits.ofInt 200 : Bits 100 false).eq (Bits.ofInt 200 : Bits 300 false) = true := by decide +kernel

/-! ## C40: unsigned order -/

/-- **C40 for `>` and `<`**: all clean unsigned operands stored alike. -/
theorem C40_gt_lt (hs : n ≤ 64 ↔ m ≤ 64) (x : Bits n false) (y : Bits m false) (hx : x.Clean)
    (hy : y.Clean) :
    x.gt y = .ok (decide (y.bv.toNat < x.bv.toNat)) ∧ x.lt y = .ok (decide (x.bv.toNat < y.bv.toNat)) := by
  by_cases h : n ≤ 64
  · have hm := hs.1 h
    obtain ⟨h1, h2, _⟩ := Bits.order_native h hm x y
    rw [h1, h2, Bits.clean_unsigned_num h hx, Bits.clean_unsigned_num hm hy]
    norm_cast
  · exact Bits.order_wide h (by omega) rfl hx hy

/-- **C40 for `>=` and `<=`, partial.** Missing: wide operands of different limb
counts with a non-zero limb whose lower half is zero (`C40_refuted`). -/
theorem C40_ge_le_partial (hs : n ≤ 64 ↔ m ≤ 64) (x : Bits n false) (y : Bits m false) (hx : x.Clean)
    (hy : y.Clean) (hv : 64 < n → limbs n = limbs m ∨ LowHalves x.bv ∧ LowHalves y.bv) :
    x.ge y = .ok (decide (y.bv.toNat ≤ x.bv.toNat)) ∧ x.le y = .ok (decide (x.bv.toNat ≤ y.bv.toNat)) := by
  by_cases h : n ≤ 64
  · have hm := hs.1 h
    obtain ⟨_, _, h1, h2⟩ := Bits.order_native h hm x y
    rw [h1, h2, Bits.clean_unsigned_num h hx, Bits.clean_unsigned_num hm hy]
    norm_cast
  · exact Bits.order_eq_wide h (by omega) rfl hx hy (hv (by omega))

/-- **C40 is false as stated**: 2^160 <= 0. -/
theorem C40_refuted : ∃ (x : Bits 161 false) (y : Bits 65 false), x.Clean ∧ y.Clean ∧
    y.bv.toNat < x.bv.toNat ∧ x.le y = .ok true ∧ y.ge x = .ok true :=
  ⟨((Bits.zero : Bits 161 false).set (Rng.down 161) 160 true).toOption.get!, Bits.zero, by decide +kernel,
    by decide +kernel, by decide +kernel, by decide +kernel, by decide +kernel⟩

/-- Between a native left and a wide right operand every order operator flows off
the end of its function. -/
theorem C40_mixed_storage (h : n ≤ 64) (hm : 64 < m) (x : Bits n s) (y : Bits m t) :
    x.gt y = .error .noReturn ∧ x.lt y = .error .noReturn ∧ x.ge y = .error .noReturn ∧
    x.le y = .error .noReturn := by
  have : ¬ m ≤ 64 := by omega
  refine ⟨?_, ?_, ?_, ?_⟩
  · rw [Bits.gt, dif_pos h, if_neg this]
  · rw [Bits.lt, dif_pos h, if_neg this]
  · rw [Bits.ge, dif_pos h, if_neg this]
  · rw [Bits.le, dif_pos h, if_neg this]

example : (Bits.ofInt 200 : Bits 8 false).gt (Bits.ofInt 199 : Bits 12 false) = .ok true := by decide +kernel
example : (Bits.ofInt 200 : Bits 100 false).le (Bits.ofInt 199 : Bits 300 false) = .ok false := by decide +kernel

/-! ## C41: signed order, native widths -/

/-- **C41.** -/
theorem C41_signed_order (h : n ≤ 64) (hm : m ≤ 64) (x : Bits n true) (y : Bits m true) (hx : x.Clean)
    (hy : y.Clean) :
    x.gt y = .ok (decide (numOf true y.bv < numOf true x.bv)) ∧
    x.lt y = .ok (decide (numOf true x.bv < numOf true y.bv)) ∧
    x.ge y = .ok (decide (numOf true y.bv ≤ numOf true x.bv)) ∧
    x.le y = .ok (decide (numOf true x.bv ≤ numOf true y.bv)) := by
  rw [← (Bits.clean_native h x).1 hx, ← (Bits.clean_native hm y).1 hy]
  exact Bits.order_native h hm x y

example : (Bits.ofInt (-3) : Bits 5 true).lt (Bits.ofInt 2 : Bits 33 true) = .ok true := by decide +kernel

/-! ## C42: signed order, wide -/

/-- **C42, partial.** Holds unless both operands are negative and one of them is
the least number. Missing: those cases, where the answer is wrong or the
comparison does not end (`C42_least`). -/
theorem C42_signed_wide_partial (h : 64 < n) (x y : Bits n true) (hx : x.Clean) (hy : y.Clean)
    (hmin : x.bv.msb = true → y.bv.msb = true → x.bv ≠ BitVec.intMin n ∧ y.bv ≠ BitVec.intMin n) :
    x.gt y = .ok (decide (y.bv.toInt < x.bv.toInt)) ∧ x.lt y = .ok (decide (x.bv.toInt < y.bv.toInt)) := by
  have hn : ¬ n ≤ 64 := by omega
  rw [Bits.clean_big hn] at hx hy
  rw [Bits.bv_big hn x, Bits.bv_big hn y] at hmin ⊢
  constructor
  · rw [Bits.gt, dif_neg hn, dif_neg hn]
    exact Big.gt_signed (by omega) hx hy hmin
  · rw [Bits.lt, dif_neg hn, dif_neg hn, Big.lt]
    exact Big.gt_signed (by omega) hy hx fun a b => (hmin b a).symm

/-- **C42, the excluded cases**, for every wide width: the least number is
reported greater than every other negative number, no negative number is reported
greater than it, and comparing it with itself recurses for ever (with any amount
of fuel). -/
theorem C42_least (h : 64 < n) (x y : Bits n true) :
    (x.bv = BitVec.intMin n → y.bv.msb = true → y.bv ≠ BitVec.intMin n → x.gt y = .ok true) ∧
    (x.bv.msb = true → x.bv ≠ BitVec.intMin n → y.bv = BitVec.intMin n → x.gt y = .ok false) ∧
    (x.bv = BitVec.intMin n → y.bv = BitVec.intMin n →
      ∀ fuel, Big.gtS fuel (x.bg (by omega)) (y.bg (by omega)) = .error .diverge) := by
  have hn : ¬ n ≤ 64 := by omega
  have hp : 0 < n := by omega
  have hm : (BitVec.intMin n).msb = true := by rw [BitVec.msb_intMin]; simpa using hp
  have e : ∀ u v : Bits n true, u.gt v = (u.bg hn).gt (v.bg hn) := by
    intro u v; rw [Bits.gt, dif_neg hn, dif_neg hn]
  rw [e, Bits.bv_big hn x, Bits.bv_big hn y]
  refine ⟨fun h1 h2 h3 => ?_, fun h1 h2 h3 => ?_, fun h1 h2 => ?_⟩
  · exact (Big.gt_min hp (by rw [h1]; exact hm) h2).1 h1 h3
  · exact (Big.gt_min hp h1 (by rw [h3]; exact hm)).2.1 h2 h3
  · exact (Big.gt_min hp (by rw [h1]; exact hm) (by rw [h2]; exact hm)).2.2 h1 h2

/-- the least number of `n` bits (`n` wide), built with the library's `set` -/
def leastWide (n : Nat) : Bits n true := ((Bits.zero : Bits n true).set (Rng.down n) (n - 1) true).toOption.get!

/-- **C42 is false as stated.** -/
theorem C42_refuted : ∃ (x y : Bits 70 true), x.Clean ∧ y.Clean ∧ x.bv.toInt < y.bv.toInt ∧
    x.gt y = .ok true ∧ y.gt x = .ok false ∧ x.gt x = .error .diverge :=
  ⟨leastWide 70, ((leastWide 70).set (Rng.down 70) 3 true).toOption.get!, by decide +kernel, by decide +kernel,
    by decide +kernel, by decide +kernel, by decide +kernel, by decide +kernel⟩

-- two negative numbers, -2^69 + 8 and -2^69 + 1
example : (((leastWide 70).set (Rng.down 70) 3 true).toOption.get!).gt
    (((leastWide 70).set (Rng.down 70) 0 true).toOption.get!) = .ok true := by decide +kernel
example : (((leastWide 70).set (Rng.down 70) 3 true).toOption.get!).bv.toInt = -2 ^ 69 + 8 := by decide +kernel

/-! ## C43: 4-state relational operators -/

/-- **C43, known operands**: the 2-state answer as a known bit. -/
theorem C43_rel_known (x : Lg n s) (y : Lg m t) (hx : x.Known) (hy : y.Known) (b : Bool) :
    ((x.value.eq y.value = b → ∃ z, x.eq y = .ok z ∧ z.at 0 = V4.ofBool b) ∧
    (x.value.ne y.value = b → ∃ z, x.ne y = .ok z ∧ z.at 0 = V4.ofBool b)) ∧
    (x.value.gt y.value = .ok b → ∃ z, x.gt y = .ok z ∧ z.at 0 = V4.ofBool b) ∧
    (x.value.lt y.value = .ok b → ∃ z, x.lt y = .ok z ∧ z.at 0 = V4.ofBool b) ∧
    (x.value.ge y.value = .ok b → ∃ z, x.ge y = .ok z ∧ z.at 0 = V4.ofBool b) ∧
    (x.value.le y.value = .ok b → ∃ z, x.le y = .ok z ∧ z.at 0 = V4.ofBool b) := by
  have key : ∀ f : Bits n s → Bits m t → Res Bool, f x.value y.value = .ok b →
      ∃ z, Lg.relWith f x y = .ok z ∧ z.at 0 = V4.ofBool b := by
    intro f hf
    refine ⟨Lg.known1 b, ?_, by cases b <;> decide⟩
    rw [Lg.relWith, hx.anySet, hy.anySet, hf]; rfl
  exact ⟨⟨fun h => key _ (by rw [← h]), fun h => key _ (by rw [← h])⟩, key _, key _, key _, key _⟩

/-- **C43, x/z operands, partial.** A single x when an operand holds x/z at a
position that the emptiness test sees. Missing: wide operands whose x/z bits all
lie in upper halves of limbs (`C43_wide_refuted`). -/
theorem C43_rel_x_partial (x : Lg n s) (y : Lg m t) (h : x.SeenXZ ∨ y.SeenXZ) :
    ∀ r ∈ [x.eq y, x.ne y, x.gt y, x.lt y, x.ge y, x.le y], ∃ z, r = .ok z ∧ z.at 0 = .x := by
  have key : ∀ f : Bits n s → Bits m t → Res Bool, Lg.relWith f x y = .ok Lg.x1 := by
    intro f
    have : (x.xz.anySet || y.xz.anySet) = true := by
      rcases h with ⟨i, h1, h2, h3⟩ | ⟨i, h1, h2, h3⟩
      · rw [Lg.anySet_of_unknown h1 h2 h3]; rfl
      · rw [Lg.anySet_of_unknown h1 h2 h3]; simp
    rw [Lg.relWith, this]; rfl
  intro r hr
  refine ⟨Lg.x1, ?_, Lg.x1_at⟩
  simp only [List.mem_cons, List.not_mem_nil, or_false] at hr
  rcases hr with rfl | rfl | rfl | rfl | rfl | rfl <;> exact key _

/-- **C43 for native operands**: any x/z bit makes all six operators x. -/
theorem C43_rel_x_native (hn : n ≤ 64) (hm : m ≤ 64) (x : Lg n s) (y : Lg m t)
    (h : (∃ i, i < n ∧ (x.at i).isKnown = false) ∨ (∃ i, i < m ∧ (y.at i).isKnown = false)) :
    ∀ r ∈ [x.eq y, x.ne y, x.gt y, x.lt y, x.ge y, x.le y], ∃ z, r = .ok z ∧ z.at 0 = .x := by
  apply C43_rel_x_partial
  rcases h with ⟨i, h1, h2⟩ | ⟨i, h1, h2⟩
  · exact Or.inl ⟨i, h1, Or.inl hn, h2⟩
  · exact Or.inr ⟨i, h1, Or.inl hm, h2⟩

/-- **C43 is false for wide operands**: an x at bit 40 of 70 is not noticed, the
comparison answers 1. -/
theorem C43_wide_refuted : ∃ (x y : Lg 70 false), (x.at 40) = .x ∧ x.Clean ∧ y.Clean ∧
    ∃ z, x.eq y = .ok z ∧ z.at 0 = .b1 :=
  ⟨((Lg.ofInt 5 : Lg 70 false).setX (Rng.down 70) 40).toOption.get!, Lg.ofInt 5, by decide +kernel,
    by decide +kernel, by decide +kernel, Lg.one1, by decide +kernel, by decide +kernel⟩

example : Lg.bits ((Lg.ofInt 5 : Lg 8 false).lt (Lg.ofInt 6 : Lg 9 false)) = some [.b1] := by decide +kernel
example : Lg.bits ((((Lg.ofInt 5 : Lg 8 false).setZ (Rng.down 8) 7).toOption.get!).lt (Lg.ofInt 6 : Lg 9 false)) =
  some [.x] := by decide +kernel

/-! ## C44: case equality -/

theorem V4.mk_inj {a b c d : Bool} : V4.mk a b = V4.mk c d ↔ a = c ∧ b = d := by
  cases a <;> cases b <;> cases c <;> cases d <;> decide

/-- **C44, partial; the exact answer.** Missing: operands of different signedness
in a width that is not that of a C++ integer type, with the sign bit of the value
plane set (`C44_refuted`). -/
theorem C44_match_partial (hn : 0 < n) (hc : ¬ (s = true ∧ t = true ∧ 64 < n)) (x : Lg n s) (y : Lg n t)
    (hx : x.Clean) (hy : y.Clean) :
    x.matches' y = decide ((∀ i, i < n → x.at i = y.at i) ∧
      (s = t ∨ Full n ∨ x.value.bv.msb = false ∨ 64 < n)) ∧
    x.nmatches y = !x.matches' y := by
  refine ⟨?_, rfl⟩
  rw [Lg.matches', Bits.eq_clean hn hc hx.1 hy.1, Bits.eq_clean hn (by simp) hx.2 hy.2]
  rw [Bool.eq_iff_iff, Bool.and_eq_true, decide_eq_true_iff, decide_eq_true_iff, decide_eq_true_iff]
  simp only [true_or, and_true]
  constructor
  · rintro ⟨⟨h1, h2⟩, h3⟩
    exact ⟨fun i _ => by rw [Lg.at, Lg.at, h1, h3], h2⟩
  · rintro ⟨h1, h2⟩
    refine ⟨⟨BitVec.eq_of_getLsbD_eq fun i hi => ?_, h2⟩, BitVec.eq_of_getLsbD_eq fun i hi => ?_⟩
    · exact (V4.mk_inj.1 (h1 i hi)).1
    · exact (V4.mk_inj.1 (h1 i hi)).2

/-- **C44 is false as stated** for a signed against an unsigned 4-bit value. -/
theorem C44_refuted : ∃ (x : Lg 4 true) (y : Lg 4 false), x.Clean ∧ y.Clean ∧
    (∀ i, i < 4 → x.at i = y.at i) ∧ x.matches' y = false :=
  ⟨Lg.ofInt (-1), Lg.ofInt 15, by decide +kernel, by decide +kernel, by decide +kernel, by decide +kernel⟩

example : ((Lg.ofInt 5 : Lg 8 false).setZ (Rng.down 8) 7).toOption.get!.matches'
    ((Lg.ofInt 5 : Lg 8 false).setX (Rng.down 8) 7).toOption.get! = false := by decide +kernel
example : ((Lg.ofInt 5 : Lg 80 false).setZ (Rng.down 80) 7).toOption.get!.matches'
    ((Lg.ofInt 5 : Lg 80 false).setZ (Rng.down 80) 7).toOption.get! = true := by decide +kernel

/-! ## C45: 2-state against 4-state -/

theorem Lg.anySet_xz_native (h : n ≤ 64) {v : Lg n s} (hv : v.Clean) :
    v.xz.anySet = !decide (∀ i, i < n → (v.at i).isKnown = true) := by
  rw [Bits.anySet_native h hv.2]
  by_cases e : v.xz.bv = 0
  · have : ∀ i, i < n → (v.at i).isKnown = true := by
      intro i _; rw [Lg.at, e, isKnown_mk]; simp
    rw [decide_eq_true this]; simp [e]
  · have : ¬ ∀ i, i < n → (v.at i).isKnown = true := by
      intro H
      apply e
      apply BitVec.eq_of_getLsbD_eq
      intro i hi
      have := H i hi
      rw [Lg.at, isKnown_mk] at this
      simpa using this
    rw [decide_eq_false this, Bool.not_false, decide_eq_true_iff]; exact e

theorem Lg.relWith_num (h : n ≤ 64) {v : Lg n t} (hv : v.Clean) {x : Bits n s}
    (f : Bits n t → Bits n t → Res Bool) (b : Bool) (hf : f v.value (x.toSign t) = .ok b) :
    (Lg.relWith f v (Lg.ofBits x : Lg n t)).map (fun l => l.toNum != 0) =
      .ok (decide (∀ i, i < n → (v.at i).isKnown = true) && b) := by
  have e : (Lg.ofBits x : Lg n t).value = x.toSign t := rfl
  have e2 : (Lg.ofBits x : Lg n t).xz.anySet = false := Bits.anySet_false_of fun i => Bits.raw_zero i
  rw [Lg.relWith, e, e2, Bool.or_false, Lg.anySet_xz_native h hv, hf]
  cases decide (∀ i, i < n → (v.at i).isKnown = true)
  · simp only [Bool.not_false, if_true, Bool.false_and]
    show Except.ok _ = _
    congr 1
  · simp only [Bool.not_true, Bool.false_eq_true, if_false, Bool.true_and]
    show Except.ok ((Lg.known1 b).toNum != 0) = _
    cases b <;> (congr 1)

/-- The four comparisons of a native 2-state with a 4-state value in terms of the
converted 2-state operand. -/
theorem Bits.relL (h : n ≤ 64) (x : Bits n s) (v : Lg n t) (hst : convertible s t = true) (hv : v.Clean) :
    x.gtL v = .ok (decide (∀ i, i < n → (v.at i).isKnown = true) && decide (numOf t v.value.bv < (x.toSign t).nv.v)) ∧
    x.ltL v = .ok (decide (∀ i, i < n → (v.at i).isKnown = true) && decide ((x.toSign t).nv.v < numOf t v.value.bv)) ∧
    x.geL v = .ok (decide (∀ i, i < n → (v.at i).isKnown = true) && decide (numOf t v.value.bv ≤ (x.toSign t).nv.v)) ∧
    x.leL v = .ok (decide (∀ i, i < n → (v.at i).isKnown = true) && decide ((x.toSign t).nv.v ≤ numOf t v.value.bv)) := by
  obtain ⟨h1, h2, h3, h4⟩ := Bits.order_native h h v.value (x.toSign t)
  rw [(Bits.clean_native h _).1 hv.1] at h1 h2 h3 h4
  rw [Bits.gtL, Bits.ltL, Bits.geL, Bits.leL, hst]
  exact ⟨Lg.relWith_num h hv _ _ h2, Lg.relWith_num h hv _ _ h1, Lg.relWith_num h hv _ _ h4,
    Lg.relWith_num h hv _ _ h3⟩

/-- **C45, partial.** Holds for operands of the same signedness. Missing: a signed
2-state operand against an unsigned 4-state one (`C45_refuted`, `C45_mixed_exact`).
The fourth combination does not compile. -/
theorem C45_bit_logic_partial (h : n ≤ 64) (x : Bits n s) (v : Lg n s) (hx : x.Clean) (hv : v.Clean) :
    x.gtL v = .ok (decide (∀ i, i < n → (v.at i).isKnown = true) && decide (numOf s v.value.bv < numOf s x.bv)) ∧
    x.ltL v = .ok (decide (∀ i, i < n → (v.at i).isKnown = true) && decide (numOf s x.bv < numOf s v.value.bv)) ∧
    x.geL v = .ok (decide (∀ i, i < n → (v.at i).isKnown = true) && decide (numOf s v.value.bv ≤ numOf s x.bv)) ∧
    x.leL v = .ok (decide (∀ i, i < n → (v.at i).isKnown = true) && decide (numOf s x.bv ≤ numOf s v.value.bv)) := by
  have e : x.toSign s = x := by rw [Bits.toSign, dif_pos h, Bits.mkN_nv]
  have := Bits.relL h x v (by cases s <;> rfl) hv
  rwa [e, (Bits.clean_native h x).1 hx] at this

/-- **C45, mixed signedness, exactly.** A signed 2-state operand meets an unsigned
4-state one as its sign extension to the storage width, read without sign. -/
theorem C45_mixed_exact (h : n ≤ 64) (h1 : 1 < n) (x : Bits n true) (v : Lg n false) (hx : x.Clean) (hv : v.Clean) :
    x.gtL v = .ok (decide (∀ i, i < n → (v.at i).isKnown = true) &&
      decide (v.value.bv.toNat < (x.bv.signExtend (hw n)).toNat)) ∧
    x.ltL v = .ok (decide (∀ i, i < n → (v.at i).isKnown = true) &&
      decide ((x.bv.signExtend (hw n)).toNat < v.value.bv.toNat)) ∧
    x.geL v = .ok (decide (∀ i, i < n → (v.at i).isKnown = true) &&
      decide (v.value.bv.toNat ≤ (x.bv.signExtend (hw n)).toNat)) ∧
    x.leL v = .ok (decide (∀ i, i < n → (v.at i).isKnown = true) &&
      decide ((x.bv.signExtend (hw n)).toNat ≤ v.value.bv.toNat)) := by
  have e : (x.toSign false).nv.v = ((x.bv.signExtend (hw n)).toNat : Int) := by
    rw [Bits.toSign, dif_pos h, Bits.nv_mkN, (Bits.clean_native h x).1 hx]
    have e1 : numOf true x.bv = x.bv.toInt := by simp [numOf, h1]
    show (holderTy n false).conv _ = _
    rw [e1, holderTy_ge (by omega), BitVec.signExtend, BitVec.toNat_ofInt]
    show x.bv.toInt % 2 ^ hw n = _
    rw [Int.toNat_of_nonneg (Int.emod_nonneg _ (by positivity))]
    norm_cast
  have := Bits.relL h x v rfl hv
  simpa only [e, numOf, Bool.false_and, Bool.false_eq_true, if_false, Nat.cast_lt, Nat.cast_le] using this

/-- **C45 is false for mixed signedness**: the signed `-1` and the unsigned 15 have
the same four bits and -1 is the smaller number, but `-1 > 15`. -/
theorem C45_refuted : ∃ (x : Bits 4 true) (v : Lg 4 false), x.Clean ∧ v.Clean ∧ v.Known ∧
    x.bv = v.value.bv ∧ numOf true x.bv < numOf false v.value.bv ∧ x.gtL v = .ok true :=
  ⟨Bits.ofInt (-1), Lg.ofInt 15, by decide +kernel, by decide +kernel, by decide +kernel, by decide +kernel,
    by decide +kernel, by decide +kernel⟩

example : (Bits.ofInt 200 : Bits 8 false).gtL (Lg.ofInt 1 : Lg 8 false) = .ok true := by decide +kernel
example : (Bits.ofInt 200 : Bits 8 false).gtL ((Lg.ofInt 1 : Lg 8 false).setX (Rng.down 8) 7).toOption.get! =
  .ok false := by decide +kernel

/-! ## C46: order and equality cohere -/

/-- exactly one of three answers is true -/
def ExactlyOne (a b c : Bool) : Prop :=
  (a = true ∧ b = false ∧ c = false) ∨ (a = false ∧ b = true ∧ c = false) ∨ (a = false ∧ b = false ∧ c = true)

/-- **C46, partial**: the same signedness, the right operand not wider. Missing:
different signedness (`C46_refuted`, `C46_mixed`) and a wider right operand
(`C39_refuted`). -/
theorem C46_trichotomy_partial (hn : 0 < n) (h : n ≤ 64) (hm : m ≤ n) (hm0 : 0 < m) (x : Bits n s) (y : Bits m s)
    (hx : x.Clean) (hy : y.Clean) :
    ∃ a b, x.lt y = .ok a ∧ x.gt y = .ok b ∧ ExactlyOne a (x.eq y) b := by
  have hm' : m ≤ 64 := by omega
  obtain ⟨h1, h2, _⟩ := Bits.order_native h hm' x y
  refine ⟨_, _, h2, h1, ?_⟩
  have hc : (holderTy n s).conv y.nv.v = y.nv.v := by
    have cy := (Bits.clean_native hm' y).1 hy
    have hb := Bits.numOf_bounds (s := s) hm0 y.bv
    rw [← cy] at hb
    by_cases hone : n ≤ 1
    · rw [holderTy_one hone, CTy.conv]
      have : m = 1 := by omega
      subst this
      simp at hb
      split_ifs <;> omega
    · rw [holderTy_ge hone]
      have hl := le_hw h
      have hp : (2 : Int) ^ m ≤ 2 ^ hw n := Bits.pow_mono (by omega)
      have hp1 : (2 : Int) ^ (m - 1) ≤ 2 ^ (hw n - 1) := Bits.pow_mono (by omega)
      cases s with
      | false =>
        simp at hb
        exact CTy.conv_unsigned_of_lt hb.1 (by omega)
      | true =>
        apply CTy.conv_signed_of_mem (hw_pos n)
        · split_ifs at hb
          · omega
          · have : (0 : Int) < 2 ^ (hw n - 1) := by positivity
            omega
        · split_ifs at hb with hq
          · omega
          · simp at hq
            have : m = 1 := by omega
            subst this
            have : (2 : Int) ^ 1 ≤ 2 ^ (hw n - 1) := Bits.pow_mono (by have := hw_ge_eight hone; omega)
            omega
  rw [Bits.eq_native h hm', hc]
  simp only [ExactlyOne, decide_eq_true_iff, decide_eq_false_iff_not]
  omega

theorem Bits.u64_of_clean (hn : 0 < n) (h : n ≤ 64) {x : Bits n s} (hx : x.Clean) :
    tU64.conv x.nv.v = if s = true ∧ x.bv.msb = true ∧ 1 < n then (x.bv.toNat : Int) - 2 ^ n + 2 ^ 64 else (x.bv.toNat : Int) := by
  have bx : (x.bv.toNat : Int) < 2 ^ n := by exact_mod_cast x.bv.isLt
  have hp : (2 : Int) ^ n ≤ 2 ^ 64 := Bits.pow_mono h
  rw [(Bits.clean_native h x).1 hx, numOf, Big.toInt_eq]
  have e : ((2 ^ 64 : Nat) : Int) = 2 ^ 64 := by norm_cast
  cases s
  · simp only [Bool.false_and, Bool.false_eq_true, if_false, false_and]
    exact tU64_conv_of (by omega) (by omega)
  · by_cases h1 : n ≤ 1
    · simp only [h1, decide_true, Bool.not_true, Bool.and_false, Bool.false_eq_true, if_false,
        show ¬ 1 < n by omega, and_false]
      exact tU64_conv_of (by omega) (by omega)
    · simp only [h1, decide_false, Bool.not_false, Bool.and_true, if_true, true_and, show 1 < n by omega, and_true]
      split_ifs
      · rw [CTy.conv, e, ← Int.add_emod_right]
        exact Int.emod_eq_of_lt (by omega) (by omega)
      · exact tU64_conv_of (by omega) (by omega)

/-- **C46 for different signedness, equal widths**: exactly one answer, except in
the widths 8, 16 and 32 for equal bits with the sign bit set, where `==` and one of
`<`, `>` are both true. -/
theorem C46_mixed (hn : 0 < n) (h : n ≤ 64) (hst : s ≠ t) (x : Bits n s) (y : Bits n t) (hx : x.Clean) (hy : y.Clean) :
    ∃ a b, x.lt y = .ok a ∧ x.gt y = .ok b ∧
      if (n = 8 ∨ n = 16 ∨ n = 32) ∧ x.bv = y.bv ∧ x.bv.msb = true then x.eq y = true ∧ a = t ∧ b = s
      else ExactlyOne a (x.eq y) b := by
  have hand : (s && t) = false := by cases s <;> cases t <;> simp at hst ⊢
  have bx : (x.bv.toNat : Int) < 2 ^ n := by exact_mod_cast x.bv.isLt
  have by' : (y.bv.toNat : Int) < 2 ^ n := by exact_mod_cast y.bv.isLt
  have hp : (2 : Int) ^ n ≤ 2 ^ 64 := Bits.pow_mono h
  have ux := Bits.u64_of_clean hn h hx
  have uy := Bits.u64_of_clean hn h hy
  have rx := CTy.conv_unsigned_mem (w := 64) x.nv.v
  have ry := CTy.conv_unsigned_mem (w := 64) y.nv.v
  have key : ∀ f, Bits.cmpNat (TV.cmp f) x y = f (tU64.conv x.nv.v) (tU64.conv y.nv.v) := by
    intro f
    rw [Bits.cmpNat, if_neg (by simp [hand])]
    exact Bits.cmp_u64 f rx.1 rx.2 ry.1 ry.2
  have e1 : x.lt y = .ok (decide (tU64.conv x.nv.v < tU64.conv y.nv.v)) := by
    rw [Bits.lt, dif_pos h, if_pos h, TV.lt, key]
  have e2 : x.gt y = .ok (decide (tU64.conv y.nv.v < tU64.conv x.nv.v)) := by
    rw [Bits.gt, dif_pos h, if_pos h, TV.gt, key]
  have e3 := Bits.eq_clean hn (show ¬ (s = true ∧ t = true ∧ 64 < n) by omega) hx hy
  have hinj : x.bv = y.bv ↔ (x.bv.toNat : Int) = y.bv.toNat := by
    constructor
    · intro h; rw [h]
    · intro h; exact BitVec.eq_of_toNat_eq (by exact_mod_cast h)
  have mx : x.bv.msb = true ↔ 2 ^ n ≤ 2 * (x.bv.toNat : Int) := by
    rw [BitVec.msb_eq_decide, decide_eq_true_iff]
    have : 2 ^ n = 2 * 2 ^ (n - 1) := by rw [← pow_succ']; congr 1; omega
    rw [show ((2 : Int) ^ n) = ((2 ^ n : Nat) : Int) by norm_cast, this]
    omega
  have my : y.bv.msb = true ↔ 2 ^ n ≤ 2 * (y.bv.toNat : Int) := by
    rw [BitVec.msb_eq_decide, decide_eq_true_iff]
    have : 2 ^ n = 2 * 2 ^ (n - 1) := by rw [← pow_succ']; congr 1; omega
    rw [show ((2 : Int) ^ n) = ((2 ^ n : Nat) : Int) by norm_cast, this]
    omega
  refine ⟨_, _, e1, e2, ?_⟩
  rw [e3, ux, uy]
  have h64 : n < 64 → 2 * (2 : Int) ^ n ≤ 2 ^ 64 := by
    intro h; rw [← pow_succ']; exact Bits.pow_mono h
  have hne : ¬ n = 64 → n < 64 := by omega
  have hpow : n = 64 → (2 : Int) ^ n = 2 ^ 64 := by intro h; rw [h]
  by_cases hc : (n = 8 ∨ n = 16 ∨ n = 32) ∧ x.bv = y.bv ∧ x.bv.msb = true
  · rw [if_pos hc]
    obtain ⟨h1, h2, h3⟩ := hc
    have h3' : y.bv.msb = true := by rw [← h2]; exact h3
    have := h64 (by omega)
    have hlt : 1 < n := by omega
    have hF : Full n := by rw [Full]; omega
    have hxy := hinj.1 h2
    have g1 : x.bv = y.bv ∧ (s = t ∨ Full n ∨ x.bv.msb = false ∨ 64 < n) := ⟨h2, Or.inr (Or.inl hF)⟩
    rw [decide_eq_true g1, h3, h3']
    cases s <;> cases t <;> simp [hlt] at hst ⊢ <;> omega
  · rw [if_neg hc]
    simp only [ExactlyOne, decide_eq_true_iff, decide_eq_false_iff_not, hst, false_or, show ¬ 64 < n by omega,
      or_false, Full, hinj]
    have bxf : x.bv.msb = false ↔ ¬ 2 ^ n ≤ 2 * (x.bv.toNat : Int) := by rw [← mx]; simp
    rw [hinj, mx] at hc
    rw [bxf]
    simp only [mx, my]
    cases s <;> cases t <;> first | exact absurd rfl hst | skip
    · simp only [Bool.false_eq_true, false_and, if_false, true_and]
      by_cases n1 : n = 1
      · subst n1; simp; omega
      · by_cases n64 : n = 64
        · subst n64; split_ifs <;> omega
        · have := h64 (hne n64)
          split_ifs <;> omega
    · simp only [Bool.false_eq_true, false_and, if_false, true_and]
      by_cases n1 : n = 1
      · subst n1; simp; omega
      · by_cases n64 : n = 64
        · subst n64; split_ifs <;> omega
        · have := h64 (hne n64)
          split_ifs <;> omega

/-- **C46 is false as stated**: the signed 8-bit -1 is both equal to and greater
than the unsigned 255. -/
theorem C46_refuted : ∃ (x : Bits 8 true) (y : Bits 8 false), x.Clean ∧ y.Clean ∧ x.eq y = true ∧
    x.gt y = .ok true ∧ y.lt x = .ok true ∧ y.eq x = true :=
  ⟨Bits.ofInt (-1), Bits.ofInt 255, by decide +kernel, by decide +kernel, by decide +kernel, by decide +kernel,
    by decide +kernel, by decide +kernel⟩

example : ∃ a b, (Bits.ofInt (-3) : Bits 5 true).lt (Bits.ofInt 2 : Bits 4 true) = .ok a ∧
    (Bits.ofInt (-3) : Bits 5 true).gt (Bits.ofInt 2 : Bits 4 true) = .ok b ∧ a = true ∧ b = false :=
  ⟨true, false, by decide +kernel, by decide +kernel, rfl, rfl⟩

end Verif
