import Verif.Props.CanonicalExact
import Verif.Props.Convert
import Verif.Props.Expr
import Verif.Lemmas.Concat
import Verif.Show

/-!
# Canonical form of signed native objects (C16)

A signed native object is canonical if the bits above its width are copies of the sign bit.
-/

namespace Verif

variable {n : Nat}

/-- a signed native object is canonical iff every stored bit above the width is the sign bit -/
theorem Bits.clean_signed_iff (h1 : 1 < n) (h : n ≤ 64) (x : Bits n true) :
    x.Clean ↔ ∀ i, n ≤ i → i < hw n → x.raw i = x.bv.msb := by
  have fwd : ∀ c : Bits n true, c.Clean → ∀ i, n ≤ i → i < hw n → c.raw i = c.bv.msb := by
    intro c hc i hi hi2
    have e := Bits.raw_mkN h h1 c.nv (s := true) i
    rw [Bits.mkN_nv, decide_eq_true hi2, Bool.true_and, Bits.ibit_clean h (by omega) hc, if_neg (by omega), decide_eq_true h1] at e
    rw [e, BitVec.msb_eq_getLsbD_last]; rfl
  refine ⟨fwd x, fun H => ?_⟩
  obtain ⟨c, hc, hb⟩ := Bits.exists_clean (s := true) x.bv
  have : x = c := by
    apply Bits.ext_raw
    intro i
    by_cases hi : i < n
    · have e1 := Bits.getLsbD_bv x i
      have e2 := Bits.getLsbD_bv c i
      rw [hb, e1, decide_eq_true hi, Bool.true_and, Bool.true_and] at e2
      exact e2
    · by_cases hi2 : i < hw n
      · rw [H i (by omega) hi2, fwd c hc i (by omega) hi2, hb]
      · rw [Bits.raw_native h, Bits.raw_native h, BitVec.getLsbD_of_ge _ _ (by omega), BitVec.getLsbD_of_ge _ _ (by omega)]
  rw [this]; exact hc

theorem Bits.msb_raw (h1 : 1 < n) {s : Bool} (x : Bits n s) : x.bv.msb = x.raw (n - 1) := by
  rw [BitVec.msb_eq_getLsbD_last, Bits.getLsbD_bv, decide_eq_true (by omega), Bool.true_and]

theorem Bits.raw_ge_hw (h : n ≤ 64) {s : Bool} (x : Bits n s) {i : Nat} (hi : hw n ≤ i) : x.raw i = false := by
  rw [Bits.raw_native h, BitVec.getLsbD_of_ge _ _ hi]

/-- an unsigned native object whose bits above the width all equal `c` -/
theorem Bits.clean_fill (h1 : 1 < n) (h : n ≤ 64) (z : Bits n false) (c : Bool) (hz : ∀ i, n ≤ i → i < hw n → z.raw i = c) :
    z.Clean ↔ Full n ∨ c = false := by
  rw [Bits.full_iff (by omega) h, Bits.clean_unsigned_iff]
  have hle := le_hw h
  constructor
  · intro H
    by_cases e : hw n = n
    · exact .inl e
    · exact .inr (by rw [← hz n le_rfl (by omega), H n le_rfl])
  · intro H i hi
    by_cases hi2 : i < hw n
    · rcases H with H | H
      · omega
      · rw [hz i hi hi2, H]
    · exact Bits.raw_ge_hw h z (by omega)

/-- **C16 for the bitwise operators on signed native objects, exactly.** `& | ^` of two signed operands are canonical. With an unsigned
right operand, whose result is unsigned, `&` is canonical, and `|` and `^` are if and only if the signed operand is not negative or the width is
that of a C++ type. `~`, whose result is unsigned, is canonical if and only if the operand is negative or the width is that of a C++ type. -/
theorem C16_signed_bitwise (h1 : 1 < n) (h : n ≤ 64) (x y : Bits n true) (u : Bits n false) (hx : x.Clean) (hy : y.Clean) (hu : u.Clean) :
    (x.and y).Clean ∧ (x.or y).Clean ∧ (x.xor y).Clean ∧
    (x.and u).Clean ∧ ((x.or u).Clean ↔ Full n ∨ x.bv.msb = false) ∧ ((x.xor u).Clean ↔ Full n ∨ x.bv.msb = false) ∧
    (x.not.Clean ↔ Full n ∨ x.bv.msb = true) := by
  have ex := (Bits.clean_signed_iff h1 h x).1 hx
  have ey := (Bits.clean_signed_iff h1 h y).1 hy
  have eu := (Bits.clean_unsigned_iff u).1 hu
  refine ⟨?_, ?_, ?_, ?_, ?_, ?_, ?_⟩
  · refine (Bits.clean_signed_iff h1 h (x.and y)).2 fun i hi hi2 => ?_
    have e1 := Bits.raw_and_native h x y i
    have e2 := Bits.raw_and_native h x y (n - 1)
    rw [Bits.msb_raw h1]
    rw [ex i hi hi2, ey i hi hi2, Bits.msb_raw h1, Bits.msb_raw h1] at e1
    exact e1.trans e2.symm
  · refine (Bits.clean_signed_iff h1 h (x.or y)).2 fun i hi hi2 => ?_
    have e1 := Bits.raw_or x y i
    have e2 := Bits.raw_or x y (n - 1)
    rw [Bits.msb_raw h1]
    rw [ex i hi hi2, ey i hi hi2, Bits.msb_raw h1, Bits.msb_raw h1] at e1
    exact e1.trans e2.symm
  · refine (Bits.clean_signed_iff h1 h (x.xor y)).2 fun i hi hi2 => ?_
    have e1 := Bits.raw_xor x y i
    have e2 := Bits.raw_xor x y (n - 1)
    rw [Bits.msb_raw h1]
    rw [ex i hi hi2, ey i hi hi2, Bits.msb_raw h1, Bits.msb_raw h1] at e1
    exact e1.trans e2.symm
  · refine (Bits.clean_unsigned_iff (x.and u)).2 fun i hi => ?_
    have e1 := Bits.raw_and_native h x u i
    rw [eu i hi] at e1
    exact e1.trans (Bool.and_false _)
  · refine Bits.clean_fill h1 h (x.or u) x.bv.msb fun i hi hi2 => ?_
    have e1 := Bits.raw_or x u i
    rw [eu i hi, ex i hi hi2, Bool.or_false] at e1
    exact e1
  · refine Bits.clean_fill h1 h (x.xor u) x.bv.msb fun i hi hi2 => ?_
    have e1 := Bits.raw_xor x u i
    rw [eu i hi, ex i hi hi2, Bool.xor_false] at e1
    exact e1
  · have := Bits.clean_fill h1 h x.not (!x.bv.msb) fun i hi hi2 => by
      rw [Bits.raw_not_native h (by omega) x hi2, ex i hi hi2]
    rw [this]
    cases x.bv.msb <;> simp

theorem bmod_fix_iff {k : Nat} (hk : 0 < k) (w : Int) : Int.bmod w (2 ^ k) = w ↔ -2 ^ (k - 1) ≤ w ∧ w < 2 ^ (k - 1) := by
  obtain ⟨j, rfl⟩ : ∃ j, k = j + 1 := ⟨k - 1, by omega⟩
  rw [Nat.add_sub_cancel]
  have e : ((2 ^ (j + 1) : Nat) : Int) = 2 * 2 ^ j := by push_cast; ring
  have hp : (0 : Int) < 2 ^ j := by positivity
  have l := Int.le_bmod (x := w) (m := 2 ^ (j + 1)) (by positivity)
  have r := Int.bmod_lt (x := w) (m := 2 ^ (j + 1)) (by positivity)
  rw [e] at l r
  constructor
  · intro h; rw [h] at l r; omega
  · rintro ⟨a, b⟩
    rw [Int.bmod_eq_of_le] <;> rw [e] <;> omega

/-- a signed native object made from a number is canonical iff the number, reduced to the C++ type, fits the width -/
theorem Bits.clean_mkN_signed (h1 : 1 < n) (h : n ≤ 64) (v : TV) : (Bits.mkN h v : Bits n true).Clean ↔
    -2 ^ (n - 1) ≤ Int.bmod v.v (2 ^ hw n) ∧ Int.bmod v.v (2 ^ hw n) < 2 ^ (n - 1) := by
  rw [Bits.clean_native h, Bits.nv_mkN, Bits.bv_mkN h (by omega), holderTy_ge (by omega)]
  show Int.bmod v.v (2 ^ hw n) = _ ↔ _
  rw [← bmod_fix_iff (by omega)]
  have e : numOf true (BitVec.ofInt n v.v) = Int.bmod (Int.bmod v.v (2 ^ hw n)) (2 ^ n) := by
    rw [numOf, if_pos (by simp; omega), BitVec.toInt_ofInt, Int.bmod_bmod_of_dvd]
    exact Nat.pow_dvd_pow 2 (le_hw h)
  rw [e]
  exact eq_comm

theorem Bits.arith_signed (h1 : 1 < n) (h : n ≤ 64) {f : Int → Int → Int} {x y : Bits n true} (hx : x.Clean) (hy : y.Clean) {v : TV}
    (hv : TV.arith f x.nv y.nv = .ok v) : v.v = f x.bv.toInt y.bv.toInt := by
  have hnum : ∀ b : BitVec n, numOf true b = b.toInt := fun b => by rw [numOf, if_pos (by simp; omega)]
  have ex := (Bits.clean_native h x).1 hx
  have ey := (Bits.clean_native h y).1 hy
  rw [hnum] at ex ey
  have cx := Bits.usual_conv_nv (t := true) h x (.inr rfl)
  have cy := Bits.usual_conv_nv (t := true) h y (.inr rfl)
  have hsg : (CTy.usual (holderTy n true) (holderTy n true)).signed = true := by
    obtain ⟨W, sg, e, -, hs⟩ := Bits.exists_usual n true true
    rw [e, hs]; simp [CTy.signed]
  simp only [TV.arith, Bits.nv_ty, cx, cy, hsg, Bool.true_and] at hv
  split_ifs at hv with hc
  injection hv with hv
  rw [← hv, ← ex, ← ey]
  simpa using hc

/-- **C16 for `+ - * /` on signed native objects, exactly.** Where the operation is defined, its result is canonical if and only if the exact result,
reduced to the C++ type (8, 16, 32 or 64 bits), fits the width. -/
theorem C16_signed_arith (h1 : 1 < n) (h : n ≤ 64) (x y : Bits n true) (hx : x.Clean) (hy : y.Clean) (z : Bits n true) (f : Int → Int → Int)
    (hz : (x.add y = .ok z ∧ f = (· + ·)) ∨ (x.sub y = .ok z ∧ f = (· - ·)) ∨ (x.mul y = .ok z ∧ f = (· * ·)) ∨
      (x.div y = .ok z ∧ f = Int.tdiv)) :
    let w := Int.bmod (f x.bv.toInt y.bv.toInt) (2 ^ (if n ≤ 8 then 8 else if n ≤ 16 then 16 else if n ≤ 32 then 32 else 64))
    z.Clean ↔ -2 ^ (n - 1) ≤ w ∧ w < 2 ^ (n - 1) := by
  have hh : hw n = (if n ≤ 8 then 8 else if n ≤ 16 then 16 else if n ≤ 32 then 32 else 64) := by
    simp only [hw]; split_ifs <;> omega
  rw [← hh]
  have key : ∀ g : Int → Int → Int, (TV.arith g x.nv y.nv).map (Bits.mkN h) = .ok z → (z.Clean ↔
      -2 ^ (n - 1) ≤ Int.bmod (g x.bv.toInt y.bv.toInt) (2 ^ hw n) ∧ Int.bmod (g x.bv.toInt y.bv.toInt) (2 ^ hw n) < 2 ^ (n - 1)) := by
    intro g hg
    cases hv : TV.arith g x.nv y.nv with
    | error e => rw [hv] at hg; cases hg
    | ok v =>
      rw [hv] at hg
      have e : Bits.mkN h v = z := by injection hg
      rw [← e, Bits.clean_mkN_signed h1 h, Bits.arith_signed h1 h hx hy hv]
  rcases hz with ⟨hz, rfl⟩ | ⟨hz, rfl⟩ | ⟨hz, rfl⟩ | ⟨hz, rfl⟩
  · rw [Bits.add, dif_pos h] at hz; exact key _ hz
  · rw [Bits.sub, dif_pos h] at hz; exact key _ hz
  · rw [Bits.mul, dif_pos h] at hz; exact key _ hz
  · rw [Bits.div, dif_pos h, TV.div] at hz
    split_ifs at hz
    · cases hz
    · exact key _ hz

/-- **C16 for sums and differences of signed native objects, exactly.** Where they are defined, they are canonical if and only if they
do not overflow the width or the width is that of a C++ type. -/
theorem C16_signed_sum_iff (h1 : 1 < n) (h : n ≤ 64) (x y : Bits n true) (hx : x.Clean) (hy : y.Clean) (z : Bits n true) :
    (x.add y = .ok z → (z.Clean ↔ Full n ∨ -2 ^ (n - 1) ≤ x.bv.toInt + y.bv.toInt ∧ x.bv.toInt + y.bv.toInt < 2 ^ (n - 1))) ∧
    (x.sub y = .ok z → (z.Clean ↔ Full n ∨ -2 ^ (n - 1) ≤ x.bv.toInt - y.bv.toInt ∧ x.bv.toInt - y.bv.toInt < 2 ^ (n - 1))) := by
  have hh : hw n = (if n ≤ 8 then 8 else if n ≤ 16 then 16 else if n ≤ 32 then 32 else 64) := by
    simp only [hw]; split_ifs <;> omega
  have hle := le_hw h
  have b := fun b : BitVec n => And.intro (BitVec.le_toInt (x := b)) (BitVec.toInt_lt (x := b))
  have bx := b x.bv
  have by' := b y.bv
  have key : ∀ v : Int, -2 * 2 ^ (n - 1) ≤ v → v < 2 * 2 ^ (n - 1) →
      ((-2 ^ (n - 1) ≤ Int.bmod v (2 ^ hw n) ∧ Int.bmod v (2 ^ hw n) < 2 ^ (n - 1)) ↔ Full n ∨ -2 ^ (n - 1) ≤ v ∧ v < 2 ^ (n - 1)) := by
    intro v l r
    rw [Bits.full_iff (by omega) h]
    rcases Nat.eq_or_lt_of_le hle with e | e
    · refine iff_of_true ?_ (.inl e.symm)
      rw [← e]
      exact (bmod_fix_iff (by omega) _).1 Int.bmod_bmod
    · have hp : (2 : Int) * 2 ^ (n - 1) ≤ 2 ^ (hw n - 1) := by
        rw [← pow_succ']; exact Bits.pow_mono (by omega)
      rw [(bmod_fix_iff (k := hw n) (by omega) v).2 (by omega)]
      constructor
      · exact .inr
      · rintro (h' | h')
        · omega
        · exact h'
  constructor
  · intro hz
    have := C16_signed_arith h1 h x y hx hy z _ (.inl ⟨hz, rfl⟩)
    rw [← hh] at this
    exact this.trans (key _ (by omega) (by omega))
  · intro hz
    have := C16_signed_arith h1 h x y hx hy z _ (.inr (.inl ⟨hz, rfl⟩))
    rw [← hh] at this
    exact this.trans (key _ (by omega) (by omega))

-- at 12 bits -1 + -2 is canonical and 2047 + 1 is not; ~(-1) is canonical and ~1 is not
example : (∃ z : Bits 12 true, (Bits.ofInt (-1) : Bits 12 true).add (Bits.ofInt (-2) : Bits 12 true) = .ok z ∧ z.Clean) ∧
    (∃ z : Bits 12 true, (Bits.ofInt 2047 : Bits 12 true).add (Bits.ofInt 1 : Bits 12 true) = .ok z ∧ ¬ z.Clean) ∧
    (Bits.ofInt (-1) : Bits 12 true).not.Clean ∧ ¬ (Bits.ofInt 1 : Bits 12 true).not.Clean :=
  ⟨⟨_, rfl, by decide +kernel⟩, ⟨_, rfl, by decide +kernel⟩, by decide +kernel, by decide +kernel⟩

end Verif
