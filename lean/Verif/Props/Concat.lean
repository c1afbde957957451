import Verif.Props.Slice
import Verif.Props.Compare
import Verif.Lemmas.Concat

/-!
# Concatenation and unpacking (C52 - C54)

`concat` compiles only for a total width below 64 (`bit.hh` 276).
-/

namespace Verif

variable {n m : Nat} {s t : Bool}

/-! ## C52 -/

/-- **C52, exact**, for a total width that fits the promoted type of the left operand
(32 bits, or 64 when the left operand is wider than 32): the low bits are the right
operand; the high bits are the left operand, all ones if the right operand is a
negative signed value. -/
theorem C52_concat_exact (hn : 0 < n) (hm : 0 < m) (h64 : n + m < 64) (hW : n + m ≤ 32 ∨ 32 < n)
    (x : Bits n s) (y : Bits m t) (hx : x.Clean) (hy : y.Clean) :
    ∃ z, x.concat y h64 = .ok z ∧ ∀ i, i < n + m → z.bv.getLsbD i =
      if i < m then y.bv.getLsbD i
      else (x.bv.getLsbD (i - m) || (t && decide (1 < m) && y.bv.getLsbD (m - 1))) := by
  have hW' : n + m ≤ max 32 (hw n) := by
    rcases hW with h | h
    · omega
    · have : hw n = 64 := by simp only [hw]; repeat' split
                             all_goals omega
      omega
  obtain ⟨z, hz, hr⟩ := Bits.concat_bits hn hm h64 x y hW'
  have hle := le_hw (Nat.le_of_lt h64)
  refine ⟨z, hz, fun i hi => ?_⟩
  have h1 : i < hw (n + m) := by omega
  rw [Bits.getLsbD_bv, hr, Bits.ibit_clean (by omega) hm hy, Bits.ibit_clean (by omega) hn hx]
  by_cases him : i < m
  · have : ¬ m ≤ i := by omega
    simp [hi, h1, him, this]
  · have h2 : m ≤ i := by omega
    have h3 : i - m < n := by omega
    simp [hi, h1, him, h2, h3]

/-- **C52 for unsigned operands** whose total width fits the promoted type of the left
one: canonical, low bits `y`, high bits `x`. Missing: other widths (`C52_truncated_exact`,
`C52_refuted`) and signed operands (`C52_concat_exact`). -/
theorem C52_concat_partial (hn : 0 < n) (hm : 0 < m) (h64 : n + m < 64) (hW : n + m ≤ 32 ∨ 32 < n)
    (x : Bits n false) (y : Bits m false) (hx : x.Clean) (hy : y.Clean) :
    ∃ z, x.concat y h64 = .ok z ∧ z.Clean ∧ z.bv = x.bv ++ y.bv := by
  have hW' : n + m ≤ max 32 (hw n) := by
    rcases hW with h | h
    · omega
    · have : hw n = 64 := by simp only [hw]; repeat' split
                             all_goals omega
      omega
  obtain ⟨z, hz, hr⟩ := Bits.concat_bits hn hm h64 x y hW'
  obtain ⟨z', hz', hb⟩ := C52_concat_exact hn hm h64 hW x y hx hy
  rw [hz] at hz'
  injection hz' with hz'
  subst hz'
  refine ⟨z, hz, (Bits.clean_unsigned_iff _).2 fun i hi => ?_, ?_⟩
  · rw [hr, Bits.ibit_clean (by omega) hm hy, Bits.ibit_clean (by omega) hn hx, if_neg (by omega), if_neg (by omega)]
    simp
  · apply BitVec.eq_of_getLsbD_eq
    intro i hi
    rw [hb i hi, BitVec.getLsbD_append]
    by_cases him : i < m
    · simp [him]
    · simp [him]

/-- **C52, 4-state** (unsigned operands, same widths as above). Missing: other widths and a negative
right operand, for which it is false (`C52_refuted`). -/
theorem C52_concat_logic_partial (hn : 0 < n) (hm : 0 < m) (h64 : n + m < 64) (hW : n + m ≤ 32 ∨ 32 < n)
    (x : Lg n false) (y : Lg m false) (hx : x.Clean) (hy : y.Clean) :
    ∃ z, x.concat y h64 = .ok z ∧ z.Clean ∧
      ∀ i, i < n + m → z.at i = if i < m then y.at i else x.at (i - m) := by
  obtain ⟨v, hv, hvc, hvb⟩ := C52_concat_partial hn hm h64 hW x.value y.value hx.1 hy.1
  obtain ⟨k, hk, hkc, hkb⟩ := C52_concat_partial hn hm h64 hW x.xz y.xz hx.2 hy.2
  have hs : v.toSign false = v := by
    apply Bits.Clean.ext _ hvc (Bits.bv_toSign v)
    rw [Bits.clean_unsigned_iff] at hvc ⊢
    intro i hi
    rw [Bits.raw_toSign]; exact hvc i hi
  refine ⟨⟨v, k⟩, ?_, ⟨hvc, hkc⟩, fun i hi => ?_⟩
  · rw [Lg.concat, hv, res_bind_ok, hk, res_map_ok, hs]
  · rw [Lg.at, hvb, hkb, BitVec.getLsbD_append, BitVec.getLsbD_append]
    by_cases him : i < m
    · simp [him, Lg.at]
    · simp [him, Lg.at]

example : ((Bits.ofInt 5 : Bits 3 false).concat (Bits.ofInt 9 : Bits 4 false) (by decide)).map (·.bv) =
    .ok 0b1011001#7 := by decide +kernel

/-- **C52 is false of the code.**
1. With a left operand of at most 32 bits and a right one of 32 or more, the shift is
   undefined behaviour for all values.
2. 20 bits with 20 bits loses the high bits of the left operand: all ones with 0
   gives zeros above bit 31.
3. A negative signed right operand overwrites the left one: 4-bit 0 with 4-bit signed
   -1 gives 11111111.
4. `logic.concat(bit)` does not shift the x/z plane: 2-bit xx with 2-bit 11 gives 00zz. -/
theorem C52_refuted :
    (∀ (n m : Nat) (h : n + m < 64) (x : Bits n false) (y : Bits m false), n ≤ 32 → 32 ≤ m →
      x.concat y h = .error .shift) ∧
    (((Bits.ofInt (2 ^ 20 - 1) : Bits 20 false).concat (Bits.zero : Bits 20 false) (by decide)).map
      (·.bv) = .ok 0x00fff00000#40) ∧
    (((Bits.zero : Bits 4 false).concat (Bits.ofInt (-1) : Bits 4 true) (by decide)).map (·.bv) = .ok 0xff#8) ∧
    ((Lg.dflt : Res (Lg 2 false)).bind (fun x => x.concatBit (Bits.ofInt 3 : Bits 2 false) (by decide))).map
      (fun z => (List.range 4).map z.at) = .ok [.z, .z, .b0, .b0] := by
  refine ⟨fun n m h x y hn hm => ?_, by decide +kernel, by decide +kernel, by decide +kernel⟩
  apply Bits.concat_fault h x y _ hm
  have := hw_mono hn
  simpa [hw] using this

/-! ## C53 -/

theorem Bits.slice_down (hs : s = false ∨ 64 < n) (x : Bits n s) (a b : Nat) (ha : a < n) (hb : b < n)
    (h65 : max a b - min a b ≠ 64) :
    ∃ z, x.slice (Rng.down n) a b = .ok z ∧ z.Clean ∧
      ∀ i, i ≤ max a b - min a b → z.bv.getLsbD i = x.bv.getLsbD (min a b + i) := by
  rcases hs with h | h
  · subst h; exact C49_slice x a b ha hb h65
  · by_cases h0 : s = true
    · subst h0; exact C50_slice_wide h x a b h65
    · rw [Bool.not_eq_true] at h0
      subst h0; exact C49_slice x a b ha hb h65

theorem Lg.assignPlane_eq {k w : Nat} (h : k = w) (b : Bits k false) (t : Bool) :
    ∃ z : Bits w t, Lg.assignPlane b = .ok z ∧ (∀ i, z.raw i = b.raw i) := by
  subst h
  refine ⟨b.toSign t, ?_, fun i => Bits.raw_toSign b i⟩
  rw [Lg.assignPlane, dif_pos rfl]

theorem Lg.unpackOne_down (hs : s = false ∨ 64 < n) (x : Lg n s) {base w : Nat} (hw0 : 0 < w) (hw1 : w ≠ 65)
    (hb : base + w ≤ n) (t : Bool) :
    ∃ y : Lg w t, x.unpackOne (Rng.down n) base w t = .ok y ∧ (∀ i, i < w → y.at i = x.at (base + i)) ∧
      (t = false → y.Clean) := by
  have hub : min (n - 1) (w + base - 1) = w + base - 1 := by omega
  obtain ⟨v, hv, hvc, hvb⟩ := Bits.slice_down hs x.value base (min (n - 1) (w + base - 1)) (by omega) (by omega) (by omega)
  obtain ⟨k, hk, hkc, hkb⟩ := C49_slice x.xz base (min (n - 1) (w + base - 1)) (by omega) (by omega) (by omega)
  obtain ⟨v', hv', hvr⟩ := Lg.assignPlane_eq (w := w) (by omega) v t
  obtain ⟨k', hk', hkr⟩ := Lg.assignPlane_eq (w := w) (by omega) k false
  refine ⟨⟨v', k'⟩, ?_, fun i hi => ?_, ?_⟩
  · rw [Lg.unpackOne, if_pos (by omega)]
    simp only
    rw [hv, res_bind_ok, hv', res_bind_ok, hk, res_bind_ok, hk', res_map_ok]
  · have h1 := (hvb i (by omega)).trans (congrArg x.value.bv.getLsbD (show _ = base + i by omega))
    have h2 := (hkb i (by omega)).trans (congrArg x.xz.bv.getLsbD (show _ = base + i by omega))
    rw [Bits.getLsbD_bv v] at h1
    rw [Bits.getLsbD_bv k] at h2
    rw [Lg.at, Lg.at, Bits.getLsbD_bv v', hvr, Bits.getLsbD_bv k', hkr, ← h1, ← h2]
    have e2 : i < max base (min (n - 1) (w + base - 1)) - min base (min (n - 1) (w + base - 1)) + 1 := by omega
    rw [decide_eq_true hi, decide_eq_true e2]
  · intro ht
    subst ht
    rw [Lg.Clean, Bits.clean_unsigned_iff, Bits.clean_unsigned_iff]
    rw [Bits.clean_unsigned_iff] at hvc hkc
    exact ⟨fun i hi => by rw [hvr]; exact hvc i (by omega), fun i hi => by rw [hkr]; exact hkc i (by omega)⟩

/-- total width of a list of fields -/
def total (ws : List (Nat × Bool)) : Nat := (ws.map Prod.fst).sum

theorem total_append (a b : List (Nat × Bool)) : total (a ++ b) = total a + total b := by
  simp [total]

theorem total_reverse (a : List (Nat × Bool)) : total a.reverse = total a := by
  simp [total, List.sum_reverse]

/-- `y` holds the bits of `x` from `off` on -/
def Lg.Field (x : Lg n s) (off : Nat) (y : Lg.Target) : Prop :=
  (∀ i, i < y.1.1 → y.2.at i = x.at (off + i)) ∧ (y.1.2 = false → y.2.Clean)

theorem Lg.unpackFrom_down (hs : s = false ∨ 64 < n) (x : Lg n s) : ∀ (ws : List (Nat × Bool)) (base : Nat),
    (∀ w ∈ ws, 0 < w.1 ∧ w.1 ≠ 65) → base + total ws ≤ n →
    ∃ ys, x.unpackFrom (Rng.down n) base ws = .ok ys ∧ ys.map Sigma.fst = ws ∧
      ∀ j (hj : j < ys.length), x.Field (base + total (ws.take j)) ys[j] := by
  intro ws
  induction ws with
  | nil => intro base _ _; exact ⟨[], rfl, rfl, fun j hj => absurd hj (by simp)⟩
  | cons w ws ih =>
    obtain ⟨w, t⟩ := w
    intro base h0 hle
    have htot : total ((w, t) :: ws) = w + total ws := by simp [total]
    rw [htot] at hle
    obtain ⟨y, hy, hyb, hyc⟩ := Lg.unpackOne_down hs x (h0 (w, t) (by simp)).1 (h0 (w, t) (by simp)).2 (base := base) (by omega) t
    obtain ⟨ys, hys, hmap, hf⟩ := ih (base + w) (fun v hv => h0 v (by simp [hv])) (by omega)
    refine ⟨⟨(w, t), y⟩ :: ys, ?_, by simp [hmap], fun j hj => ?_⟩
    · rw [Lg.unpackFrom, hy, res_bind_ok, hys, res_map_ok]
    · rcases j with _ | j
      · exact ⟨by simpa [total] using hyb, hyc⟩
      · have := hf j (by simpa using hj)
        rw [List.take_succ_cons, show total ((w, t) :: ws.take j) = w + total (ws.take j) by simp [total],
          ← Nat.add_assoc]
        exact this

/-- **C53 for descending `[n-1:0]` values**, unsigned of any width or signed and wider
than 64: argument `j` receives the bits from the total width of the arguments after
it. Arguments of 65 bits do not compile (`C49_65_bits`). Missing: ascending ranges (`C53_refuted`)
and native signed values (`C53_signed_exact`, `C53_signed_refuted`); more bits asked for than there
are is `C53_excess`. -/
theorem C53_unpack_partial (hs : s = false ∨ 64 < n) (hn : 0 < n) (x : Lg n s) (ws : List (Nat × Bool))
    (h0 : ∀ w ∈ ws, 0 < w.1 ∧ w.1 ≠ 65) (hle : (ws.map Prod.fst).sum ≤ n) :
    ∃ ys, x.unpack (Rng.down n) ws = .ok ys ∧ ys.map Sigma.fst = ws ∧
      ∀ j (hj : j < ys.length),
        (∀ i, i < ys[j].1.1 → ys[j].2.at i = x.at (((ws.drop (j + 1)).map Prod.fst).sum + i)) ∧
        (ys[j].1.2 = false → ys[j].2.Clean) := by
  obtain ⟨ys, hys, hmap, hf⟩ := Lg.unpackFrom_down hs x ws.reverse 0 (fun w hw => h0 w (by simpa using hw))
    (by rw [total_reverse]; simpa [total] using hle)
  refine ⟨ys.reverse, ?_, by rw [List.map_reverse, hmap, List.reverse_reverse], fun j hj => ?_⟩
  · have hbe : (Rng.down n).bigEndian = true := by simp [Rng.down, Rng.bigEndian]; omega
    have hl : (Rng.down n).lsb.toNat = 0 := rfl
    rw [Lg.unpack, if_pos hbe, hl, hys, res_map_ok]
  · rw [List.length_reverse] at hj
    have hlen : ys.length = ws.length := by rw [← List.length_map (f := Sigma.fst), hmap, List.length_reverse]
    rw [List.getElem_reverse]
    have := hf (ys.length - 1 - j) (by omega)
    have e : 0 + total (ws.reverse.take (ys.length - 1 - j)) = ((ws.drop (j + 1)).map Prod.fst).sum := by
      rw [List.take_reverse, total_reverse, Nat.zero_add, show ws.length - (ys.length - 1 - j) = j + 1 by omega]
      rfl
    rw [e] at this
    exact this

example : ((Lg.ofInt 0b10110100 : Lg 8 false).unpack (Rng.down 8) [(2, false), (3, true), (1, false)]).map
    (fun ys => ys.map fun y => (List.range y.1.1).map y.2.at) =
    .ok [[.b1, .b1], [.b0, .b1, .b0], [.b0]] := by decide +kernel

/-- **C53 is false of the code** for native signed values whose top field reaches the
top of the holder (undefined shift, for every value), and for ascending ranges: a
value declared `[0:7]` starts at its low bound 7 and the second field does not
compile. -/
theorem C53_refuted :
    (∀ (x : Lg 8 true), x.unpack (Rng.down 8) [(8, true)] = .error .shift) ∧
    (∀ (x : Lg 8 false), x.unpack ⟨0, 7⟩ [(4, false), (4, false)] = .error .illFormed) := by
  constructor
  · intro x
    have h := C50_refuted.1 8 x.value 0 (by decide) (by decide)
    have hs : Bits.slice (Rng.down 8) x.value 0 7 = .error .shift :=
      (Bits.slice_native (by decide) (by decide) (Rng.down 8) x.value (a := 0) (b := 7) (by decide) (p := 0)
        (q := 7) (by decide) (by decide) (by decide)).2 (by decide)
    have h1 : x.unpackOne (Rng.down 8) 0 8 true = .error .shift := by
      rw [Lg.unpackOne, if_pos (by decide)]
      show Except.bind (x.value.slice (Rng.down 8) 0 7) _ = _
      rw [hs]; rfl
    show (x.unpackFrom (Rng.down 8) 0 [(8, true)]).map List.reverse = _
    rw [Lg.unpackFrom, h1]; rfl
  · intro x
    show x.unpackFrom ⟨0, 7⟩ 7 [(4, false), (4, false)] = _
    have h1 : ∃ y, x.unpackOne ⟨0, 7⟩ 7 4 false = .ok y := by
      obtain ⟨v, hv, _⟩ := Bits.slice_native_unsigned (by decide) ⟨0, 7⟩ x.value (a := 7) (b := 7) (p := 7) (q := 7)
        (by decide) (by decide) (by decide)
      obtain ⟨k, hk, _⟩ := Bits.slice_native_unsigned (by decide) ⟨0, 7⟩ x.xz (a := 7) (b := 7) (p := 7) (q := 7)
        (by decide) (by decide) (by decide)
      refine ⟨⟨Bits.mkN (by decide) v.nv, Bits.mkN (by decide) k.nv⟩, ?_⟩
      rw [Lg.unpackOne, if_pos (by decide)]
      show Except.bind (x.value.slice ⟨0, 7⟩ 7 7) _ = _
      rw [hv, res_bind_ok]
      show Except.bind (x.xz.slice ⟨0, 7⟩ 7 7) _ = _
      rw [hk]; rfl
    obtain ⟨y, hy⟩ := h1
    rw [Lg.unpackFrom, hy]
    rfl

/-! ## C54 -/

/-- Two canonical unsigned 4-state values with the same bits are the same object. -/
theorem Lg.Clean.ext' {x y : Lg n false} (hx : x.Clean) (hy : y.Clean)
    (h : ∀ i, i < n → x.at i = y.at i) : x = y := by
  have hv : x.value = y.value := by
    apply Bits.Clean.ext hx.1 hy.1
    apply BitVec.eq_of_getLsbD_eq
    intro i hi
    exact (V4.mk_inj.1 (h i hi)).1
  have hk : x.xz = y.xz := by
    apply Bits.Clean.ext hx.2 hy.2
    apply BitVec.eq_of_getLsbD_eq
    intro i hi
    exact (V4.mk_inj.1 (h i hi)).2
  cases x; cases y
  simp_all

/-- **C54.** Unpacking a concatenation of unsigned values gives the values back, as the
same objects, x and z included; for total widths up to 32, and up to 63 when the left
operand is wider than 32. -/
theorem C54_unpack_concat (hn : 0 < n) (hm : 0 < m) (h64 : n + m < 64) (hW : n + m ≤ 32 ∨ 32 < n)
    (x : Lg n false) (y : Lg m false) (hx : x.Clean) (hy : y.Clean) :
    (x.concat y h64).bind (fun z => z.unpack (Rng.down (n + m)) [(n, false), (m, false)]) =
      .ok [⟨(n, false), x⟩, ⟨(m, false), y⟩] := by
  obtain ⟨z, hz, hzc, hzb⟩ := C52_concat_logic_partial hn hm h64 hW x y hx hy
  rw [hz, res_bind_ok]
  obtain ⟨ys, hys, hmap, hf⟩ := C53_unpack_partial (Or.inl rfl) (by omega) z [(n, false), (m, false)]
    (by simp; omega) (by simp)
  rw [hys]
  congr 1
  obtain _ | ⟨a, _ | ⟨b, _ | ⟨c, ys⟩⟩⟩ := ys
  · simp at hmap
  · simp at hmap
  · obtain ⟨wa, a⟩ := a
    obtain ⟨wb, b⟩ := b
    simp only [List.map_cons, List.map_nil, List.cons.injEq, and_true] at hmap
    obtain ⟨ha, hb⟩ := hmap
    subst ha hb
    obtain ⟨ha, hac⟩ := hf 0 (by simp)
    obtain ⟨hb, hbc⟩ := hf 1 (by simp)
    have e1 : a = x := Lg.Clean.ext' (hac rfl) hx fun i hi => by
      refine (ha i hi).trans ?_
      have : ((List.drop (0 + 1) [(n, false), (m, false)]).map Prod.fst).sum = m := by simp
      rw [this, hzb _ (by omega), if_neg (by omega)]
      congr 1; omega
    have e2 : b = y := Lg.Clean.ext' (hbc rfl) hy fun i hi => by
      refine (hb i hi).trans ?_
      have : ((List.drop (1 + 1) [(n, false), (m, false)]).map Prod.fst).sum = 0 := by simp
      rw [this, Nat.zero_add, hzb _ (by omega), if_pos hi]
    rw [e1, e2]
  · simp at hmap

/-- The other direction: concatenating the two fields gives the value back. -/
theorem C54_concat_unpack (hn : 0 < n) (hm : 0 < m) (h64 : n + m < 64) (hW : n + m ≤ 32 ∨ 32 < n)
    (z : Lg (n + m) false) (hz : z.Clean) :
    ∃ x y, z.unpack (Rng.down (n + m)) [(n, false), (m, false)] = .ok [⟨(n, false), x⟩, ⟨(m, false), y⟩] ∧
      x.concat y h64 = .ok z := by
  obtain ⟨ys, hys, hmap, hf⟩ := C53_unpack_partial (Or.inl rfl) (by omega) z [(n, false), (m, false)]
    (by simp; omega) (by simp)
  obtain _ | ⟨a, _ | ⟨b, _ | ⟨c, ys⟩⟩⟩ := ys
  · simp at hmap
  · simp at hmap
  · obtain ⟨wa, a⟩ := a
    obtain ⟨wb, b⟩ := b
    simp only [List.map_cons, List.map_nil, List.cons.injEq, and_true] at hmap
    obtain ⟨ha, hb⟩ := hmap
    subst ha hb
    obtain ⟨ha, hac⟩ := hf 0 (by simp)
    obtain ⟨hb, hbc⟩ := hf 1 (by simp)
    obtain ⟨z', hz', hzc', hzb'⟩ := C52_concat_logic_partial hn hm h64 hW a b (hac rfl) (hbc rfl)
    refine ⟨a, b, hys, ?_⟩
    rw [hz']
    congr 1
    refine Lg.Clean.ext' hzc' hz fun i hi => ?_
    rw [hzb' i hi]
    split
    · rename_i h
      refine (hb i h).trans ?_
      have : ((List.drop (1 + 1) [(n, false), (m, false)]).map Prod.fst).sum = 0 := by simp
      rw [this, Nat.zero_add]
    · rename_i h
      refine (ha (i - m) (by show i - m < n; omega)).trans ?_
      have : ((List.drop (0 + 1) [(n, false), (m, false)]).map Prod.fst).sum = m := by simp
      rw [this]
      congr 1; omega
  · simp at hmap

example : ∃ (x : Lg 3 false) (y : Lg 2 false), x.Clean ∧ y.Clean ∧ x.at 1 = .x ∧ y.at 0 = .z ∧
    (x.concat y (by decide)).map (fun z => (List.range 5).map z.at) = .ok [.z, .b1, .b1, .x, .b0] :=
  ⟨⟨.nat (by decide) 1, .nat (by decide) 2⟩, ⟨.nat (by decide) 3, .nat (by decide) 1⟩, by decide +kernel⟩

end Verif
