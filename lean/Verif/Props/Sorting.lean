import Verif.Props.Counting
import Verif.Props.Coherence
import Mathlib.Data.List.Perm.Basic

/-!
# Sorting with `operator<` (C166)

Client code: insertion sort of any number of objects of one type, with the comparison
`bit::operator<` (`bit.hh` 633-683) as its only operation on them.
-/

namespace Verif

variable {n : Nat} {s : Bool}

/-- `it = l.begin(); while (it != l.end() && !(x < *it)) it++; l.insert(it, x);` -/
def Bits.insertLt (x : Bits n s) : List (Bits n s) → Res (List (Bits n s))
  | [] => .ok [x]
  | y :: ys => (x.lt y).bind fun b => if b then .ok (x :: y :: ys) else (x.insertLt ys).map (y :: ·)

/-- insertion sort -/
def Bits.sortLt : List (Bits n s) → Res (List (Bits n s))
  | [] => .ok []
  | x :: xs => (Bits.sortLt xs).bind x.insertLt

/-- `<` on two objects is the order of the keys, both ways -/
def Bits.LtBy (key : Bits n s → Int) (x y : Bits n s) : Prop :=
  x.lt y = .ok (decide (key x < key y)) ∧ y.lt x = .ok (decide (key y < key x))

theorem Bits.insertLt_spec (key : Bits n s → Int) (x : Bits n s) (l : List (Bits n s)) (hx : ∀ y ∈ l, Bits.LtBy key x y)
    (hl : l.Pairwise fun a b => key a ≤ key b) :
    ∃ r, x.insertLt l = .ok r ∧ r.Perm (x :: l) ∧ r.Pairwise fun a b => key a ≤ key b := by
  induction l with
  | nil => exact ⟨[x], rfl, List.Perm.refl _, by simp⟩
  | cons y ys ih =>
    rw [Bits.insertLt, (hx y (by simp)).1, res_bind_ok]
    rw [List.pairwise_cons] at hl
    by_cases h : key x < key y
    · rw [decide_eq_true h, if_pos rfl]
      refine ⟨_, rfl, List.Perm.refl _, List.pairwise_cons.2 ⟨fun z hz => ?_, List.pairwise_cons.2 hl⟩⟩
      rcases List.mem_cons.1 hz with rfl | hz
      · exact h.le
      · exact h.le.trans (hl.1 z hz)
    · obtain ⟨r, hr, hp, hs⟩ := ih (fun z hz => hx z (by simp [hz])) hl.2
      rw [decide_eq_false h, if_neg (by simp), hr, res_map_ok]
      refine ⟨_, rfl, (hp.cons y).trans (List.Perm.swap x y ys), List.pairwise_cons.2 ⟨fun z hz => ?_, hs⟩⟩
      rcases List.mem_cons.1 (hp.mem_iff.1 hz) with rfl | hz
      · omega
      · exact hl.1 z hz

theorem Bits.sortLt_spec (key : Bits n s → Int) (l : List (Bits n s)) (hl : l.Pairwise (Bits.LtBy key)) :
    ∃ r, Bits.sortLt l = .ok r ∧ r.Perm l ∧ r.Pairwise fun a b => key a ≤ key b := by
  induction l with
  | nil => exact ⟨[], rfl, List.Perm.refl _, List.Pairwise.nil⟩
  | cons x xs ih =>
    rw [List.pairwise_cons] at hl
    obtain ⟨r, hr, hp, hs⟩ := ih hl.2
    obtain ⟨q, hq, hp', hs'⟩ := Bits.insertLt_spec key x r (fun y hy => hl.1 y (hp.mem_iff.1 hy)) hs
    exact ⟨q, by rw [Bits.sortLt, hr, res_bind_ok, hq], hp'.trans (hp.cons x), hs'⟩

/-- **C166, partial.** Sorting any number of canonical objects with `<` ends with the same objects in ascending order of
their numbers: unsigned objects of every width and signed native ones. Missing: signed wide objects
(`C166_signed_wide_exact`, `C166_refuted`). -/
theorem C166_sort_partial (hs : s = false ∨ n ≤ 64) (l : List (Bits n s)) (hl : ∀ x ∈ l, x.Clean) :
    ∃ r, Bits.sortLt l = .ok r ∧ r.Perm l ∧ r.Pairwise fun a b => numOf s a.bv ≤ numOf s b.bv := by
  have key : ∀ x y : Bits n s, x.Clean → y.Clean → x.lt y = .ok (decide (numOf s x.bv < numOf s y.bv)) := by
    intro x y hx hy
    by_cases h : n ≤ 64
    · rw [(Bits.order_native h h x y).2.1, (Bits.clean_native h x).1 hx, (Bits.clean_native h y).1 hy]
    · obtain rfl : s = false := by rcases hs with h' | h' <;> [exact h'; exact absurd h' h]
      rw [Bits.lt_cell Iff.rfl, Bits.cell_wide_clean (by omega) ((Bits.clean_cell x).1 hx),
        Bits.cell_wide_clean (by omega) ((Bits.clean_cell y).1 hy)]
      simp [numOf]
  refine Bits.sortLt_spec _ l ?_
  exact List.pairwise_of_forall_mem_list fun a ha b hb => ⟨key a b (hl a ha) (hl b hb), key b a (hl b hb) (hl a ha)⟩

/-- `<` on two signed wide objects of one type that are not both the least number -/
theorem Bits.lt_key (h : 64 < n) (x y : Bits n true) (hx : x.Clean) (hy : y.Clean)
    (hm : ¬ (x.bv = BitVec.intMin n ∧ y.bv = BitVec.intMin n)) :
    x.lt y = .ok (decide (sortKey x.bv < sortKey y.bv)) := by
  have hex : ∃ b, x.lt y = .ok b := by
    obtain ⟨e, -⟩ := C137_gt_exact h h x y hx hy
    obtain ⟨-, e1, e2⟩ := C137_gt_exact h h y x hy hx
    rw [e]
    by_cases hneg : y.bv.msb = true ∧ x.bv.msb = true
    · obtain ⟨f1, f2, f3, f4⟩ := e2 hneg.1 hneg.2
      by_cases ix : x.bv = BitVec.intMin n
      · exact ⟨_, f3 (fun iy => hm ⟨ix, iy⟩) ix⟩
      · by_cases iy : y.bv = BitVec.intMin n
        · exact ⟨_, f2 iy ix⟩
        · exact ⟨_, f1 iy ix⟩
    · exact ⟨_, e1 hneg⟩
  obtain ⟨b, hb⟩ := hex
  have := lt_sortKey h h x y hx hy
  rw [hb] at this ⊢
  cases b with
  | true => rw [decide_eq_true (this.1 rfl)]
  | false => rw [decide_eq_false (fun c => by simpa using this.2 c)]

/-- **C166, signed wide objects, exactly.** With the least number at most once, sorting ends with the same objects in
ascending order, but with the least number between the negative and the non-negative ones. -/
theorem C166_signed_wide_exact (h : 64 < n) (l : List (Bits n true)) (hl : ∀ x ∈ l, x.Clean)
    (hm : l.Pairwise fun a b => ¬ (a.bv = BitVec.intMin n ∧ b.bv = BitVec.intMin n)) :
    ∃ r, Bits.sortLt l = .ok r ∧ r.Perm l ∧ r.Pairwise fun a b =>
      if a.bv = BitVec.intMin n then 0 ≤ b.bv.toInt
      else if b.bv = BitVec.intMin n then a.bv.toInt < 0
      else a.bv.toInt ≤ b.bv.toInt := by
  obtain ⟨r, hr, hp, hs⟩ := Bits.sortLt_spec (fun x => sortKey x.bv) l
    (hm.imp_of_mem fun {a b} ha hb hab => ⟨Bits.lt_key h a b (hl a ha) (hl b hb) hab,
      Bits.lt_key h b a (hl b hb) (hl a ha) fun c => hab ⟨c.2, c.1⟩⟩)
  have hm' := (hp.pairwise_iff (R := fun a b : Bits n true => ¬ (a.bv = BitVec.intMin n ∧ b.bv = BitVec.intMin n))
    (fun {a b} hab c => hab ⟨c.2, c.1⟩)).2 hm
  refine ⟨r, hr, hp, (hs.and hm').imp fun {a b} hab => ?_⟩
  obtain ⟨hk, hab⟩ := hab
  have hmsb : (BitVec.intMin n).msb = true := by rw [BitVec.msb_intMin]; simp; omega
  have hsp := spare_nonneg n
  have ha := @BitVec.msb_eq_toInt n a.bv
  have hb := @BitVec.msb_eq_toInt n b.bv
  simp only [sortKey] at hk
  split
  · rename_i ia
    have ib : b.bv ≠ BitVec.intMin n := fun c => hab ⟨ia, c⟩
    rw [if_pos (by rw [ia]; exact hmsb), if_pos ia, if_neg ib] at hk
    by_cases mb : b.bv.msb = true
    · rw [if_pos mb] at hk
      rw [mb, eq_comm, decide_eq_true_eq] at hb
      omega
    · rw [if_neg mb] at hk
      omega
  · rename_i ia
    split
    · rename_i ib
      rw [if_neg ia, ib, if_pos hmsb, if_pos rfl] at hk
      by_cases ma : a.bv.msb = true
      · rw [ma, eq_comm, decide_eq_true_eq] at ha
        omega
      · rw [if_neg ma] at hk
        omega
    · rename_i ib
      rw [if_neg ia, if_neg ib] at hk
      by_cases ma : a.bv.msb = true <;> by_cases mb : b.bv.msb = true
      · rw [if_pos ma, if_pos mb] at hk
        omega
      · rw [Bool.not_eq_true] at mb
        rw [ma, eq_comm, decide_eq_true_eq] at ha
        rw [mb, eq_comm, decide_eq_false_iff_not] at hb
        omega
      · rw [if_neg ma, if_pos mb] at hk
        rw [mb, eq_comm, decide_eq_true_eq] at hb
        rw [Bool.not_eq_true] at ma
        rw [ma, eq_comm, decide_eq_false_iff_not] at ha
        omega
      · rw [if_neg ma, if_neg mb] at hk
        omega

/-- **C166 fails for signed wide objects.** At every wide width: two objects holding the least number cannot be sorted,
the comparison does not end; and a negative number and the least one stay, or come, in descending order, whatever order
they are given in. -/
theorem C166_refuted (h : 64 < n) (x y : Bits n true) (hx : x.Clean) (hy : y.Clean) (hi : y.bv = BitVec.intMin n) :
    (x.bv = BitVec.intMin n → Bits.sortLt [x, y] = .error .diverge) ∧
    (x.bv.toInt < 0 → x.bv ≠ BitVec.intMin n →
      Bits.sortLt [x, y] = .ok [x, y] ∧ Bits.sortLt [y, x] = .ok [x, y] ∧ y.bv.toInt < x.bv.toInt) := by
  have hmsb : (BitVec.intMin n).msb = true := by rw [BitVec.msb_intMin]; simp; omega
  have hsort : ∀ a b : Bits n true, Bits.sortLt [a, b] = (a.lt b).bind fun c => if c then .ok [a, b] else .ok [b, a] := by
    intro a b
    simp only [Bits.sortLt, res_bind_ok, Bits.insertLt, res_map_ok]
  constructor
  · intro ix
    obtain ⟨e, -⟩ := C137_gt_exact h h x y hx hy
    obtain ⟨-, -, e2⟩ := C137_gt_exact h h y x hy hx
    obtain ⟨-, -, -, f4⟩ := e2 (by rw [hi]; exact hmsb) (by rw [ix]; exact hmsb)
    have : y.gt x = .error .diverge := by
      rw [Bits.gt, dif_neg (by omega), dif_neg (by omega)]
      exact f4 hi ix _
    rw [hsort, e, this]
    rfl
  · intro neg ix
    have mx : x.bv.msb = true := by rw [BitVec.msb_eq_toInt]; simpa using neg
    have hsp := spare_nonneg n
    have kx : sortKey x.bv < sortKey y.bv := by
      simp only [sortKey]
      rw [if_pos mx, if_neg ix, hi, if_pos hmsb, if_pos rfl]
      omega
    refine ⟨?_, ?_, ?_⟩
    · rw [hsort, Bits.lt_key h x y hx hy (fun c => ix c.1), decide_eq_true kx]
      rfl
    · rw [hsort, Bits.lt_key h y x hy hx (fun c => ix c.2), decide_eq_false (by omega)]
      rfl
    · have h1 := BitVec.le_toInt x.bv
      have h2 : x.bv.toInt ≠ y.bv.toInt := fun c => ix ((BitVec.eq_of_toInt_eq c).trans hi)
      rw [hi, BitVec.toInt_intMin] at h2 ⊢
      have h3 : (2 : Nat) ^ (n - 1) % 2 ^ n = 2 ^ (n - 1) := Nat.mod_eq_of_lt (Nat.pow_lt_pow_right (by omega) (by omega))
      rw [h3] at h2 ⊢
      push_cast at h2 ⊢
      omega

/-- non-vacuity: five signed objects of one byte -/
example : (Bits.sortLt ([5, -3, 127, -128, 5].map fun v => (Bits.ofInt v : Bits 8 true))).map (·.map fun x => x.bv.toInt)
    = .ok [-128, -3, 5, 5, 127] := by decide +kernel

end Verif
