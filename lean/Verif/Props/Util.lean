import Verif.Model.Util
import Verif.Lemmas.Format
import Verif.Lemmas.Big
import Verif.Show

/-!
# C109: helper functions of the header
-/

namespace Verif

variable {n m : Nat} {s t : Bool}

/-- **C109, `str_len`, partial.** A format that starts with a letter leaves the natural length;
one that starts with a number below `2^64` gives the larger of the two. Not covered: the empty
format and numbers from `2^64` on, where the function throws, see `C109_str_len_refuted`. -/
theorem C109_str_len_partial (size : Nat) {ds : List Char} {b : Char} (rest : List Char)
    (hd : ∀ c ∈ ds, '0' ≤ c ∧ c ≤ '9') (hb : ¬ ('0' ≤ b ∧ b ≤ '9')) (hN : fmtNum ds < 2 ^ 64) :
    strLen size (ds ++ b :: rest) = .ok (max size (fmtNum ds)) := by
  rw [strLen, findNonDigit_append rest hd hb]
  by_cases h0 : ds = []
  · subst h0
    simp [fmtNum]
  · have hl : ds.length ≠ 0 := by simpa using h0
    rw [if_neg (by simpa using hl)]
    have hst : stoul ((ds ++ b :: rest).take ((some ds.length).getD (ds ++ b :: rest).length)) = .ok (fmtNum ds) := by
      rw [Option.getD_some, List.take_left, stoul, if_neg h0]
      simp only
      rw [if_pos (show List.foldl _ 0 ds < 2 ^ 64 from hN)]; rfl
    rw [hst]; rfl

example : strLen 8 "12d".toList = .ok 12 ∧ strLen 8 "x".toList = .ok 8 ∧ strLen 8 "3b".toList = .ok 8 := by decide +kernel

/-- **C109 is false of `str_len`.** The empty format throws at every size, and so does every
format whose number is `2^64` or more. -/
theorem C109_str_len_refuted (size : Nat) :
    strLen size [] = .error .throws ∧
    ∀ (ds rest : List Char) (b : Char), (∀ c ∈ ds, '0' ≤ c ∧ c ≤ '9') → ¬ ('0' ≤ b ∧ b ≤ '9') → 2 ^ 64 ≤ fmtNum ds →
      strLen size (ds ++ b :: rest) = .error .throws := by
  refine ⟨rfl, fun ds rest b hd hb hN => ?_⟩
  rw [strLen, findNonDigit_append rest hd hb]
  have h0 : ds ≠ [] := by rintro rfl; exact absurd hN (by decide)
  have hl : ds.length ≠ 0 := by simpa using h0
  rw [if_neg (by simpa using hl)]
  have hst : stoul ((ds ++ b :: rest).take ((some ds.length).getD (ds ++ b :: rest).length)) = .error .throws := by
    rw [Option.getD_some, List.take_left, stoul, if_neg h0]
    simp only
    rw [if_neg (show ¬ List.foldl _ 0 ds < 2 ^ 64 from Nat.not_lt.2 hN)]
  rw [hst]; rfl

/-- **C109, `copy`.** For `start ≤ end`, fewer than `2^32` bits apart: bit `i` of the destination becomes
bit `start + i` of the source (0 past its end) for every `i ≤ end - start` inside the
destination, and no other bit changes. Missing: exchanged bounds, for which the loop does not end
(`C109_copy_refuted`). -/
theorem C109_copy_partial (dst : Big n s) (src : Big m t) {a b : Nat} (hab : a ≤ b) (hb : b < 2 ^ 64)
    (hc : b - a < 2 ^ 32 - 1) :
    ∃ z, dst.copy src (BitVec.ofNat 64 a) (BitVec.ofNat 64 b) = .ok z ∧
      ∀ i, i < n → z.bv.getLsbD i = if i ≤ b - a then src.bv.getLsbD (a + i) else dst.bv.getLsbD i := by
  have e : (BitVec.ofNat 64 b - BitVec.ofNat 64 a).toNat = b - a := by
    rw [BitVec.toNat_sub, BitVec.toNat_ofNat, BitVec.toNat_ofNat]; omega
  have key : ∀ k, k ≤ b - a + 1 → ∀ i, i < n →
      ((List.range k).foldl (fun d i => d.set i (src.get (BitVec.ofNat 64 i + BitVec.ofNat 64 a).toNat)) dst).get i =
        if i < k then src.get (a + i) else dst.get i := by
    intro k
    induction k with
    | zero => intro _ i _; rfl
    | succ k ih =>
      intro hk i hi
      have := ih (by omega) i hi
      rw [List.range_succ, List.foldl_append, List.foldl_cons, List.foldl_nil]
      rw [Big.get_eq] at this ⊢
      rw [Big.raw_set]
      by_cases hik : i = k
      · subst hik
        have e2 : (BitVec.ofNat 64 i + BitVec.ofNat 64 a).toNat = a + i := by
          rw [BitVec.toNat_add, BitVec.toNat_ofNat, BitVec.toNat_ofNat]; omega
        simp [hi, e2]
      · rw [if_neg (by tauto), this]
        have : i < k + 1 ↔ i < k := by omega
        simp [this]
  rw [Big.copy]
  rw [e, if_neg (by omega)]
  refine ⟨_, rfl, fun i hi => ?_⟩
  rw [Big.getLsbD_bv, key _ (le_refl _) i hi, Big.getLsbD_bv, Big.getLsbD_bv]
  simp [Nat.lt_succ_iff]

example : (Big.ofU64 0 : Big 70 false).copy (Big.ofU64 0xABC : Big 100 false) 4 11 =
    .ok (Big.ofU64 0xAB : Big 70 false) := by decide +kernel

/-- **C109, `copy`, is false** when the bounds are exchanged: the loop does not end. -/
theorem C109_copy_refuted (dst : Big n s) (src : Big m t) {a b : Nat} (hab : b < a) (ha : a ≤ 2 ^ 63) :
    dst.copy src (BitVec.ofNat 64 a) (BitVec.ofNat 64 b) = .error .diverge := by
  have e : 2 ^ 32 - 1 ≤ (BitVec.ofNat 64 b - BitVec.ofNat 64 a).toNat := by
    rw [BitVec.toNat_sub, BitVec.toNat_ofNat, BitVec.toNat_ofNat]; omega
  rw [Big.copy]
  rw [if_pos e]

/-- **C109, `reverse_tuple`.** It compiles for every number of arguments and gives the references in the opposite order, so that it is its own inverse. The model of `unpack`
uses `List.reverse` for it. -/
theorem C109_reverse_tuple {α : Type} (t : List α) :
    reverseTuple t = some t.reverse ∧ (reverseTuple t).bind reverseTuple = some t := by
  have key : ∀ t : List α, reverseTuple t = some t.reverse := by
    intro t
    have : ∀ k, k ≤ t.length → (List.range k).mapM (fun i => ((List.range t.length).map fun i => t.length - 1 - i)[i]?.bind fun k => t[k]?) =
        some (t.reverse.take k) := by
      intro k
      induction k with
      | zero => intro _; rfl
      | succ k ih =>
        intro hk
        rw [List.range_succ, List.mapM_append, ih (by omega)]
        have e : t.length - 1 - k < t.length := by omega
        have e1 : ((List.range t.length).map fun i => t.length - 1 - i)[k]? = some (t.length - 1 - k) := by
          rw [List.getElem?_map, List.getElem?_range (by omega)]; rfl
        simp only [List.mapM_cons, List.mapM_nil, e1, Option.bind_some, List.getElem?_eq_getElem e, Option.pure_def, Option.bind_eq_bind]
        rw [List.take_succ, List.getElem?_reverse (by omega), List.getElem?_eq_getElem e]; rfl
    rw [reverseTuple]
    show (List.range t.length).mapM _ = _
    rw [this _ le_rfl, ← List.length_reverse, List.take_length]
  exact ⟨key t, by rw [key, Option.bind_some, key, List.reverse_reverse]⟩

example : reverseTuple [3, 1, 4] = some [4, 1, 3] := by decide

end Verif
