import Verif.Model.UnpackAlias
import Verif.Props.Concat
import Verif.Props.UnpackExcess
import Verif.Show

/-!
# C189: `unpack` into variables that are named twice, or into the vector itself
-/

namespace Verif

variable {sh : Nat → Nat × Bool}

/-- one step gives the argument the field and leaves the other variables alone -/
theorem Vars.unpackOne_eq (r : Rng) (src base v : Nat) (M : Vars sh) :
    Vars.unpackOne r src base v M =
      ((M src).unpackOne r base (sh v).1 (sh v).2).map fun y => Function.update M v y := by
  rw [Vars.unpackOne, Lg.unpackOne]
  by_cases hb : base < (sh src).1
  · rw [if_pos hb, if_pos hb]
    dsimp only
    cases (M src).value.slice r base (min ((sh src).1 - 1) ((sh v).1 + base - 1)) with
    | error e => rfl
    | ok a =>
      simp only [res_bind_ok]
      cases (Lg.assignPlane a : Res (Bits (sh v).1 (sh v).2)) with
      | error e => rfl
      | ok a' =>
        simp only [res_bind_ok]
        have e : ∀ a, (Function.update M v ⟨a, (M v).xz⟩ src).xz = (M src).xz := by
          intro a
          by_cases h : src = v
          · subst h; rw [Function.update_self]
          · rw [Function.update_of_ne h]
        rw [e]
        cases (M src).xz.slice r base (min ((sh src).1 - 1) ((sh v).1 + base - 1)) with
        | error e => rfl
        | ok k =>
          simp only [res_bind_ok]
          cases (Lg.assignPlane k : Res (Bits (sh v).1 false)) with
          | error e => rfl
          | ok k' =>
            simp only [res_map_ok, Function.update_self, Function.update_idem]
  · rw [if_neg hb, if_neg hb]; rfl

/-- the total width of variables -/
def Vars.width (sh : Nat → Nat × Bool) (vs : List Nat) : Nat := (vs.map fun v => (sh v).1).sum

theorem Lg.unpackOne_above {n : Nat} {s : Bool} (r : Rng) (x : Lg n s) {base : Nat} (h : n ≤ base) (w : Nat) (t : Bool) :
    x.unpackOne r base w t = .error .illFormed := by rw [Lg.unpackOne, if_neg (by omega)]

theorem Vars.unpackFrom_ok (r : Rng) (src : Nat) : ∀ (vs : List Nat) (base : Nat) (M M' : Vars sh),
    Vars.unpackFrom r src base vs M = .ok M' →
    (∀ o, o ∉ vs → M' o = M o) ∧ ∀ pre o post, vs = pre ++ o :: post → o ∉ post →
      (M src).unpackOne r (base + Vars.width sh pre) (sh o).1 (sh o).2 = .ok (M' o) := by
  intro vs
  induction vs with
  | nil =>
    intro base M M' h
    rw [Vars.unpackFrom] at h
    cases h
    exact ⟨fun _ _ => rfl, fun pre o post e => by simp at e⟩
  | cons v vs ih =>
    intro base M M' h
    rw [Vars.unpackFrom, Vars.unpackOne_eq] at h
    cases hy : (M src).unpackOne r base (sh v).1 (sh v).2 with
    | error e => rw [hy] at h; cases h
    | ok y =>
      rw [hy, res_map_ok, res_bind_ok] at h
      obtain ⟨h1, h2⟩ := ih _ _ _ h
      refine ⟨fun o ho => ?_, fun pre o post e hp => ?_⟩
      · rw [h1 o (fun k => ho (List.mem_cons_of_mem _ k)), Function.update_of_ne (fun k => ho (by simp [k]))]
      · cases pre with
        | nil =>
          obtain ⟨rfl, rfl⟩ : v = o ∧ vs = post := by simpa using e
          rw [h1 v hp, Function.update_self]
          simpa [Vars.width] using hy
        | cons u pre =>
          obtain ⟨rfl, rfl⟩ : v = u ∧ vs = pre ++ o :: post := by simpa using e
          have key := h2 pre o post rfl hp
          have hne : src ≠ v := by
            rintro rfl
            have hb : ∀ u us (N : Vars sh), Vars.unpackFrom r src (base + (sh src).1) (u :: us) N ≠ .ok M' := by
              intro u us N k
              rw [Vars.unpackFrom, Vars.unpackOne_eq, Lg.unpackOne_above _ _ (by omega)] at k
              cases k
            cases pre with
            | nil => exact hb _ _ _ h
            | cons a pre => exact hb _ _ _ h
          rw [Function.update_of_ne hne] at key
          rw [← key]
          congr 1
          simp [Vars.width]; omega

theorem Vars.unpackFrom_outcome (r : Rng) (src : Nat) : ∀ (vs : List Nat) (base : Nat) (M : Vars sh),
    (Vars.unpackFrom r src base vs M).map (fun _ => ()) = ((M src).unpackFrom r base (vs.map sh)).map fun _ => () := by
  intro vs
  induction vs with
  | nil => intro base M; rfl
  | cons v vs ih =>
    intro base M
    rw [Vars.unpackFrom, Vars.unpackOne_eq, List.map_cons]
    change _ = (((M src).unpackOne r base (sh v).1 (sh v).2).bind fun y =>
      ((M src).unpackFrom r (base + (sh v).1) (vs.map sh)).map fun ys => ⟨((sh v).1, (sh v).2), y⟩ :: ys).map fun _ => ()
    cases hy : (M src).unpackOne r base (sh v).1 (sh v).2 with
    | error e => rfl
    | ok y =>
      rw [res_map_ok, res_bind_ok, res_bind_ok, ih]
      by_cases hv : src = v
      · subst hv
        cases vs with
        | nil => rfl
        | cons u us =>
          rw [List.map_cons]
          have hb : ∀ x : Lg (sh src).1 (sh src).2,
              x.unpackFrom r (base + (sh src).1) (sh u :: us.map sh) = .error .illFormed := by
            intro x
            change (x.unpackOne r _ (sh u).1 (sh u).2).bind _ = _
            rw [Lg.unpackOne_above _ _ (by omega)]; rfl
          rw [hb, hb]; rfl
      · rw [Function.update_of_ne hv]
        cases (M src).unpackFrom r (base + (sh v).1) (vs.map sh) <;> rfl

/-- **C189, outcome.** Whatever variables are named, also the unpacked vector or the same variable
several times, `unpack` into them compiles, is undefined or succeeds as it does for
distinct variables of the same types. -/
theorem C189_outcome (r : Rng) (src : Nat) (vs : List Nat) (M : Vars sh) :
    (Vars.unpack r src vs M).map (fun _ => ()) = ((M src).unpack r (vs.map sh)).map fun _ => () := by
  rw [Vars.unpack, Lg.unpack]
  split_ifs
  · rw [Vars.unpackFrom_outcome, List.map_reverse]
    cases (M src).unpackFrom r r.lsb.toNat (vs.map sh).reverse <;> rfl
  · exact Vars.unpackFrom_outcome _ _ _ _ _

theorem Vars.width_append (a b : List Nat) : Vars.width sh (a ++ b) = Vars.width sh a + Vars.width sh b := by
  simp [Vars.width]
theorem Vars.width_reverse (a : List Nat) : Vars.width sh a.reverse = Vars.width sh a := by
  simp [Vars.width, List.sum_reverse]

/-- **C189.** If `x.unpack(v...)` of a vector declared `[n-1:0]` succeeds, every variable that is named
holds the field of its first mention, as it stood in `x` before the statement, and the others are
unchanged. This holds also if `x` itself is among the variables: the field of `x` is the last one
that is read. -/
theorem C189_fields (src : Nat) (hn : 0 < (sh src).1) (vs : List Nat) (M M' : Vars sh)
    (h : Vars.unpack (Rng.down (sh src).1) src vs M = .ok M') :
    (∀ o, o ∉ vs → M' o = M o) ∧ ∀ pre o post, vs = pre ++ o :: post → o ∉ pre →
      (M src).unpackOne (Rng.down (sh src).1) (Vars.width sh post) (sh o).1 (sh o).2 = .ok (M' o) := by
  have hbe : (Rng.down (sh src).1).bigEndian = true := by simp [Rng.down, Rng.bigEndian]; omega
  rw [Vars.unpack, if_pos hbe] at h
  obtain ⟨h1, h2⟩ := Vars.unpackFrom_ok _ _ _ _ _ _ h
  refine ⟨fun o ho => h1 o (by simpa using ho), fun pre o post e hp => ?_⟩
  have := h2 post.reverse o pre.reverse (by rw [e]; simp) (by simpa using hp)
  rw [Vars.width_reverse] at this
  simpa [Rng.down] using this

theorem Lg.unpackOne_bits {n w base : Nat} {s t : Bool} (hs : s = false) (x : Lg n s) (hb : base < n) (hw0 : 0 < w)
    (hw1 : w ≠ 65) (hw : base + w ≤ n ∨ w ≤ 64) :
    ∃ y : Lg w t, x.unpackOne (Rng.down n) base w t = .ok y ∧
      ∀ i, i < w → y.at i = if base + i < n then x.at (base + i) else .b0 := by
  subst hs
  by_cases h : base + w ≤ n
  · obtain ⟨y, hy, h1, -⟩ := Lg.unpackOne_down (Or.inl rfl) x hw0 hw1 h t
    exact ⟨y, hy, fun i hi => by rw [h1 i hi, if_pos (by omega)]⟩
  · obtain ⟨y, hy, -, h1⟩ := Lg.unpackOne_excess (w := w) x hb (by omega) (by omega) t
    exact ⟨y, hy, h1⟩

theorem Lg.unpackFrom_ok {n : Nat} {s : Bool} (hs : s = false) (x : Lg n s) : ∀ (ws : List (Nat × Bool)) (base : Nat),
    (∀ w ∈ ws, 0 < w.1 ∧ w.1 ≠ 65) → (∀ pre w post, ws = pre ++ w :: post →
      base + total pre < n ∧ (base + total pre + w.1 ≤ n ∨ w.1 ≤ 64)) →
    ∃ ys, x.unpackFrom (Rng.down n) base ws = .ok ys
  | [], _, _, _ => ⟨[], rfl⟩
  | (w, t) :: ws, base, h0, h => by
    obtain ⟨h1, h2⟩ := h [] (w, t) ws rfl
    obtain ⟨y, hy, -⟩ := Lg.unpackOne_bits (t := t) hs x (by simpa [total] using h1) (h0 (w, t) (by simp)).1
      (h0 (w, t) (by simp)).2 (by simpa [total] using h2)
    obtain ⟨ys, hys⟩ := Lg.unpackFrom_ok hs x ws (base + w) (fun v hv => h0 v (by simp [hv])) fun pre v post e => by
      have := h ((w, t) :: pre) v post (by rw [e]; rfl)
      have et : total ((w, t) :: pre) = w + total pre := by simp [total]
      rw [et] at this
      omega
    exact ⟨⟨(w, t), y⟩ :: ys, by rw [Lg.unpackFrom, hy, res_bind_ok, hys, res_map_ok]⟩

/-- **C189, bits.** Unpacking an unsigned `[n-1:0]` vector into any variables, where the fields after
the first leave at least one bit, and the first fits or is native: it succeeds, and every named variable
holds, bit by bit and with x and z, the field of its first mention as it stood before, zero extended where
the vector ends. The unpacked vector may be among the variables. -/
theorem C189_bits (src : Nat) (hs : (sh src).2 = false) (v : Nat) (vs : List Nat) (M : Vars sh)
    (h0 : ∀ o ∈ v :: vs, 0 < (sh o).1 ∧ (sh o).1 ≠ 65) (hlt : Vars.width sh vs < (sh src).1)
    (hfit : Vars.width sh vs + (sh v).1 ≤ (sh src).1 ∨ (sh v).1 ≤ 64) :
    ∃ M', Vars.unpack (Rng.down (sh src).1) src (v :: vs) M = .ok M' ∧ (∀ o, o ∉ v :: vs → M' o = M o) ∧
      ∀ pre o post, v :: vs = pre ++ o :: post → o ∉ pre → ∀ i, i < (sh o).1 →
        (M' o).at i = if Vars.width sh post + i < (sh src).1 then (M src).at (Vars.width sh post + i) else .b0 := by
  have hbe : (Rng.down (sh src).1).bigEndian = true := by simp [Rng.down, Rng.bigEndian]; omega
  have hl : (Rng.down (sh src).1).lsb.toNat = 0 := rfl
  have tot : ∀ us : List Nat, total (us.map sh) = Vars.width sh us := by
    intro us; simp [total, Vars.width, Function.comp_def]
  have fits : ∀ pre o post, v :: vs = pre ++ o :: post →
      Vars.width sh post < (sh src).1 ∧ (Vars.width sh post + (sh o).1 ≤ (sh src).1 ∨ (sh o).1 ≤ 64) := by
    intro pre o post e
    cases pre with
    | nil =>
      obtain ⟨rfl, rfl⟩ : v = o ∧ vs = post := by simpa using e
      exact ⟨hlt, hfit⟩
    | cons u pre =>
      obtain ⟨rfl, rfl⟩ : v = u ∧ vs = pre ++ o :: post := by simpa using e
      rw [Vars.width_append, show Vars.width sh (o :: post) = (sh o).1 + Vars.width sh post by simp [Vars.width]] at hlt
      omega
  obtain ⟨ys, hys⟩ := Lg.unpackFrom_ok hs (M src) ((v :: vs).reverse.map sh) 0
    (fun w hw => by
      simp only [List.mem_map, List.mem_reverse] at hw
      obtain ⟨o, ho, rfl⟩ := hw
      exact h0 o ho)
    (fun pre w post e => by
      obtain ⟨a, b, hab, ea, eb⟩ := List.map_eq_append_iff.mp e
      obtain ⟨o, c, hoc, eo, ec⟩ := List.map_eq_cons_iff.mp eb
      have hrev : v :: vs = c.reverse ++ o :: a.reverse := by
        have := congrArg List.reverse hab
        rw [List.reverse_reverse] at this
        rw [this, hoc]; simp
      have := fits _ _ _ hrev
      rw [Vars.width_reverse] at this
      rw [← ea, tot, ← eo]
      omega)
  have hout := C189_outcome (Rng.down (sh src).1) src (v :: vs) M
  rw [Lg.unpack, if_pos hbe, hl, ← List.map_reverse, hys] at hout
  cases hM : Vars.unpack (Rng.down (sh src).1) src (v :: vs) M with
  | error e => rw [hM] at hout; cases hout
  | ok M' =>
    obtain ⟨h1, h2⟩ := C189_fields src (by omega) (v :: vs) M M' hM
    refine ⟨M', rfl, h1, fun pre o post e hp i hi => ?_⟩
    have hof := h0 o (by rw [e]; simp)
    obtain ⟨f1, f2⟩ := fits pre o post e
    obtain ⟨y, hy, hb⟩ := Lg.unpackOne_bits (t := (sh o).2) hs (M src) f1 hof.1 hof.2 f2
    rw [h2 pre o post e hp] at hy
    cases hy
    exact hb i hi

-- `x.unpack(x, a)`: `a` gets the low bits of the old `x`, `x` the others; `x.unpack(a, a)`: the high field stays
example :
    ((Vars.unpack (sh := fun o => if o = 0 then (8, false) else (4, false)) (Rng.down 8) 0 [0, 1]
      (fun o => if o = 0 then .ofInt 0xa5 else .ofInt 0)).map fun M => (M 0, M 1)) =
      .ok (.ofInt 0xa, .ofInt 5) ∧
    ((Vars.unpack (sh := fun o => if o = 0 then (8, false) else (4, false)) (Rng.down 8) 0 [1, 1]
      (fun o => if o = 0 then .ofInt 0xa5 else .ofInt 0)).map fun M => (M 0, M 1)) =
      .ok (.ofInt 0xa5, .ofInt 0xa) ∧
    ((Vars.unpack (sh := fun o => if o = 0 then (8, false) else (4, false)) (Rng.down 8) 0 [1, 0]
      (fun o => if o = 0 then .ofInt 0xa5 else .ofInt 0)).map fun M => (M 0, M 1)) = .error .illFormed := by
  decide +kernel

end Verif
