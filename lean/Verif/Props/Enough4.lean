import Verif.Props.Repair4

/-!
# Which operators are enough for the IEEE tables (C236)

The operators of the library depart from the IEEE tables (C10, C11); some sets of them still compute the tables (C233). For every subset of `&`, `|`, `^`, `~`: the table of `&` can be
computed by an expression over the subset if and only if it has `|` and either `^` or both `&` and `~`; that of `|` if and only if it has `|` and one of `^` and `&`.
-/

namespace Verif

variable {n : Nat}

namespace B4

/-- uses only the operators that are allowed: `&`, `|`, `^`, `~` in this order -/
def Uses (A O X N : Bool) : B4 → Prop
  | var _ => True
  | not a => N = true ∧ a.Uses A O X N
  | and a b => A = true ∧ a.Uses A O X N ∧ b.Uses A O X N
  | or a b => O = true ∧ a.Uses A O X N ∧ b.Uses A O X N
  | xor a b => X = true ∧ a.Uses A O X N ∧ b.Uses A O X N

/-- at width `n` the expression computes the table `f` of its variables 0 and 1 at every bit, for all operands -/
def Computes (n : Nat) (e : B4) (f : V4 → V4 → V4) : Prop :=
  ∀ σ : Nat → Lg n false, ∃ z, e.run σ = .ok z ∧ ∀ i, i < n → z.at i = f ((σ 0).at i) ((σ 1).at i)

theorem computes_iff (hn : 0 < n) (e : B4) (f : V4 → V4 → V4) : Computes n e f ↔ ∀ ρ : Nat → V4, e.lib ρ = f (ρ 0) (ρ 1) := by
  constructor
  · intro h ρ
    have hx : ∀ j, ∃ x : Lg n false, x.Clean ∧ ∀ i, i < n → x.at i = ρ j := fun j => Lg.exists_at fun _ => ρ j
    choose σ _ eσ using hx
    obtain ⟨z, hz, ez⟩ := h σ
    obtain ⟨w, hw, ew, -⟩ := C196_run hn σ e
    obtain rfl := Except.ok.inj (hz.symm.trans hw)
    have := (ew 0 hn).symm.trans (ez 0 hn)
    simpa only [eσ _ 0 hn] using this
  · intro h σ
    obtain ⟨z, hz, ez, -⟩ := C196_run hn σ e
    exact ⟨z, hz, fun i hi => by rw [ez i hi, h]⟩

theorem noOr_of_uses {A X N : Bool} : (e : B4) → e.Uses A false X N → e.NoOr
  | var _, _ => trivial
  | not a, h => noOr_of_uses a h.2
  | and a b, h => ⟨noOr_of_uses a h.2.1, noOr_of_uses b h.2.2⟩
  | or _ _, h => absurd h.1 (by decide)
  | xor a b, h => ⟨noOr_of_uses a h.2.1, noOr_of_uses b h.2.2⟩

/-- neither is z and at most one is x -/
def OneX (v w : V4) : Prop := v ≠ .z ∧ w ≠ .z ∧ ¬ (v = .x ∧ w = .x)

/-- `|` and `~` keep it that at most one of two values is x -/
theorem oneX (ρ ρ' : Nat → V4) (h : ∀ j, OneX (ρ j) (ρ' j)) : (e : B4) → e.Uses false true false true → OneX (e.lib ρ) (e.lib ρ')
  | var j, _ => h j
  | not a, hu => by
    have h1 := oneX ρ ρ' h a hu.2
    rw [lib, lib]
    revert h1
    generalize a.lib ρ = p; generalize a.lib ρ' = p'
    unfold OneX
    cases p <;> cases p' <;> decide
  | and _ _, hu => absurd hu.1 (by decide)
  | or a b, hu => by
    have h1 := oneX ρ ρ' h a hu.2.1
    have h2 := oneX ρ ρ' h b hu.2.2
    rw [lib, lib]
    revert h1 h2
    generalize a.lib ρ = p; generalize a.lib ρ' = p'
    generalize b.lib ρ = q; generalize b.lib ρ' = q'
    unfold OneX
    cases p <;> cases p' <;> cases q <;> cases q' <;> decide
  | xor _ _, hu => absurd hu.1 (by decide)

/-- neither is z, and a 0 goes with an x -/
def ZeroX (v w : V4) : Prop := v ≠ .z ∧ w ≠ .z ∧ (v = .b0 → w = .x) ∧ (w = .b0 → v = .x)

/-- `&` and `|` keep it that of two values a 0 goes with an x -/
theorem zeroX (ρ ρ' : Nat → V4) (h : ∀ j, ZeroX (ρ j) (ρ' j)) : (e : B4) → e.Uses true true false false → ZeroX (e.lib ρ) (e.lib ρ')
  | var j, _ => h j
  | not _, hu => absurd hu.1 (by decide)
  | and a b, hu => by
    have h1 := zeroX ρ ρ' h a hu.2.1
    have h2 := zeroX ρ ρ' h b hu.2.2
    rw [lib, lib]
    revert h1 h2
    generalize a.lib ρ = p; generalize a.lib ρ' = p'
    generalize b.lib ρ = q; generalize b.lib ρ' = q'
    unfold ZeroX
    cases p <;> cases p' <;> cases q <;> cases q' <;> decide
  | or a b, hu => by
    have h1 := zeroX ρ ρ' h a hu.2.1
    have h2 := zeroX ρ ρ' h b hu.2.2
    rw [lib, lib]
    revert h1 h2
    generalize a.lib ρ = p; generalize a.lib ρ' = p'
    generalize b.lib ρ = q; generalize b.lib ρ' = q'
    unfold ZeroX
    cases p <;> cases p' <;> cases q <;> cases q' <;> decide
  | xor _ _, hu => absurd hu.1 (by decide)

theorem uses_mono {A O X N A' O' X' N' : Bool} (hA : A = true → A' = true) (hO : O = true → O' = true) (hX : X = true → X' = true)
    (hN : N = true → N' = true) : (e : B4) → e.Uses A O X N → e.Uses A' O' X' N'
  | var _, _ => trivial
  | not a, h => ⟨hN h.1, uses_mono hA hO hX hN a h.2⟩
  | and a b, h => ⟨hA h.1, uses_mono hA hO hX hN a h.2.1, uses_mono hA hO hX hN b h.2.2⟩
  | or a b, h => ⟨hO h.1, uses_mono hA hO hX hN a h.2.1, uses_mono hA hO hX hN b h.2.2⟩
  | xor a b, h => ⟨hX h.1, uses_mono hA hO hX hN a h.2.1, uses_mono hA hO hX hN b h.2.2⟩

/-- `((a ^ ((a | b) | a)) | b) ^ ((b ^ ((a ^ a) | b)) | (a ^ ((a | b) | a)))`, the table of `&` -/
def andOX (a b : B4) : B4 :=
  .xor (.or (.xor a (.or (.or a b) a)) b) (.or (.xor b (.or (.xor a a) b)) (.xor a (.or (.or a b) a)))

/-- `(a | a) | (b | (a ^ b))`, the table of `|` -/
def orOX (a b : B4) : B4 := .or (.or a a) (.or b (.xor a b))

/-- `(a | a) | ((b | a) & b)`, the table of `|` -/
def orAO (a b : B4) : B4 := .or (.or a a) (.and (.or b a) b)

/-- two values of the variables between which an expression without `^` is caught -/
def pairVal (v : V4) (first : Bool) (j : Nat) : V4 := if (j = 0) = (first = true) then v else .x

end B4

open B4

/-- **C236, `&`.** At every width: over a set of operators of the library, x and z included, some expression computes the IEEE table of `&` if and only if the set has `|` and
either `^` or both `&` and `~`. -/
theorem C236_and_iff (hn : 0 < n) (A O X N : Bool) :
    (∃ e : B4, e.Uses A O X N ∧ e.Computes n V4.and) ↔ O = true ∧ (X = true ∨ A = true ∧ N = true) := by
  simp only [computes_iff hn]
  constructor
  · rintro ⟨e, hu, h⟩
    cases O with
    | false =>
      exfalso
      have := h fun j => if j = e.first then .x else .b0
      rw [lib_first _ e (noOr_of_uses e hu) (by simp)] at this
      revert this
      by_cases h0 : 0 = e.first
      · rw [← h0]; decide
      · simp only [if_neg h0]; split_ifs <;> decide
    | true =>
      refine ⟨rfl, ?_⟩
      cases X with
      | true => exact .inl rfl
      | false =>
        right
        by_contra hc
        by_cases hA : A = true
        · have hN : N = false := by cases N <;> simp_all
          have := zeroX (pairVal .b0 true) (pairVal .b0 false)
            (fun j => by unfold pairVal ZeroX; by_cases hj : j = 0 <;> simp [hj]) e
            (uses_mono (fun _ => rfl) (fun h => h) (fun h => h) (by rw [hN]; exact fun h => h) e hu)
          rw [h, h] at this
          revert this
          simp [pairVal, ZeroX, V4.and]
        · have := oneX (pairVal .b1 true) (pairVal .b1 false)
            (fun j => by unfold pairVal OneX; by_cases hj : j = 0 <;> simp [hj]) e
            (uses_mono (fun h => absurd h hA) (fun h => h) (fun h => h) (fun _ => rfl) e hu)
          rw [h, h] at this
          revert this
          simp [pairVal, OneX, V4.and]
  · rintro ⟨rfl, rfl | ⟨rfl, rfl⟩⟩
    · refine ⟨andOX (.var 0) (.var 1), by simp [andOX, Uses], fun ρ => ?_⟩
      simp only [andOX, lib]
      cases ρ 0 <;> cases ρ 1 <;> rfl
    · exact ⟨goodAnd (.var 0) (.var 1), by simp [goodAnd, Uses], fun ρ => lib_goodAnd ρ _ _⟩

/-- **C236, `|`.** The table of `|` if and only if the set has `|` and one of `^` and `&`. -/
theorem C236_or_iff (hn : 0 < n) (A O X N : Bool) :
    (∃ e : B4, e.Uses A O X N ∧ e.Computes n V4.or) ↔ O = true ∧ (X = true ∨ A = true) := by
  simp only [computes_iff hn]
  constructor
  · rintro ⟨e, hu, h⟩
    cases O with
    | false =>
      exfalso
      have := h fun j => if j = e.first then .x else .b1
      rw [lib_first _ e (noOr_of_uses e hu) (by simp)] at this
      revert this
      by_cases h0 : 0 = e.first
      · rw [← h0]; decide
      · simp only [if_neg h0]; split_ifs <;> decide
    | true =>
      refine ⟨rfl, ?_⟩
      cases X with
      | true => exact .inl rfl
      | false =>
        right
        by_contra hA
        have := oneX (pairVal .b0 true) (pairVal .b0 false)
          (fun j => by unfold pairVal OneX; by_cases hj : j = 0 <;> simp [hj]) e
          (uses_mono (fun h => absurd h hA) (fun h => h) (fun h => h) (fun _ => rfl) e hu)
        rw [h, h] at this
        revert this
        simp [pairVal, OneX, V4.or]
  · rintro ⟨rfl, rfl | rfl⟩
    · refine ⟨orOX (.var 0) (.var 1), by simp [orOX, Uses], fun ρ => ?_⟩
      simp only [orOX, lib]
      cases ρ 0 <;> cases ρ 1 <;> rfl
    · refine ⟨orAO (.var 0) (.var 1), by simp [orAO, Uses], fun ρ => ?_⟩
      simp only [orAO, lib]
      cases ρ 0 <;> cases ρ 1 <;> rfl

/-- the expression with `|` and `^` only, at all pairs of 4-state bits -/
example :
    let x : Lg 16 false := ⟨Bits.ofInt 0xFF00, Bits.ofInt 0xF0F0⟩
    let y : Lg 16 false := ⟨Bits.ofInt 0xCCCC, Bits.ofInt 0xAAAA⟩
    Lg.bits ((andOX (.var 0) (.var 1)).run fun j => if j = 0 then x else y) =
      some ((List.range 16).map fun i => (x.at i).and (y.at i)) := by decide +kernel

end Verif
