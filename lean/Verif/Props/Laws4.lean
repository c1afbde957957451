import Verif.Props.XSound
import Verif.Props.Compare

/-!
# Laws of the 4-state bitwise operators (C196)

Expressions of `~`, `&`, `|` and `^` over unsigned `logic` vectors of one width, compared with `match` (case equality).
A law of the IEEE tables is a pair of expressions with the same value for all 4-state bits.
-/

namespace Verif

variable {n : Nat}

/-- a client expression over 4-state variables -/
inductive B4
  | var (i : Nat)
  | not (a : B4)
  | and (a b : B4)
  | or (a b : B4)
  | xor (a b : B4)

namespace B4

/-- what the library computes -/
def run (σ : Nat → Lg n false) : B4 → Res (Lg n false)
  | var i => .ok (σ i)
  | not a => (a.run σ).bind fun x => x.not
  | and a b => (a.run σ).bind fun x => (b.run σ).bind fun y => x.and y
  | or a b => (a.run σ).bind fun x => (b.run σ).bind fun y => x.or y
  | xor a b => (a.run σ).bind fun x => (b.run σ).bind fun y => x.xor y

/-- the value of one bit by the IEEE tables -/
def ieee (ρ : Nat → V4) : B4 → V4
  | var i => ρ i
  | not a => (a.ieee ρ).not
  | and a b => (a.ieee ρ).and (b.ieee ρ)
  | or a b => (a.ieee ρ).or (b.ieee ρ)
  | xor a b => (a.ieee ρ).xor (b.ieee ρ)

/-- the value of one bit by the IEEE tables, except for the three entries of `&` and the two entries of `|` at which
the library departs from them -/
def lib (ρ : Nat → V4) : B4 → V4
  | var i => ρ i
  | not a => (a.lib ρ).not
  | and a b => (andDeviation (a.lib ρ) (b.lib ρ)).getD ((a.lib ρ).and (b.lib ρ))
  | or a b => (orDeviation (a.lib ρ) (b.lib ρ)).getD ((a.lib ρ).or (b.lib ρ))
  | xor a b => (a.lib ρ).xor (b.lib ρ)

/-- the value of one bit if all bits are known -/
def bool (ρ : Nat → Bool) : B4 → Bool
  | var i => ρ i
  | not a => !a.bool ρ
  | and a b => a.bool ρ && b.bool ρ
  | or a b => a.bool ρ || b.bool ρ
  | xor a b => a.bool ρ ^^ b.bool ρ

/-- no `&` and no `|` -/
def Linear : B4 → Prop
  | var _ => True
  | not a => a.Linear
  | and _ _ => False
  | or _ _ => False
  | xor a b => a.Linear ∧ b.Linear

theorem lib_linear (ρ : Nat → V4) : (e : B4) → e.Linear → e.lib ρ = e.ieee ρ
  | var _, _ => rfl
  | not a, h => by rw [lib, ieee, lib_linear ρ a h]
  | and _ _, h => h.elim
  | or _ _, h => h.elim
  | xor a b, h => by rw [lib, ieee, lib_linear ρ a h.1, lib_linear ρ b h.2]

theorem lib_known (ρ : Nat → V4) (β : Nat → Bool) (h : ∀ i, ρ i = V4.ofBool (β i)) : (e : B4) → e.lib ρ = V4.ofBool (e.bool β)
  | var i => h i
  | not a => by rw [lib, bool, lib_known ρ β h a]; cases a.bool β <;> rfl
  | and a b => by rw [lib, bool, lib_known ρ β h a, lib_known ρ β h b]; cases a.bool β <;> cases b.bool β <;> rfl
  | or a b => by rw [lib, bool, lib_known ρ β h a, lib_known ρ β h b]; cases a.bool β <;> cases b.bool β <;> rfl
  | xor a b => by rw [lib, bool, lib_known ρ β h a, lib_known ρ β h b]; cases a.bool β <;> cases b.bool β <;> rfl

end B4

theorem Lg.clean_raw {x : Lg n false} : x.Clean ↔ ∀ i, n ≤ i → x.value.raw i = false ∧ x.xz.raw i = false := by
  rw [Lg.Clean, Bits.clean_unsigned_iff, Bits.clean_unsigned_iff]
  exact ⟨fun h i hi => ⟨h.1 i hi, h.2 i hi⟩, fun h => ⟨fun i hi => (h i hi).1, fun i hi => (h i hi).2⟩⟩

/-- **C196, what an expression computes.** At every width the expression does not fault, is computed bit by bit, and
is canonical if its operands are. -/
theorem C196_run (hn : 0 < n) (σ : Nat → Lg n false) (e : B4) :
    ∃ z, e.run σ = .ok z ∧ (∀ i, i < n → z.at i = e.lib fun j => (σ j).at i) ∧ ((∀ j, (σ j).Clean) → z.Clean) := by
  induction e with
  | var j => exact ⟨σ j, rfl, fun _ _ => rfl, fun h => h j⟩
  | not a ih =>
    obtain ⟨x, hx, ex, cx⟩ := ih
    obtain ⟨z, hz, ez⟩ := C09_not_table hn x
    obtain ⟨z', hz', h1, h2⟩ := Lg.not_ok hn x
    obtain rfl := Except.ok.inj (hz.symm.trans hz')
    refine ⟨z, by rw [B4.run, hx]; exact hz, fun i hi => by rw [ez i hi, ex i hi]; rfl, fun h => ?_⟩
    refine Lg.clean_raw.2 fun i hi => ⟨by rw [h1]; simp; omega, by rw [h2]; exact (Lg.clean_raw.1 (cx h) i hi).2⟩
  | and a b iha ihb =>
    obtain ⟨x, hx, ex, cx⟩ := iha
    obtain ⟨y, hy, ey, cy⟩ := ihb
    obtain ⟨z, hz, ez⟩ := C10_and_table_partial hn x y
    obtain ⟨z', hz', h1, h2⟩ := Lg.and_ok hn x y
    obtain rfl := Except.ok.inj (hz.symm.trans hz')
    refine ⟨z, by rw [B4.run, hx, res_bind_ok, hy]; exact hz, fun i hi => by rw [ez i hi, ex i hi, ey i hi]; rfl, fun h => ?_⟩
    exact Lg.clean_raw.2 fun i hi => ⟨by rw [h1]; simp; omega, by rw [h2]; simp; omega⟩
  | or a b iha ihb =>
    obtain ⟨x, hx, ex, cx⟩ := iha
    obtain ⟨y, hy, ey, cy⟩ := ihb
    obtain ⟨z, hz, ez⟩ := C11_or_table_partial hn x y
    obtain ⟨z', hz', h1, h2⟩ := Lg.or_ok hn x y
    obtain rfl := Except.ok.inj (hz.symm.trans hz')
    refine ⟨z, by rw [B4.run, hx, res_bind_ok, hy]; exact hz, fun i hi => by rw [ez i hi, ex i hi, ey i hi]; rfl, fun h => ?_⟩
    exact Lg.clean_raw.2 fun i hi => ⟨by rw [h1]; simp; omega, by rw [h2]; simp; omega⟩
  | xor a b iha ihb =>
    obtain ⟨x, hx, ex, cx⟩ := iha
    obtain ⟨y, hy, ey, cy⟩ := ihb
    obtain ⟨z, hz, ez⟩ := C08_xor_table hn x y
    obtain ⟨z', hz', h1, h2⟩ := Lg.xor_ok hn x y
    obtain rfl := Except.ok.inj (hz.symm.trans hz')
    refine ⟨z, by rw [B4.run, hx, res_bind_ok, hy]; exact hz, fun i hi => by rw [ez i hi, ex i hi, ey i hi]; rfl, fun h => ?_⟩
    exact Lg.clean_raw.2 fun i hi => ⟨by rw [h1]; simp; omega,
      by rw [h2, (Lg.clean_raw.1 (cx h) i hi).2, (Lg.clean_raw.1 (cy h) i hi).2]; rfl⟩

/-- two expressions give results for which `match` is true, whatever the canonical operands of width `n` -/
def B4.Holds (n : Nat) (e₁ e₂ : B4) : Prop :=
  ∀ σ : Nat → Lg n false, (∀ j, (σ j).Clean) → ∃ z₁ z₂, e₁.run σ = .ok z₁ ∧ e₂.run σ = .ok z₂ ∧ z₁.matches' z₂ = true

theorem B4.match_iff (hn : 0 < n) (e₁ e₂ : B4) (σ : Nat → Lg n false) (hσ : ∀ j, (σ j).Clean) :
    ∃ z₁ z₂, e₁.run σ = .ok z₁ ∧ e₂.run σ = .ok z₂ ∧
      (z₁.matches' z₂ = true ↔ ∀ i, i < n → (e₁.lib fun j => (σ j).at i) = e₂.lib fun j => (σ j).at i) := by
  obtain ⟨z₁, r₁, b₁, c₁⟩ := C196_run hn σ e₁
  obtain ⟨z₂, r₂, b₂, c₂⟩ := C196_run hn σ e₂
  refine ⟨z₁, z₂, r₁, r₂, ?_⟩
  rw [(C44_match_partial hn (by simp) z₁ z₂ (c₁ hσ) (c₂ hσ)).1, decide_eq_true_iff]
  simp only [true_or, and_true]
  exact ⟨fun h i hi => by rw [← b₁ i hi, ← b₂ i hi, h i hi], fun h i hi => by rw [b₁ i hi, b₂ i hi, h i hi]⟩

/-- **C196, exactly.** At every width a law holds of the library if and only if it holds of single bits by the tables
of the library. -/
theorem C196_iff (hn : 0 < n) (e₁ e₂ : B4) : B4.Holds n e₁ e₂ ↔ ∀ ρ : Nat → V4, e₁.lib ρ = e₂.lib ρ := by
  constructor
  · intro H ρ
    have hx : ∀ j, ∃ x : Lg n false, x.Clean ∧ ∀ i, i < n → x.at i = ρ j := fun j => Lg.exists_at fun _ => ρ j
    choose σ cσ eσ using hx
    obtain ⟨z₁, z₂, r₁, r₂, hm⟩ := H σ cσ
    obtain ⟨w₁, w₂, q₁, q₂, hi⟩ := B4.match_iff hn e₁ e₂ σ cσ
    obtain rfl := Except.ok.inj (r₁.symm.trans q₁)
    obtain rfl := Except.ok.inj (r₂.symm.trans q₂)
    have := hi.1 hm 0 hn
    simpa only [eσ _ 0 hn] using this
  · intro H σ cσ
    obtain ⟨w₁, w₂, q₁, q₂, hi⟩ := B4.match_iff hn e₁ e₂ σ cσ
    exact ⟨w₁, w₂, q₁, q₂, hi.2 fun i _ => H _⟩

/-- **C196, partial.** Every law of the IEEE tables about `~` and `^` holds, at every width. Missing: laws with `&` or
`|` (`C196_refuted`). -/
theorem C196_linear_partial (hn : 0 < n) (e₁ e₂ : B4) (l₁ : e₁.Linear) (l₂ : e₂.Linear)
    (h : ∀ ρ : Nat → V4, e₁.ieee ρ = e₂.ieee ρ) : B4.Holds n e₁ e₂ :=
  (C196_iff hn e₁ e₂).2 fun ρ => by rw [B4.lib_linear ρ e₁ l₁, B4.lib_linear ρ e₂ l₂, h]

/-- **C196, known bits, partial.** On operands without x and z every law of Boolean algebra holds. Missing: operands
with x or z. -/
theorem C196_known_partial (hn : 0 < n) (e₁ e₂ : B4) (h : ∀ β : Nat → Bool, e₁.bool β = e₂.bool β) (σ : Nat → Lg n false)
    (hσ : ∀ j, (σ j).Clean) (hk : ∀ j, (σ j).Def) :
    ∃ z₁ z₂, e₁.run σ = .ok z₁ ∧ e₂.run σ = .ok z₂ ∧ z₁.matches' z₂ = true := by
  obtain ⟨w₁, w₂, q₁, q₂, hi⟩ := B4.match_iff hn e₁ e₂ σ hσ
  refine ⟨w₁, w₂, q₁, q₂, hi.2 fun i hi => ?_⟩
  have hb : ∀ j, ∃ b, (σ j).at i = V4.ofBool b := by
    intro j
    have := hk j i hi
    revert this
    cases (σ j).at i <;> intro this
    · exact ⟨false, rfl⟩
    · exact ⟨true, rfl⟩
    · cases this
    · cases this
  choose β hβ using hb
  rw [B4.lib_known _ β hβ, B4.lib_known _ β hβ, h]

/-- values for three variables -/
def env3 (a b c : V4) : Nat → V4
  | 0 => a
  | 1 => b
  | _ => c

private abbrev a' : B4 := .var 0
private abbrev b' : B4 := .var 1
private abbrev c' : B4 := .var 2

/-- a list of laws of the IEEE tables -/
theorem ieee_laws (ρ : Nat → V4) :
    (B4.and a' b').ieee ρ = (B4.and b' a').ieee ρ ∧
    (B4.or a' b').ieee ρ = (B4.or b' a').ieee ρ ∧
    (B4.and (.and a' b') c').ieee ρ = (B4.and a' (.and b' c')).ieee ρ ∧
    (B4.or (.or a' b') c').ieee ρ = (B4.or a' (.or b' c')).ieee ρ ∧
    (B4.and a' (.or b' c')).ieee ρ = (B4.or (.and a' b') (.and a' c')).ieee ρ ∧
    (B4.or a' (.and b' c')).ieee ρ = (B4.and (.or a' b') (.or a' c')).ieee ρ ∧
    (B4.not (.and a' b')).ieee ρ = (B4.or (.not a') (.not b')).ieee ρ ∧
    (B4.not (.or a' b')).ieee ρ = (B4.and (.not a') (.not b')).ieee ρ ∧
    (B4.xor a' b').ieee ρ = (B4.or (.and a' (.not b')) (.and (.not a') b')).ieee ρ ∧
    (B4.and a' a').ieee ρ = (B4.not (.not a')).ieee ρ := by
  simp only [B4.ieee]
  generalize ρ 0 = a
  generalize ρ 1 = b
  generalize ρ 2 = c
  cases a <;> cases b <;> cases c <;> decide

/-- **C196 is false of the code**: at every width `&` and `|` are neither commutative nor associative nor
distributive, De Morgan's laws fail, `^` is not what it is made of and `z & z` is z, though all of these are laws of
the IEEE tables. -/
theorem C196_refuted (hn : 0 < n) :
    ¬ B4.Holds n (.and a' b') (.and b' a') ∧
    ¬ B4.Holds n (.or a' b') (.or b' a') ∧
    ¬ B4.Holds n (.and (.and a' b') c') (.and a' (.and b' c')) ∧
    ¬ B4.Holds n (.or (.or a' b') c') (.or a' (.or b' c')) ∧
    ¬ B4.Holds n (.and a' (.or b' c')) (.or (.and a' b') (.and a' c')) ∧
    ¬ B4.Holds n (.or a' (.and b' c')) (.and (.or a' b') (.or a' c')) ∧
    ¬ B4.Holds n (.not (.and a' b')) (.or (.not a') (.not b')) ∧
    ¬ B4.Holds n (.not (.or a' b')) (.and (.not a') (.not b')) ∧
    ¬ B4.Holds n (.xor a' b') (.or (.and a' (.not b')) (.and (.not a') b')) ∧
    ¬ B4.Holds n (.and a' a') (.not (.not a')) := by
  simp only [C196_iff hn]
  refine ⟨fun H => ?_, fun H => ?_, fun H => ?_, fun H => ?_, fun H => ?_, fun H => ?_, fun H => ?_, fun H => ?_, fun H => ?_, fun H => ?_⟩
  · exact absurd (H (env3 .x .b0 .b0)) (by decide)
  · exact absurd (H (env3 .x .b0 .b0)) (by decide)
  · exact absurd (H (env3 .b1 .z .b0)) (by decide)
  · exact absurd (H (env3 .b0 .z .b0)) (by decide)
  · exact absurd (H (env3 .b1 .z .b0)) (by decide)
  · exact absurd (H (env3 .b0 .z .b0)) (by decide)
  · exact absurd (H (env3 .x .b0 .b0)) (by decide)
  · exact absurd (H (env3 .x .b0 .b0)) (by decide)
  · exact absurd (H (env3 .b1 .x .b0)) (by decide)
  · exact absurd (H (env3 .z .b0 .b0)) (by decide)

/-- **C196, laws that hold** at every width, with x and z: `|` is idempotent up to z, absorbs, and negation three
times is negation. -/
theorem C196_laws (hn : 0 < n) :
    B4.Holds n (.or a' a') (.not (.not a')) ∧
    B4.Holds n (.or a' (.and a' b')) (.or a' a') ∧
    B4.Holds n (.not (.not (.not a'))) (.not a') ∧
    B4.Holds n (.xor a' b') (.xor b' a') ∧
    B4.Holds n (.xor (.xor a' b') c') (.xor a' (.xor b' c')) ∧
    B4.Holds n (.not (.xor a' b')) (.xor (.not a') b') := by
  simp only [C196_iff hn, B4.lib]
  refine ⟨fun ρ => ?_, fun ρ => ?_, fun ρ => ?_, fun ρ => ?_, fun ρ => ?_, fun ρ => ?_⟩ <;>
  · generalize ρ 0 = a
    generalize ρ 1 = b
    generalize ρ 2 = c
    cases a <;> cases b <;> cases c <;> rfl

/-- **C196, commutativity, exactly.** `a & b` and `b & a` match if and only if at no position one operand has an x
and the other a 0, or one a z and the other a 1; the same for `|`. -/
theorem C196_comm_iff (hn : 0 < n) (x y : Lg n false) (hx : x.Clean) (hy : y.Clean) :
    (∃ z₁ z₂, x.and y = .ok z₁ ∧ y.and x = .ok z₂ ∧ (z₁.matches' z₂ = true ↔ ∀ i, i < n →
      ¬ (x.at i = .x ∧ y.at i = .b0 ∨ x.at i = .b0 ∧ y.at i = .x ∨ x.at i = .z ∧ y.at i = .b1 ∨ x.at i = .b1 ∧ y.at i = .z))) ∧
    (∃ z₁ z₂, x.or y = .ok z₁ ∧ y.or x = .ok z₂ ∧ (z₁.matches' z₂ = true ↔ ∀ i, i < n →
      ¬ (x.at i = .x ∧ y.at i = .b0 ∨ x.at i = .b0 ∧ y.at i = .x ∨ x.at i = .z ∧ y.at i = .b1 ∨ x.at i = .b1 ∧ y.at i = .z))) := by
  let σ : Nat → Lg n false := fun j => if j = 0 then x else y
  have hσ : ∀ j, (σ j).Clean := fun j => by simp only [σ]; split <;> assumption
  constructor
  · obtain ⟨z₁, z₂, r₁, r₂, hi⟩ := B4.match_iff hn (.and a' b') (.and b' a') σ hσ
    refine ⟨z₁, z₂, r₁, r₂, hi.trans (forall_congr' fun i => forall_congr' fun _ => ?_)⟩
    show (andDeviation (x.at i) (y.at i)).getD ((x.at i).and (y.at i)) = (andDeviation (y.at i) (x.at i)).getD ((y.at i).and (x.at i)) ↔ _
    generalize x.at i = a
    generalize y.at i = b
    cases a <;> cases b <;> decide
  · obtain ⟨z₁, z₂, r₁, r₂, hi⟩ := B4.match_iff hn (.or a' b') (.or b' a') σ hσ
    refine ⟨z₁, z₂, r₁, r₂, hi.trans (forall_congr' fun i => forall_congr' fun _ => ?_)⟩
    show (orDeviation (x.at i) (y.at i)).getD ((x.at i).or (y.at i)) = (orDeviation (y.at i) (x.at i)).getD ((y.at i).or (x.at i)) ↔ _
    generalize x.at i = a
    generalize y.at i = b
    cases a <;> cases b <;> decide

/-- **C196, without z.** If no operand has a z, `&` is associative and distributes over `|`, is idempotent and absorbs,
though it does not commute. -/
theorem C196_no_z (hn : 0 < n) (σ : Nat → Lg n false) (hσ : ∀ j, (σ j).Clean) (hz : ∀ j i, i < n → (σ j).at i ≠ .z) :
    (∃ z₁ z₂, (B4.and (.and a' b') c').run σ = .ok z₁ ∧ (B4.and a' (.and b' c')).run σ = .ok z₂ ∧ z₁.matches' z₂ = true) ∧
    (∃ z₁ z₂, (B4.and a' (.or b' c')).run σ = .ok z₁ ∧ (B4.or (.and a' b') (.and a' c')).run σ = .ok z₂ ∧
      z₁.matches' z₂ = true) ∧
    (∃ z₁ z₂, (B4.and a' a').run σ = .ok z₁ ∧ a'.run σ = .ok z₂ ∧ z₁.matches' z₂ = true) ∧
    (∃ z₁ z₂, (B4.and a' (.or a' b')).run σ = .ok z₁ ∧ a'.run σ = .ok z₂ ∧ z₁.matches' z₂ = true) := by
  have key : ∀ e₁ e₂ : B4, (∀ ρ : Nat → V4, (∀ j, ρ j ≠ .z) → e₁.lib ρ = e₂.lib ρ) →
      ∃ z₁ z₂, e₁.run σ = .ok z₁ ∧ e₂.run σ = .ok z₂ ∧ z₁.matches' z₂ = true := by
    intro e₁ e₂ H
    obtain ⟨w₁, w₂, q₁, q₂, hi⟩ := B4.match_iff hn e₁ e₂ σ hσ
    exact ⟨w₁, w₂, q₁, q₂, hi.2 fun i hi => H _ fun j => hz j i hi⟩
  refine ⟨key _ _ ?_, key _ _ ?_, key _ _ ?_, key _ _ ?_⟩ <;>
  · intro ρ h
    have h0 := h 0
    have h1 := h 1
    have h2 := h 2
    simp only [B4.lib]
    generalize ρ 0 = a at h0 ⊢
    generalize ρ 1 = b at h1 ⊢
    generalize ρ 2 = c at h2 ⊢
    cases a <;> cases b <;> cases c <;> first | rfl | exact absurd rfl h0 | exact absurd rfl h1 | exact absurd rfl h2

-- x & 0 and 0 & x at 70 bits
example : (((⟨Bits.ofInt 0, Bits.ofInt 1⟩ : Lg 70 false).and (Lg.ofInt 0 : Lg 70 false)).toOption.get!.matches'
    (((Lg.ofInt 0 : Lg 70 false).and (⟨Bits.ofInt 0, Bits.ofInt 1⟩ : Lg 70 false)).toOption.get!)) = false := by decide +kernel
-- a law of ~ and ^ that the linear theorem applies to
example : (B4.not (.xor a' b')).Linear ∧ ∀ ρ, (B4.not (.xor a' b')).ieee ρ = (B4.xor a' (.not b')).ieee ρ :=
  ⟨⟨trivial, trivial⟩, fun ρ => by simp only [B4.ieee]; cases ρ 0 <;> cases ρ 1 <;> rfl⟩
-- a Boolean law: De Morgan
example : ∀ β, (B4.not (.and a' b')).bool β = (B4.or (.not a') (.not b')).bool β := fun β => by simp [B4.bool]

end Verif
