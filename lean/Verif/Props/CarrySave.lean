import Verif.Props.Programs

/-!
# A program: adding many numbers with carries saved (C203)

Three numbers are reduced to two with bitwise operators and one shift; only the last two are added.
-/

namespace Verif

variable {n : Nat}

/-- `t = ((a & b) | (a & c) | (b & c)) << 1; s = a ^ b ^ c;` -/
def Bits.carrySave (a b c : Bits n false) : Res (Bits n false × Bits n false) :=
  ((Bits.or (s := false) (Bits.or (s := false) (a.and b) (a.and c)) (b.and c)).shl (amount 1)).map fun t =>
    (Bits.xor (s := false) (a.xor b) c, t)

/-- all numbers of the list are taken into the pair, which is added in the end -/
def Bits.carrySaveSum : List (Bits n false) → Bits n false × Bits n false → Res (Bits n false)
  | [], p => p.1.add p.2
  | c :: l, p => (p.1.carrySave p.2 c).bind fun p => carrySaveSum l p

/-- a row of full adders -/
theorem full_adders : ∀ k a b c : Nat, a < 2 ^ k → b < 2 ^ k → c < 2 ^ k →
    a + b + c = (a ^^^ b ^^^ c) + 2 * (((a &&& b) ||| (a &&& c)) ||| (b &&& c)) := by
  intro k
  induction k with
  | zero =>
    intro a b c ha hb hc
    obtain rfl : a = 0 := by omega
    obtain rfl : b = 0 := by omega
    obtain rfl : c = 0 := by omega
    rfl
  | succ k ih =>
    intro a b c ha hb hc
    rw [pow_succ] at ha hb hc
    have h := ih (a / 2) (b / 2) (c / 2) (by omega) (by omega) (by omega)
    rw [← Nat.xor_div_two, ← Nat.xor_div_two, ← Nat.and_div_two, ← Nat.and_div_two, ← Nat.and_div_two, ← Nat.or_div_two,
      ← Nat.or_div_two] at h
    have hP : (a ^^^ b ^^^ c) % 2 = (a % 2 + b % 2 + c % 2) % 2 := by
      have e := Nat.xor_mod_two_pow (a := a ^^^ b) (b := c) (n := 1)
      have e' := Nat.xor_mod_two_pow (a := a) (b := b) (n := 1)
      rw [pow_one] at e e'
      rw [e, e']
      rcases Nat.mod_two_eq_zero_or_one a with h1 | h1 <;> rcases Nat.mod_two_eq_zero_or_one b with h2 | h2 <;>
        rcases Nat.mod_two_eq_zero_or_one c with h3 | h3 <;> rw [h1, h2, h3] <;> rfl
    have hM : (((a &&& b) ||| (a &&& c)) ||| (b &&& c)) % 2 = (a % 2 + b % 2 + c % 2) / 2 := by
      have e := Nat.or_mod_two_pow (a := (a &&& b) ||| (a &&& c)) (b := b &&& c) (n := 1)
      have e1 := Nat.or_mod_two_pow (a := a &&& b) (b := a &&& c) (n := 1)
      have e2 := Nat.and_mod_two_pow (a := a) (b := b) (n := 1)
      have e3 := Nat.and_mod_two_pow (a := a) (b := c) (n := 1)
      have e4 := Nat.and_mod_two_pow (a := b) (b := c) (n := 1)
      rw [pow_one] at e e1 e2 e3 e4
      rw [e, e1, e2, e3, e4]
      rcases Nat.mod_two_eq_zero_or_one a with h1 | h1 <;> rcases Nat.mod_two_eq_zero_or_one b with h2 | h2 <;>
        rcases Nat.mod_two_eq_zero_or_one c with h3 | h3 <;> rw [h1, h2, h3] <;> rfl
    generalize a ^^^ b ^^^ c = P at *
    generalize ((a &&& b) ||| (a &&& c)) ||| (b &&& c) = M at *
    omega

theorem Bits.carrySave_spec (h1 : 1 < n) (hN : n ≤ 2 ^ 32) (a b c : Bits n false) :
    ∃ p, a.carrySave b c = .ok p ∧ p.1.bv + p.2.bv = a.bv + b.bv + c.bv := by
  obtain ⟨ca, na⟩ := amount_spec (i := 1) (by decide)
  obtain ⟨t, ht, et⟩ := C25_shl_partial hN
    (Bits.or (s := false) (Bits.or (s := false) (a.and b) (a.and c)) (b.and c)) (amount 1) ca 1 na
    (fun h => ⟨by decide, h1, by split_ifs <;> omega⟩)
  refine ⟨_, by rw [Bits.carrySave, ht, res_map_ok], ?_⟩
  have et : t.bv = (((a.bv &&& b.bv) ||| (a.bv &&& c.bv)) ||| (b.bv &&& c.bv)) <<< 1 := by
    have hn : 0 < n := by omega
    rw [et]
    congr 1
    rw [← Bits.bv_and hn a b, ← Bits.bv_and hn a c, ← Bits.bv_and hn b c, ← Bits.bv_or, ← Bits.bv_or]
  have es : (Bits.xor (s := false) (a.xor b) c).bv = a.bv ^^^ b.bv ^^^ c.bv := by
    rw [← Bits.bv_xor a b, ← Bits.bv_xor]
  show (Bits.xor (s := false) (a.xor b) c).bv + t.bv = _
  rw [es, et]
  apply BitVec.eq_of_toNat_eq
  have h := full_adders n a.bv.toNat b.bv.toNat c.bv.toNat a.bv.isLt b.bv.isLt c.bv.isLt
  rw [BitVec.toNat_add, BitVec.toNat_add, BitVec.toNat_add, BitVec.toNat_shiftLeft, BitVec.toNat_xor, BitVec.toNat_xor,
    BitVec.toNat_or, BitVec.toNat_or, BitVec.toNat_and, BitVec.toNat_and, BitVec.toNat_and, Nat.shiftLeft_eq, pow_one,
    Nat.mod_add_mod, Nat.add_mod_mod, h]
  congr 2
  ring

/-- **C203**: adding any list of numbers to two others with saved carries gives their sum modulo `2^n`, for
every width above one, whatever the contents. Missing: one bit, for which it is false
(`C203_one_bit_refuted`). -/
theorem C203_sum_partial (h1 : 1 < n) (hN : n ≤ 2 ^ 32) : (l : List (Bits n false)) → (a b : Bits n false) →
    ∃ z, Bits.carrySaveSum l (a, b) = .ok z ∧
      z.bv.toNat = (a.bv.toNat + b.bv.toNat + (l.map (·.bv.toNat)).sum) % 2 ^ n
  | [], a, b => by
    obtain ⟨z, hz, e⟩ := C28_add_partial h1 a b (by simp)
    refine ⟨z, hz, ?_⟩
    have e : z.bv = a.bv + b.bv := e
    rw [e, BitVec.toNat_add]; simp
  | c :: l, a, b => by
    obtain ⟨⟨s, t⟩, hp, e⟩ := Bits.carrySave_spec h1 hN a b c
    obtain ⟨z, hz, ez⟩ := C203_sum_partial h1 hN l s t
    refine ⟨z, by rw [Bits.carrySaveSum, hp, res_bind_ok, hz], ?_⟩
    have e' := congrArg BitVec.toNat e
    simp only [BitVec.toNat_add] at e'
    rw [ez, List.map_cons, List.sum_cons, Nat.add_mod, e', ← Nat.add_mod, Nat.add_assoc, Nat.mod_add_mod]

example : (Bits.carrySaveSum [Bits.ofInt 200, Bits.ofInt 77, Bits.ofInt 3] ((Bits.ofInt 250, Bits.ofInt 99) : Bits 8 false × Bits 8 false)).map
    (·.bv.toNat) = .ok ((200 + 77 + 3 + 250 + 99) % 256) := by decide +kernel

/-- **C203 is false of the code at one bit**: the carry is not shifted out (C25), and 1 + 1 + 0 gives 1. -/
theorem C203_one_bit_refuted : ∃ a b c z : Bits 1 false, Bits.carrySaveSum [c] (a, b) = .ok z ∧
    z.bv.toNat ≠ (a.bv.toNat + b.bv.toNat + c.bv.toNat) % 2 :=
  ⟨Bits.ofInt 1, Bits.ofInt 1, Bits.ofInt 0, Bits.ofInt 1, by decide +kernel⟩

end Verif
