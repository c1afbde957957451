import Verif.Props.Programs
import Verif.Props.Idioms
import Verif.Props.Convert

/-!
# A program: reading decimal digits with shifts and additions (C219)

`for (d : digits) v = ((v << 3) + (v << 1)) + d;` with the digits from the most significant to the least: multiplication by
ten without `operator*`, which is wrong of wide vectors.
-/

namespace Verif

variable {n : Nat}

/-- one digit -/
def Bits.decReadStep (v : Bits n false) (d : Nat) : Res (Bits n false) :=
  (v.shl (amount 3)).bind fun (a : Bits n false) => (v.shl (amount 1)).bind fun (b : Bits n false) =>
    (a.add b).bind fun (t : Bits n false) => t.add (Bits.ofInt d : Bits n false)

/-- all digits, the most significant first -/
def Bits.decRead (v : Bits n false) : List Nat → Res (Bits n false)
  | [] => .ok v
  | d :: l => (v.decReadStep d).bind fun v => v.decRead l

theorem Bits.ofInt_nat (h1 : 1 < n) {d : Nat} (hd : d < 2 ^ 64) : (Bits.ofInt d : Bits n false).bv = BitVec.ofNat n d := by
  by_cases h : n ≤ 64
  · rw [C60_bits h1 h, BitVec.ofInt_natCast]
  · rw [C60_wide (by omega), BitVec.ofInt_natCast]
    apply BitVec.eq_of_toNat_eq
    rw [BitVec.toNat_setWidth, BitVec.toNat_ofNat, BitVec.toNat_ofNat, Nat.mod_eq_of_lt hd]

theorem Bits.decReadStep_spec (h1 : 1 < n) (hN : n ≤ 2 ^ 32) (v : Bits n false) {d : Nat} (hd : d < 2 ^ 64) :
    ∃ z, v.decReadStep d = .ok z ∧ z.bv = v.bv * 10#n + BitVec.ofNat n d := by
  obtain ⟨c3, e3⟩ := amount_spec (i := 3) (by norm_num)
  obtain ⟨c1, e1⟩ := amount_spec (i := 1) (by norm_num)
  obtain ⟨a, ha, ea⟩ := C25_shl_partial hN v (amount 3) c3 3 e3 (fun h => ⟨by decide, h1, by split_ifs <;> omega⟩)
  obtain ⟨b, hb, eb⟩ := C25_shl_partial hN v (amount 1) c1 1 e1 (fun h => ⟨by decide, h1, by split_ifs <;> omega⟩)
  have ea : Bits.bv (s := false) a = v.bv <<< 3 := ea
  have eb : Bits.bv (s := false) b = v.bv <<< 1 := eb
  obtain ⟨t, ht, et⟩ := C28_add_partial (s := false) (t := false) h1 a b (by simp)
  have et : Bits.bv (s := false) t = Bits.bv (s := false) a + Bits.bv (s := false) b := et
  obtain ⟨z, hz, ez⟩ := C28_add_partial (s := false) (t := false) h1 t (Bits.ofInt d : Bits n false) (by simp)
  have ez : Bits.bv (s := false) z = Bits.bv (s := false) t + (Bits.ofInt d : Bits n false).bv := ez
  refine ⟨z, by rw [Bits.decReadStep, ha, res_bind_ok, hb, res_bind_ok, ht, res_bind_ok, hz], ?_⟩
  rw [ez, et, ea, eb, Bits.ofInt_nat h1 hd]
  congr 1
  apply BitVec.eq_of_toNat_eq
  simp only [BitVec.toNat_add, BitVec.toNat_shiftLeft, BitVec.toNat_mul, BitVec.toNat_ofNat, Nat.shiftLeft_eq, Nat.add_mod_mod,
    Nat.mod_add_mod, Nat.mul_mod_mod]
  congr 1
  ring

/-- **C219, the loop.** At every width above one bit, the loop computes the number with the given decimal digits, after those
already read, modulo `2^n`. -/
theorem C219_horner (h1 : 1 < n) (hN : n ≤ 2 ^ 32) (v : Bits n false) (ds : List Nat) (hd : ∀ d ∈ ds, d < 10) :
    ∃ z, v.decRead ds = .ok z ∧ z.bv = BitVec.ofNat n (v.bv.toNat * 10 ^ ds.length + Nat.ofDigits 10 ds.reverse) := by
  induction ds generalizing v with
  | nil => exact ⟨v, rfl, by simp⟩
  | cons d l ih =>
    have hd0 : d < 10 := hd d (by simp)
    obtain ⟨w, hw, ew⟩ := Bits.decReadStep_spec h1 hN v (d := d) (by omega)
    obtain ⟨z, hz, ez⟩ := ih w fun x hx => hd x (by simp [hx])
    refine ⟨z, by rw [Bits.decRead, hw, res_bind_ok, hz], ?_⟩
    rw [ez, ew, List.reverse_cons, Nat.ofDigits_append, Nat.ofDigits_singleton, List.length_reverse, List.length_cons]
    apply BitVec.eq_of_toNat_eq
    simp only [BitVec.toNat_ofNat, BitVec.toNat_add, BitVec.toNat_mul, Nat.add_mod_mod, Nat.mod_add_mod, Nat.mul_mod_mod]
    rw [Nat.add_mod, Nat.mul_mod, Nat.mod_mod, ← Nat.mul_mod, ← Nat.add_mod]
    congr 1
    ring

/-- **C219, round trip.** From zero, the decimal digits of a number below `2^n` give that number. -/
theorem C219_round_trip (h1 : 1 < n) (hN : n ≤ 2 ^ 32) (k : Nat) (hk : k < 2 ^ n) :
    ∃ z, (Bits.zero : Bits n false).decRead (Nat.digits 10 k).reverse = .ok z ∧ z.bv.toNat = k := by
  obtain ⟨z, hz, e⟩ := C219_horner h1 hN (Bits.zero : Bits n false) (Nat.digits 10 k).reverse
    fun d hd => Nat.digits_lt_base (by decide) (List.mem_reverse.1 hd)
  refine ⟨z, hz, ?_⟩
  rw [e, Bits.bv_zero, List.reverse_reverse, Nat.ofDigits_digits, BitVec.toNat_ofNat]
  simp [Nat.mod_eq_of_lt hk]

/-- the digits 3, 0, 7 read into 12 bits, and into 70 bits after 5 -/
example : (((Bits.zero : Bits 12 false).decRead [3, 0, 7]).map fun z => z.bv.toNat) = .ok 307 ∧
    (((Bits.ofInt 5 : Bits 70 false).decRead [3, 0, 7]).map fun z => z.bv.toNat) = .ok 5307 := by decide +kernel

end Verif
