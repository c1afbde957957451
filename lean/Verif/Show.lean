import Verif.Abs

/-! Printing of results, used in the concrete cases beside the theorems. -/

namespace Verif

/-- the bits of a result, lowest first; `none` for a fault -/
def Lg.bits {n : Nat} {s : Bool} (r : Res (Lg n s)) : Option (List V4) :=
  r.toOption.map fun z => (List.range n).map z.at

/-- the bits of a result as an unsigned number; `none` for a fault -/
def Bits.num {n : Nat} {s : Bool} (r : Res (Bits n s)) : Option Nat :=
  r.toOption.map fun z => z.bv.toNat

instance {n : Nat} {s : Bool} (x : Bits n s) : Decidable x.Clean :=
  match x with
  | .nat _ _ => inferInstanceAs (Decidable (_ = _))
  | .big _ _ => inferInstanceAs (Decidable (_ < _))

instance {n : Nat} {s : Bool} (x : Lg n s) : Decidable x.Clean :=
  inferInstanceAs (Decidable (_ ∧ _))

instance {n : Nat} {s : Bool} (x : Lg n s) : Decidable x.Known :=
  inferInstanceAs (Decidable (_ ∧ _))

instance {n : Nat} (b : BitVec n) : Decidable (LowHalves b) :=
  decidable_of_iff
    ((List.range (n / 64 + 1)).all (fun c => !(List.range 64).any (fun j => b.getLsbD (64 * c + j)) ||
      (List.range 32).any (fun j => b.getLsbD (64 * c + j))) = true) (by
    simp only [List.all_eq_true, Bool.or_eq_true, Bool.not_eq_true', ← Bool.not_eq_true,
      List.any_eq_true, List.mem_range]
    constructor
    · intro h c hc
      by_cases hlt : c < n / 64 + 1
      · exact (h c hlt).resolve_left fun hn => hn hc
      · obtain ⟨j, _, hj⟩ := hc
        rw [BitVec.getLsbD_of_ge _ _ (by omega)] at hj
        exact absurd hj (by decide)
    · intro h c _
      exact (Classical.em _).symm.imp id fun hc => h c hc)

instance {n : Nat} {s : Bool} : Inhabited (Bits n s) := ⟨Bits.zero⟩
instance {n : Nat} {s : Bool} : Inhabited (Lg n s) := ⟨⟨Bits.zero, Bits.zero⟩⟩

end Verif
