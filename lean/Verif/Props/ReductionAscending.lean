import Verif.Props.Reduction
import Verif.Lemmas.AccessExact

/-!
# Reductions on ascending ranges that do not start at 0 (C17, C18)

`r_and` and `r_or` index their planes with `0, 1, ..., size - 1` (`logic.hh` 488-496, 502-510). On `logic<4, 7>` these are not the names of the bits: index `i` is read at
position `lsb - i`, from 7 down to 4, of a vector with the positions 0 to 3.
-/

namespace Verif

variable {n : Nat} {s : Bool}

/-- the number of bits of the type a native vector of `n` bits is promoted to -/
def promotedBits (n : Nat) : Nat := if n ≤ 32 then 32 else 64

theorem promote_width (h : n ≤ 64) (s : Bool) : (holderTy n s).promote.width = promotedBits n := by
  rw [promotedBits, holderTy]
  by_cases h1 : n ≤ 1
  · rw [if_pos h1, if_pos (by omega)]; rfl
  · rw [if_neg h1]
    by_cases h8 : n ≤ 8
    · simp [hw, h1, h8, show n ≤ 32 by omega, CTy.promote, CTy.width]
    · by_cases h16 : n ≤ 16
      · simp [hw, h1, h8, h16, show n ≤ 32 by omega, CTy.promote, CTy.width]
      · by_cases h32 : n ≤ 32
        · simp [hw, h1, h8, h16, h32, CTy.promote, CTy.width]
        · simp [hw, h1, h8, h16, h32, CTy.promote, CTy.width]

/-- reading any position that the promoted type has -/
theorem Bits.get_clean_any (r : Rng) {x : Bits n false} (hx : x.Clean) (idx : Int) (p : Nat) (hp : physIdx r idx = p) (hN : n ≤ 2 ^ 32) (hp2 : p < 2 ^ 32)
    (hw' : n ≤ 64 → p < promotedBits n) : x.get r idx = .ok (x.bv.getLsbD p) := by
  by_cases hpn : p < n
  · exact get_phys r x idx p hp hpn hN
  rw [BitVec.getLsbD_of_ge _ _ (by omega)]
  by_cases h : n ≤ 64
  · rw [get_native_clean r h hx idx p hp (by omega) (by rw [promote_width h]; exact hw' h)]; simp
  · apply get_big_out r h
    rw [hp, tU64, CTy.conv_unsigned_of_lt (by omega) (by omega)]; omega

theorem Lg.rOrLoop_at (r : Rng) (x : Lg n s) (q : Nat → Nat) (hq : ∀ k, k < n → x.value.get r k = .ok (x.value.bv.getLsbD (q k)) ∧
    x.xz.get r k = .ok (x.xz.bv.getLsbD (q k))) : ∀ k i, i + k = n →
      (x.rOrLoop r i k).map (·.at 0) = .ok (firstNot .b0 (fun j => x.at (q j)) i k) := by
  intro k
  induction k with
  | zero => intro i _; rfl
  | succ k ih =>
    intro i hi
    obtain ⟨e1, e2⟩ := hq i (by omega)
    rw [Lg.rOrLoop, e1, e2, res_bind_ok, res_bind_ok, firstNot]
    have ih := ih (i + 1) (by omega)
    have ha : x.at (q i) = V4.mk (x.value.bv.getLsbD (q i)) (x.xz.bv.getLsbD (q i)) := rfl
    simp only [ha]
    generalize x.value.bv.getLsbD (q i) = v
    generalize x.xz.bv.getLsbD (q i) = w
    cases v <;> cases w <;> first | exact ih | rfl

theorem Lg.at_of_ge (x : Lg n s) {i : Nat} (hi : n ≤ i) : x.at i = .b0 := by
  rw [Lg.at, BitVec.getLsbD_of_ge _ _ hi, BitVec.getLsbD_of_ge _ _ hi]; rfl

/-- what the loops do on ascending ranges with a positive low bound -/
theorem Lg.reduce_ascending (r : Rng) (x : Lg r.size false) (hx : x.Clean) (ha : r.msb < r.lsb) (h0 : 0 < r.lo) (hN : r.hi < 2 ^ 31) :
    (r.size ≤ 64 → (promotedBits r.size : Int) ≤ r.hi → x.rAnd r = .error .shift ∧ x.rOr r = .error .shift) ∧
    ((r.size ≤ 64 → r.hi < promotedBits r.size) →
      x.rAnd r = .ok Lg.zero1 ∧
      ∃ y, x.rOr r = .ok y ∧
        ((∀ i : Nat, r.lo ≤ i → i < r.size → x.at i = .b0) → y.at 0 = .b0) ∧
        ∀ p : Nat, r.lo ≤ p → p < r.size → x.at p ≠ .b0 → (∀ i, p < i → i < r.size → x.at i = .b0) →
          y.at 0 = if (x.at p).isKnown then .b1 else .x) := by
  have hlo : r.lo = r.msb := by rw [Rng.lo]; omega
  have hhi : r.hi = r.lsb := by rw [Rng.hi]; omega
  have hsz : (r.size : Int) = r.lsb - r.msb + 1 := by rw [Rng.size]; omega
  have hpos : ∀ k : Nat, Bits.physIdx r k = r.lsb - k := fun k => by
    rw [Bits.physIdx, Rng.bigEndian, if_neg (by simpa using ha)]
  constructor
  · intro h hp
    have hf : ∀ b : Bits r.size false, b.get r ((0 : Nat) : Int) = .error .shift := fun b =>
      Bits.get_native_fault r h b _ (.inr (by rw [promote_width h, hpos]; omega))
    obtain ⟨k, hk⟩ : ∃ k, r.size = k + 1 := ⟨r.size - 1, by omega⟩
    have e1 : ∀ k, x.rAndLoop r 0 (k + 1) = .error .shift := fun k => by rw [Lg.rAndLoop, hf]; rfl
    have e2 : ∀ k, x.rOrLoop r 0 (k + 1) = .error .shift := fun k => by rw [Lg.rOrLoop, hf]; rfl
    have n0 : r.size - 1 + 1 = r.size := by omega
    exact ⟨by have := e1 (r.size - 1); rwa [n0] at this, by have := e2 (r.size - 1); rwa [n0] at this⟩
  · intro hw'
    have hg : ∀ k : Nat, k < r.size → ∀ b : Bits r.size false, b.Clean → b.get r k = .ok (b.bv.getLsbD (r.lsb.toNat - k)) := fun k hk b hb => by
      apply Bits.get_clean_any r hb k (r.lsb.toNat - k) (by rw [hpos]; omega) (by omega) (by omega)
      intro h; have := hw' h; omega
    constructor
    · have e1 : ∀ k, x.rAndLoop r 0 (k + 1) = .ok Lg.zero1 := fun k => by
        have g1 := hg 0 (by omega) x.value hx.1
        have g2 := hg 0 (by omega) x.xz hx.2
        rw [BitVec.getLsbD_of_ge _ _ (by omega)] at g1 g2
        rw [Lg.rAndLoop, g1, g2]; rfl
      have n0 : r.size - 1 + 1 = r.size := by omega
      have := e1 (r.size - 1)
      rwa [n0] at this
    · have e := Lg.rOrLoop_at r x (fun k => r.lsb.toNat - k) (fun k hk => ⟨hg k hk _ hx.1, hg k hk _ hx.2⟩) r.size 0 (by omega)
      rw [show x.rOrLoop r 0 r.size = x.rOr r from rfl] at e
      cases hy : x.rOr r with
      | error f => rw [hy] at e; cases e
      | ok y =>
        rw [hy] at e
        replace e : y.at 0 = _ := Except.ok.inj e
        refine ⟨y, rfl, fun hz => ?_, fun p hp hps hne hhigh => ?_⟩
        · rw [e]
          apply firstNot_all
          intro j _ hj
          by_cases hl : r.lsb.toNat - j < r.size
          · exact hz _ (by omega) hl
          · exact Lg.at_of_ge x (by omega)
        · rw [e, firstNot_at (p := r.lsb.toNat - p) .b0 (fun j => x.at (r.lsb.toNat - j)) (by
            rw [show r.lsb.toNat - (r.lsb.toNat - p) = p by omega]; exact hne) _ _ (by omega) (by omega)]
          · rw [show r.lsb.toNat - (r.lsb.toNat - p) = p by omega]
            revert hne
            generalize x.at p = a
            cases a <;> intro hne <;> first | rfl | exact absurd rfl hne
          · intro j _ hj
            by_cases hl : r.lsb.toNat - j < r.size
            · exact hhigh _ (by omega) hl
            · exact Lg.at_of_ge x (by omega)

/-- **C17 is false on every ascending range with a positive low bound** (canonical unsigned vectors). If the high bound is not below the width of the promoted type (32 or 64 bits; native vectors) `r_and` shifts by
too much, which is undefined. Otherwise it is 0 whatever the vector holds. -/
theorem C17_ascending_refuted (r : Rng) (x : Lg r.size false) (hx : x.Clean) (ha : r.msb < r.lsb) (h0 : 0 < r.lo) (hN : r.hi < 2 ^ 31) :
    (r.size ≤ 64 → (promotedBits r.size : Int) ≤ r.hi → x.rAnd r = .error .shift) ∧
    ((r.size ≤ 64 → r.hi < promotedBits r.size) → ∃ y, x.rAnd r = .ok y ∧ y.at 0 = .b0) :=
  ⟨fun h h' => ((Lg.reduce_ascending r x hx ha h0 hN).1 h h').1, fun h => ⟨_, ((Lg.reduce_ascending r x hx ha h0 hN).2 h).1, by decide⟩⟩

/-- **C18, exactly, on ascending ranges with a positive low bound** (canonical unsigned vectors). `r_or` shifts by too much as `r_and` does, or it sees only the positions from the low bound on: it is 0 if these are,
otherwise the highest of them that is not 0 decides. A one below the low bound is missed. -/
theorem C18_ascending_refuted (r : Rng) (x : Lg r.size false) (hx : x.Clean) (ha : r.msb < r.lsb) (h0 : 0 < r.lo) (hN : r.hi < 2 ^ 31) :
    (r.size ≤ 64 → (promotedBits r.size : Int) ≤ r.hi → x.rOr r = .error .shift) ∧
    ((r.size ≤ 64 → r.hi < promotedBits r.size) →
      ∃ y, x.rOr r = .ok y ∧
        ((∀ i : Nat, r.lo ≤ i → i < r.size → x.at i = .b0) → y.at 0 = .b0) ∧
        ∀ p : Nat, r.lo ≤ p → p < r.size → x.at p ≠ .b0 → (∀ i, p < i → i < r.size → x.at i = .b0) →
          y.at 0 = if (x.at p).isKnown then .b1 else .x) :=
  ⟨fun h h' => ((Lg.reduce_ascending r x hx ha h0 hN).1 h h').2, fun h => ((Lg.reduce_ascending r x hx ha h0 hN).2 h).2⟩

-- logic<4, 7> with all bits 1: both reductions should be 1 and are 0; on logic<1, 4> the vector 1 has r_or 0 but 8 has 1; logic<30, 33> shifts too far
example : ((⟨Bits.ofInt 15, Bits.zero⟩ : Lg 4 false).rAnd ⟨4, 7⟩).map (·.at 0) = .ok .b0 ∧ ((⟨Bits.ofInt 15, Bits.zero⟩ : Lg 4 false).rOr ⟨4, 7⟩).map (·.at 0) = .ok .b0 ∧
    ((⟨Bits.ofInt 1, Bits.zero⟩ : Lg 4 false).rOr ⟨1, 4⟩).map (·.at 0) = .ok .b0 ∧ ((⟨Bits.ofInt 8, Bits.zero⟩ : Lg 4 false).rOr ⟨1, 4⟩).map (·.at 0) = .ok .b1 ∧
    ((⟨Bits.ofInt 15, Bits.zero⟩ : Lg 4 false).rAnd ⟨30, 33⟩).map (·.at 0) = .error .shift := by decide +kernel

end Verif
