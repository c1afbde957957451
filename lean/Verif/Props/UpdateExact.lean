import Verif.Props.Update
import Verif.Lemmas.AccessExact
import Verif.Lemmas.ShiftExact

/-!
# 2-state slice assignment with a native operand, at every bound (C57)

Completes `Props/Update.lean`: a native operand that is shorter than the bits read.
-/

namespace Verif

variable {n m : Nat} {s t : Bool}

/-- the update loop, when the reads are known and none of them faults -/
theorem Bits.update_loop_of (r ro : Rng) (x : Bits r.size s) (op : Bits m t) (hr : r.lo = 0) (hR : r.hi < 2 ^ 31)
    (st c : Int) (d : Nat) (h0 : 0 ≤ st) (hd : st + d ≤ r.hi + 1) (f : Nat → Bool)
    (hf : ∀ k : Nat, k < d → op.get ro (c + k) = .ok (f k)) :
    ∃ y, (loopM 0 d x fun k x => (op.get ro (c + (k : Nat))).bind fun b => x.setBit r (st + (k : Nat)) b) = .ok y ∧
      (∀ k : Nat, k < d → y.raw (r.pos (st + k)) = f k) ∧
      ∀ j, (∀ k : Nat, k < d → j ≠ r.pos (st + k)) → y.raw j = x.raw j := by
  have hs := Lg.size_hi hr
  refine loopM_induct 0 d x _ (fun K (y : Bits r.size s) =>
    (∀ k : Nat, k < K → y.raw (r.pos (st + k)) = f k) ∧
      ∀ j, (∀ k : Nat, k < K → j ≠ r.pos (st + k)) → y.raw j = x.raw j) (Nat.zero_le _)
    ⟨fun k hk => absurd hk (by omega), fun j _ => rfl⟩ ?_
  rintro i z - hi ⟨h1, h2⟩
  have hin : st + i ≤ r.hi := by omega
  have hps : r.pos (st + i) < r.size := Rng.pos_lt (by omega) hin
  obtain ⟨w, hw, hwr⟩ := setBit_phys r z (st + i) _ (physIdx_pos hr (by omega) hin) hr hps (by omega) (f i)
  refine ⟨w, by rw [hf i hi, res_bind_ok, hw], fun k hk' => ?_, fun j hj => ?_⟩
  · rw [hwr]
    by_cases hki : k = i
    · subst hki; rw [if_pos rfl]
    · rw [if_neg, h1 k (by omega)]
      intro e
      have := Rng.pos_inj (r := r) (by omega) (by omega) (by omega) hin e
      omega
  · rw [hwr, if_neg (hj i (by omega))]
    exact h2 j fun k hk => hj k (by omega)

/-- the loop stops at the first read that faults -/
theorem Bits.update_loop_fault (r ro : Rng) (x : Bits r.size s) (op : Bits m t) (hr : r.lo = 0) (hR : r.hi < 2 ^ 31)
    (st c : Int) (d : Nat) (h0 : 0 ≤ st) (hd : st + d ≤ r.hi + 1) (f : Nat → Bool) {e : Fault} (d0 : Nat) (hd0 : d0 < d)
    (hf : ∀ k : Nat, k < d0 → op.get ro (c + k) = .ok (f k)) (hg : op.get ro (c + d0) = .error e) :
    (loopM 0 d x fun k x => (op.get ro (c + (k : Nat))).bind fun b => x.setBit r (st + (k : Nat)) b) =
      .error e := by
  obtain ⟨y, hy, -⟩ := Bits.update_loop_of r ro x op hr hR st c d0 h0 (by omega) f hf
  obtain ⟨j, rfl⟩ : ∃ j, d = d0 + (j + 1) := ⟨d - d0 - 1, by omega⟩
  clear hd hd0
  induction j with
  | zero =>
    have := loopM_succ 0 d0 x (fun (k : Nat) x => (op.get ro (c + (k : Nat))).bind fun b => x.setBit r (st + (k : Nat)) b)
    rw [Nat.zero_add, Nat.zero_add] at this
    rw [this, hy, res_bind_ok, hg]; rfl
  | succ j ih =>
    have := loopM_succ 0 (d0 + (j + 1)) x
      (fun (k : Nat) x => (op.get ro (c + (k : Nat))).bind fun b => x.setBit r (st + (k : Nat)) b)
    rw [Nat.zero_add, Nat.zero_add] at this
    rw [show d0 + (j + 1 + 1) = d0 + (j + 1) + 1 by omega, this, ih]; rfl

/-- bit `p` of a canonical value extended by its sign -/
def Bits.extBit (op : Bits m t) (p : Nat) : Bool :=
  if p < m then op.bv.getLsbD p else t && decide (1 < m) && op.bv.msb

theorem Bits.get_down_native (hm : 0 < m) (h : m ≤ 64) {op : Bits m t} (hc : op.Clean) (p : Nat) :
    op.get (Rng.down m) p = if p < (if m ≤ 32 then 32 else 64) then .ok (op.extBit p) else .error .shift := by
  have hbe : (Rng.down m).bigEndian = true := by simp [Rng.down, Rng.bigEndian]; omega
  have hp : Bits.physIdx (Rng.down m) (p : Int) = p := by rw [Bits.physIdx, if_pos hbe]
  have hW : (holderTy m t).promote.width = if m ≤ 32 then 32 else 64 := by
    rw [Bits.promote_width_holder, hw]; split_ifs <;> omega
  by_cases hpw : p < (if m ≤ 32 then 32 else 64)
  · rw [if_pos hpw, Bits.extBit]
    by_cases hpm : p < m
    · rw [if_pos hpm, Bits.get_phys (Rng.down m) op p p hp hpm (by omega)]
    · rw [if_neg hpm, Bits.get_native_clean (Rng.down m) h hc p p hp (by omega) (by omega)]
  · rw [if_neg hpw, Bits.get_native_fault (Rng.down m) h op p (Or.inr (by rw [hp]; omega))]

theorem Bits.update_native (hn : 0 < n) (hm : 0 < m) (hN : n ≤ 2 ^ 31) (h : m ≤ 64) (x : Bits n s)
    {op : Bits m t} (hc : op.Clean) (a b c : Nat) (ha : a < n) (hb : b < n) :
    (c + (max a b - min a b) < (if m ≤ 32 then 32 else 64) →
      ∃ y, (loopM 0 (max a b - min a b + 1) x fun k x => (op.get (Rng.down m) ((c : Int) + (k : Nat))).bind fun v =>
          x.setBit (Rng.down n) (((min a b : Nat) : Int) + (k : Nat)) v) = .ok y ∧
        (∀ i, i < n → y.bv.getLsbD i =
          if min a b ≤ i ∧ i ≤ max a b then op.extBit (c + (i - min a b)) else x.bv.getLsbD i) ∧
        (s = false → x.Clean → y.Clean)) ∧
    (¬ c + (max a b - min a b) < (if m ≤ 32 then 32 else 64) →
      (loopM 0 (max a b - min a b + 1) x fun k x => (op.get (Rng.down m) ((c : Int) + (k : Nat))).bind fun v =>
          x.setBit (Rng.down n) (((min a b : Nat) : Int) + (k : Nat)) v) = .error .shift) := by
  obtain ⟨l1, l2, l3, l4⟩ := Rng.down_lo' n hn
  have hget : ∀ k : Nat, op.get (Rng.down m) ((c : Int) + (k : Nat)) =
      if c + k < (if m ≤ 32 then 32 else 64) then .ok (op.extBit (c + k)) else .error .shift := by
    intro k
    rw [show (c : Int) + (k : Nat) = ((c + k : Nat) : Int) by omega, Bits.get_down_native hm h hc]
  have hpos : ∀ k : Nat, (Rng.down n).pos ((min a b : Nat) + (k : Int)) = min a b + k := fun k => by
    rw [show ((min a b : Nat) + (k : Int) : Int) = ((min a b + k : Nat) : Int) by omega, Rng.pos_down hn]
  have key := Bits.update_loop_of (m := m) (s := s) (t := t) (Rng.down n) (Rng.down m)
  have key2 := @Bits.update_loop_fault m s t (Rng.down n) (Rng.down m)
  rw [l4] at key key2
  constructor
  · intro hlt
    obtain ⟨y, hy, h1, h2⟩ := key x op l1 (by omega) (min a b : Nat) (c : Nat) (max a b - min a b + 1)
      (by omega) (by omega) (fun k => op.extBit (c + k)) (fun k hk => by rw [hget, if_pos (by omega)])
    refine ⟨y, hy, fun i hi => ?_, ?_⟩
    · rw [Bits.getLsbD_bv y]
      by_cases hin : min a b ≤ i ∧ i ≤ max a b
      · have := h1 (i - min a b) (by omega)
        rw [hpos, show min a b + (i - min a b) = i by omega] at this
        rw [if_pos hin, this]; simp [hi]
      · rw [if_neg hin, Bits.getLsbD_bv x, h2 i fun k hk e => by rw [hpos] at e; omega]
    · intro hs hc
      subst hs
      rw [Bits.clean_unsigned_iff] at hc ⊢
      intro i hi
      rw [h2 i fun k hk e => by rw [hpos] at e; omega]
      exact hc i hi
  · intro hge
    by_cases hc0 : c < (if m ≤ 32 then 32 else 64)
    · refine key2 x op l1 (by omega) (min a b : Nat) (c : Nat) (max a b - min a b + 1)
        (by omega) (by omega) (fun k => op.extBit (c + k)) ((if m ≤ 32 then 32 else 64) - c) (by omega)
        (fun k hk => by rw [hget, if_pos (by omega)]) ?_
      rw [hget, if_neg (by omega)]
    · refine key2 x op l1 (by omega) (min a b : Nat) (c : Nat) (max a b - min a b + 1)
        (by omega) (by omega) (fun k => op.extBit (c + k)) 0 (by omega)
        (fun k hk => absurd hk (by omega)) ?_
      rw [hget, if_neg (by omega)]

/-- **C57, run-time bounds, native operands, exactly.** The operand is extended by its sign
to the 32 or 64 bits of its promoted type: within that the slice receives it, beyond it
the update is undefined behaviour. -/
theorem C57_rt_native_exact (hn : 0 < n) (hm : 0 < m) (hN : n ≤ 2 ^ 31) (h : m ≤ 64) (x : Bits n s)
    (op : Bits m t) (hc : op.Clean) (a b : Nat) (ha : a < n) (hb : b < n) :
    (max a b - min a b < (if m ≤ 32 then 32 else 64) →
      ∃ y, x.updateRt (Rng.down n) a b (Rng.down m) op = .ok y ∧
        (∀ i, i < n → y.bv.getLsbD i =
          if min a b ≤ i ∧ i ≤ max a b then
            (if i - min a b < m then op.bv.getLsbD (i - min a b) else t && decide (1 < m) && op.bv.msb)
          else x.bv.getLsbD i) ∧
        (s = false → x.Clean → y.Clean)) ∧
    (¬ max a b - min a b < (if m ≤ 32 then 32 else 64) →
      x.updateRt (Rng.down n) a b (Rng.down m) op = .error .shift) := by
  obtain ⟨l1, l2, l3, l4⟩ := Rng.down_lo' n hn
  obtain ⟨k1, k2, k3, k4⟩ := Rng.down_lo' m hm
  have e : x.updateRt (Rng.down n) a b (Rng.down m) op =
      loopM 0 (max a b - min a b + 1) x fun k x => (op.get (Rng.down m) (((0 : Nat) : Int) + (k : Nat))).bind fun v =>
          x.setBit (Rng.down n) (((min a b : Nat) : Int) + (k : Nat)) v := by
    rw [Bits.updateRt, l3, k3]
    simp only [Bool.xor_self, Bool.false_eq_true, if_false]
    rw [show (max (a : Int) b + 1 - min (a : Int) b).toNat = max a b - min a b + 1 by omega]
    congr 1
    funext k z
    rw [show min (a : Int) b + (k : Int) - min (a : Int) b = ((0 : Nat) : Int) + k by omega,
      show min (a : Int) b = ((min a b : Nat) : Int) by omega]
  have := Bits.update_native hn hm hN h x hc a b 0 ha hb
  rw [e]
  simp only [Nat.zero_add, Bits.extBit] at this
  exact this

/-- **C57, constant bounds, native operands, exactly.** Bit `i` of the slice receives bit
`i` of the operand extended by its sign, not bit `i - lo`; when the slice reaches past the
promoted type of the operand the update is undefined behaviour. -/
theorem C57_native_exact (hn : 0 < n) (hm : 0 < m) (hN : n ≤ 2 ^ 31) (h : m ≤ 64) (x : Bits n s)
    (op : Bits m t) (hc : op.Clean) (a b : Nat) (ha : a < n) (hb : b < n) :
    (max a b < (if m ≤ 32 then 32 else 64) →
      ∃ y, x.update (Rng.down n) a b (Rng.down m) op = .ok y ∧
        (∀ i, i < n → y.bv.getLsbD i =
          if min a b ≤ i ∧ i ≤ max a b then
            (if i < m then op.bv.getLsbD i else t && decide (1 < m) && op.bv.msb)
          else x.bv.getLsbD i) ∧
        (s = false → x.Clean → y.Clean)) ∧
    (¬ max a b < (if m ≤ 32 then 32 else 64) →
      x.update (Rng.down n) a b (Rng.down m) op = .error .shift) := by
  obtain ⟨l1, l2, l3, l4⟩ := Rng.down_lo' n hn
  obtain ⟨k1, k2, k3, k4⟩ := Rng.down_lo' m hm
  have e : x.update (Rng.down n) a b (Rng.down m) op =
      loopM 0 (max a b - min a b + 1) x fun k x =>
        (op.get (Rng.down m) (((min a b : Nat) : Int) + (k : Nat))).bind fun v =>
          x.setBit (Rng.down n) (((min a b : Nat) : Int) + (k : Nat)) v := by
    rw [Bits.update, l3, k3]
    simp only [Bool.xor_self, Bool.false_eq_true, if_false]
    rw [show (max (a : Int) b + 1 - min (a : Int) b).toNat = max a b - min a b + 1 by omega]
    congr 1
    funext k z
    rw [show min (a : Int) b = ((min a b : Nat) : Int) by omega]
  have := Bits.update_native hn hm hN h x hc a b (min a b) ha hb
  rw [e]
  rw [show min a b + (max a b - min a b) = max a b by omega] at this
  refine ⟨fun hlt => ?_, this.2⟩
  obtain ⟨y, hy, h1, h2⟩ := this.1 hlt
  refine ⟨y, hy, fun i hi => ?_, h2⟩
  rw [h1 i hi]
  split_ifs with hin him <;> simp only [Bits.extBit]
  · rw [if_pos (by omega), show min a b + (i - min a b) = i by omega]
  · rw [if_neg (by omega)]

/-- **C57 is false for every native unsigned operand and every slice that starts above it**:
the slice of the target is cleared, whatever the operand is. -/
theorem C57_native_refuted (hm : 0 < m) (hN : n ≤ 2 ^ 31) (h : m ≤ 64) (x : Bits n s) (op : Bits m false)
    (hc : op.Clean) (hi lo : Nat) (hle : lo ≤ hi) (hhi : hi < n) (hlo : m ≤ lo)
    (hW : hi < (if m ≤ 32 then 32 else 64)) :
    ∃ y, x.update (Rng.down n) hi lo (Rng.down m) op = .ok y ∧
      ∀ i, i < n → y.bv.getLsbD i = if lo ≤ i ∧ i ≤ hi then false else x.bv.getLsbD i := by
  have e1 : max hi lo = hi := by omega
  have e2 : min hi lo = lo := by omega
  obtain ⟨y, hy, hb, -⟩ := (C57_native_exact (by omega) hm hN h x op hc hi lo hhi (by omega)).1 (by rw [e1]; exact hW)
  refine ⟨y, hy, fun i hin => ?_⟩
  rw [hb i hin, e1, e2]
  split_ifs with h1 h2
  · omega
  · rfl
  · rfl

-- a signed 4-bit -3 written over bits 7 .. 0: extended by its sign
example : ((Bits.ofInt 0 : Bits 12 false).updateRt (Rng.down 12) 9 2 (Rng.down 4) (Bits.ofInt (-3) : Bits 4 true)).map
    (·.bv) = .ok 0b001111110100#12 := by decide +kernel
-- with constant bounds bits 9 .. 2 of the extended operand are written
example : ((Bits.ofInt 0 : Bits 12 false).update (Rng.down 12) 9 2 (Rng.down 4) (Bits.ofInt (-3) : Bits 4 true)).map
    (·.bv) = .ok 0b001111111100#12 := by decide +kernel
example : (Bits.ofInt 0 : Bits 40 false).update (Rng.down 40) 32 30 (Rng.down 4) (Bits.ofInt 5 : Bits 4 false) =
    .error .shift := by decide +kernel

end Verif
