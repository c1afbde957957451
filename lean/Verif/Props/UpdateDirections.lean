import Verif.Props.Update

/-!
# Slice assignment between ranges of either direction (C55, C56)

`update_` (`logic.hh` 1133-1183) mirrors the index when target and operand are declared in
different directions, and subtracts the lower bound of the slice after it mirrored. The theorem
here says which operand bit every target bit receives, for all four combinations of directions,
and exactly when the update is undefined.
-/

namespace Verif

variable {n m : Nat} {s t : Bool}

namespace Lg

/-- the loop, when every step stores a bit -/
theorem update_gen (r ro : Rng) (x : Lg r.size s) (op : Lg m t) (hN : r.size ≤ 2 ^ 32) {a b : Int}
    (ha : r.lo ≤ a ∧ a ≤ r.hi) (hb : r.lo ≤ b ∧ b ≤ r.hi)
    (hphys : ∀ i, r.lo ≤ i → i ≤ r.hi → Bits.physIdx r i - r.lo = r.pos i) (S : Nat → V4)
    (hstep : ∀ i : Nat, (i : Int) ≤ max a b - min a b → ∃ c : Lg 1 false,
      (∀ z : Lg r.size s, updateStep r (min a b) ro op (min a b + i) z = z.setL r (min a b + i) c) ∧ c.at 0 = S i) :
    ∃ y, x.update r a b ro op = .ok y ∧
      (∀ k : Nat, (k : Int) ≤ max a b - min a b → y.at (r.pos (min a b + k)) = S k) ∧
      ∀ j, (∀ k : Nat, (k : Int) ≤ max a b - min a b → j ≠ r.pos (min a b + k)) →
        y.value.raw j = x.value.raw j ∧ y.xz.raw j = x.xz.raw j := by
  have hmin : r.lo ≤ min a b := by omega
  have hmax : max a b ≤ r.hi := by omega
  generalize hst : min a b = st at *
  generalize hen : max a b = en at *
  have hle : st ≤ en := by omega
  obtain ⟨y, hy, hP⟩ := loopM_induct 0 (en + 1 - st).toNat x
    (fun k x => updateStep r st ro op (st + k) x)
    (fun K y => (∀ k : Nat, k < K → y.at (r.pos (st + k)) = S k) ∧
      ∀ j, (∀ k : Nat, k < K → j ≠ r.pos (st + k)) → y.value.raw j = x.value.raw j ∧ y.xz.raw j = x.xz.raw j)
    (by omega) ⟨fun k hk => absurd hk (by omega), fun j _ => ⟨rfl, rfl⟩⟩ (by
      rintro i z - hi ⟨h1, h2⟩
      have hin : st + i ≤ r.hi := by omega
      have hps : r.pos (st + i) < r.size := Rng.pos_lt (by omega) hin
      obtain ⟨c, hc1, hc2⟩ := hstep i (by omega)
      obtain ⟨w, hw, hwv, hwk⟩ := setL_phys r z (st + i) _ (hphys _ (by omega) hin) hps hN c
      refine ⟨w, by rw [hc1, hw], fun k hk' => ?_, fun j hj => ?_⟩
      · rw [at_write hps hwv hwk, hold1_at, hc2]
        by_cases hki : k = i
        · subst hki; rw [if_pos rfl]
        · rw [if_neg, h1 k (by omega)]
          intro e
          have := Rng.pos_inj (r := r) (by omega) (by omega) (by omega) hin e
          omega
      · have hj' := hj i (by omega)
        rw [hwv, hwk, if_neg hj', if_neg hj']
        exact h2 j fun k hk => hj k (by omega))
  refine ⟨y, ?_, fun k hk' => hP.1 k (by omega), fun j hj => hP.2 j fun k hk' => hj k (by omega)⟩
  rw [Lg.update]
  simp only [hst, hen]
  exact hy

/-- the loop, when a step is undefined -/
theorem update_gen_fault (r ro : Rng) (x : Lg r.size s) (op : Lg m t) (hN : r.size ≤ 2 ^ 32) {a b : Int}
    (ha : r.lo ≤ a ∧ a ≤ r.hi) (hb : r.lo ≤ b ∧ b ≤ r.hi)
    (hphys : ∀ i, r.lo ≤ i → i ≤ r.hi → Bits.physIdx r i - r.lo = r.pos i)
    (hstep : ∀ i : Nat, (i : Int) ≤ max a b - min a b → (∃ c : Lg 1 false,
      ∀ z : Lg r.size s, updateStep r (min a b) ro op (min a b + i) z = z.setL r (min a b + i) c) ∨
      ∀ z : Lg r.size s, updateStep r (min a b) ro op (min a b + i) z = .error .shift)
    {k : Nat} (hk : (k : Int) ≤ max a b - min a b)
    (hbad : ∀ z : Lg r.size s, updateStep r (min a b) ro op (min a b + k) z = .error .shift) :
    x.update r a b ro op = .error .shift := by
  have hmin : r.lo ≤ min a b := by omega
  have hmax : max a b ≤ r.hi := by omega
  rw [Lg.update]
  generalize hst : min a b = st at *
  generalize hen : max a b = en at *
  have hstep' : ∀ i : Nat, i < (en + 1 - st).toNat → ∀ z : Lg r.size s,
      (∃ w, updateStep r st ro op (st + i) z = .ok w) ∨ updateStep r st ro op (st + i) z = .error .shift := by
    intro i hi z
    have hin : st + i ≤ r.hi := by omega
    have hps : r.pos (st + i) < r.size := Rng.pos_lt (by omega) hin
    rcases hstep i (by omega) with ⟨c, hc⟩ | hc
    · obtain ⟨w, hw, -⟩ := setL_phys r z (st + i) _ (hphys _ (by omega) hin) hps hN c
      exact Or.inl ⟨w, by rw [hc, hw]⟩
    · exact Or.inr (hc z)
  have hall : ∀ K : Nat, K ≤ (en + 1 - st).toNat →
      (K ≤ k → (∃ w, loopM 0 K x (fun i z => updateStep r st ro op (st + i) z) = .ok w) ∨
        loopM 0 K x (fun i z => updateStep r st ro op (st + i) z) = .error .shift) ∧
      (k < K → loopM 0 K x (fun i z => updateStep r st ro op (st + i) z) = .error .shift) := by
    intro K
    induction K with
    | zero => intro _; exact ⟨fun _ => Or.inl ⟨x, loopM_zero _ _ _ _ (by omega)⟩, fun h => absurd h (by omega)⟩
    | succ K ih =>
      intro hK
      obtain ⟨i1, i2⟩ := ih (by omega)
      have hsucc := loopM_succ 0 K x (fun (i : Nat) z => updateStep r st ro op (st + i) z)
      rw [Nat.zero_add, Nat.zero_add] at hsucc
      rw [hsucc]
      constructor
      · intro h
        rcases i1 (by omega) with ⟨w, hw⟩ | hw
        · rw [hw]; exact hstep' K (by omega) w
        · rw [hw]; exact Or.inr rfl
      · intro h
        by_cases hkK : k < K
        · rw [i2 hkK]; rfl
        · obtain rfl : k = K := by omega
          rcases i1 (le_refl _) with ⟨w, hw⟩ | hw
          · rw [hw, res_bind_ok, hbad w]
          · rw [hw]; rfl
  exact (hall _ (le_refl _)).2 (by omega)

end Lg

/-- the operand index that target index `i` is given: mirrored when the directions differ, the lower
bound `st` of the slice being subtracted from the mirrored index -/
def srcIdx (r ro : Rng) (st i : Int) : Int :=
  if (r.lsb ≤ r.msb ↔ ro.lsb ≤ ro.msb) then i - st else ro.hi - i - st

theorem srcIdx_eq (r ro : Rng) (st i : Int) :
    (if ro.bigEndian ^^ r.bigEndian then ro.hi - i else i) - st = srcIdx r ro st i := by
  unfold srcIdx Rng.bigEndian
  by_cases h1 : r.lsb ≤ r.msb <;> by_cases h2 : ro.lsb ≤ ro.msb <;> simp [h1, h2]

/-- **C55, exactly.** A target of either direction with low bound 0, or descending with any low bound
from 0 on, and an operand of either direction with low bound 0: target index `i` of the slice with
lower bound `lo` receives operand index `i - lo` when the directions agree, and `hi - i - lo`, with `hi`
the highest index of the operand, when they differ; zero when there is no such index. The update is
undefined exactly when one of the operand indices read is 64 or more and holds x or z. -/
theorem C55_exact (r ro : Rng) (x : Lg r.size s) (op : Lg ro.size t) (hr : r.lo = 0 ∨ (r.lsb ≤ r.msb ∧ 0 ≤ r.lo))
    (ho : ro.lo = 0) (hR : r.hi < 2 ^ 31) (hM : ro.hi < 2 ^ 31) (a b : Int)
    (ha : r.lo ≤ a ∧ a ≤ r.hi) (hb : r.lo ≤ b ∧ b ≤ r.hi) :
    ((∀ i, min a b ≤ i → i ≤ max a b → 64 ≤ srcIdx r ro (min a b) i → srcIdx r ro (min a b) i ≤ ro.hi →
        (op.at (ro.pos (srcIdx r ro (min a b) i))).isKnown = true) →
      ∃ y, x.update r a b ro op = .ok y ∧
        (∀ i, r.lo ≤ i → i ≤ r.hi → y.at (r.pos i) =
          if min a b ≤ i ∧ i ≤ max a b then
            (if 0 ≤ srcIdx r ro (min a b) i ∧ srcIdx r ro (min a b) i ≤ ro.hi then op.at (ro.pos (srcIdx r ro (min a b) i)) else .b0)
          else x.at (r.pos i)) ∧
        (s = false → x.Clean → y.Clean)) ∧
    (¬ (∀ i, min a b ≤ i → i ≤ max a b → 64 ≤ srcIdx r ro (min a b) i → srcIdx r ro (min a b) i ≤ ro.hi →
        (op.at (ro.pos (srcIdx r ro (min a b) i))).isKnown = true) →
      x.update r a b ro op = .error .shift) := by
  have hlo : 0 ≤ r.lo := by omega
  have hN : r.size ≤ 2 ^ 32 := by simp only [Rng.lo, Rng.hi, Rng.size] at *; omega
  have hphys : ∀ i, r.lo ≤ i → i ≤ r.hi → Bits.physIdx r i - r.lo = r.pos i := by
    intro i h1 h2
    simp only [Rng.pos, Rng.lo, Rng.hi, Bits.physIdx, Rng.bigEndian] at *
    simp only [decide_eq_true_eq]; split_ifs <;> omega
  have hi0 : 0 ≤ ro.hi := by simp only [Rng.lo, Rng.hi] at *; omega
  have step : ∀ (i : Int) (z : Lg r.size s), r.lo ≤ i → i ≤ r.hi → r.lo ≤ min a b → min a b ≤ i →
      Lg.updateStep r (min a b) ro op i z =
        if 0 ≤ srcIdx r ro (min a b) i ∧ srcIdx r ro (min a b) i ≤ ro.hi then
          (op.get ro (srcIdx r ro (min a b) i)).bind fun c => z.setL r i c
        else z.setL r i Lg.zero1 := by
    intro i z h1 h2 h3 h4
    have e2 : tU64.conv ro.hi = ro.hi := tU64_conv_of hi0 (by omega)
    have e3 : tU64.conv ro.lo = 0 := by rw [ho]; exact tU64_conv_of (by omega) (by omega)
    have hb1 : -2 ^ 33 < srcIdx r ro (min a b) i ∧ srcIdx r ro (min a b) i < 2 ^ 33 := by
      unfold srcIdx; split_ifs <;> omega
    unfold Lg.updateStep
    simp only [srcIdx_eq, e2, e3]
    generalize srcIdx r ro (min a b) i = j at *
    by_cases hj : 0 ≤ j
    · have e1 : tU64.conv j = j := tU64_conv_of hj (by omega)
      rw [e1]
      by_cases hj2 : j ≤ ro.hi
      · rw [if_neg (by omega), if_pos ⟨hj, hj2⟩, tInt_conv_of (by omega) (by omega)]
      · rw [if_pos (by omega), if_neg (by omega)]
    · have e1 : tU64.conv j = j + 2 ^ 64 := by
        simp only [CTy.conv, tU64, Bool.false_eq_true, if_false]
        omega
      rw [if_pos (by rw [e1]; omega), if_neg (by omega)]
  -- reading an operand bit
  have rd : ∀ j : Int, 0 ≤ j → j ≤ ro.hi →
      if j < 64 ∨ (op.at (ro.pos j)).isKnown = true then ∃ c, op.get ro j = .ok c ∧ c.at 0 = op.at (ro.pos j)
      else op.get ro j = .error .shift := by
    intro j h1 h2
    obtain ⟨k, rfl⟩ := Int.eq_ofNat_of_zero_le h1
    split_ifs with h
    · obtain ⟨c, hc1, hc2⟩ := Lg.get_src ro op ho hM k h2 (h.imp (fun h => by omega) id)
      exact ⟨c, hc1, by rw [hc2, Lg.src, if_pos h2]⟩
    · exact Lg.get_fault ro op ho hM k h2 fun h' => h (h'.imp (fun h => by omega) id)
  constructor
  · intro hk
    obtain ⟨y, hy, h1, h2⟩ := Lg.update_gen r ro x op hN ha hb hphys
      (fun k => if 0 ≤ srcIdx r ro (min a b) (min a b + k) ∧ srcIdx r ro (min a b) (min a b + k) ≤ ro.hi then
        op.at (ro.pos (srcIdx r ro (min a b) (min a b + k))) else .b0) (by
      intro k hkk
      have hst := fun z => step (min a b + k) z (by omega) (by omega) (by omega) (by omega)
      have hkn := hk (min a b + k) (by omega) (by omega)
      have hrd := rd (srcIdx r ro (min a b) (min a b + k))
      generalize srcIdx r ro (min a b) (min a b + k) = j at *
      by_cases hj : 0 ≤ j ∧ j ≤ ro.hi
      · have hok := hrd hj.1 hj.2
        rw [if_pos (by
          by_cases h64 : j < 64
          · exact Or.inl h64
          · exact Or.inr (hkn (by omega) hj.2))] at hok
        obtain ⟨c, hc1, hc2⟩ := hok
        exact ⟨c, fun z => by rw [hst z, if_pos hj, hc1, res_bind_ok], by rw [if_pos hj, hc2]⟩
      · exact ⟨Lg.zero1, fun z => by rw [hst z, if_neg hj], by rw [if_neg hj, Lg.zero1_at]⟩)
    refine ⟨y, hy, fun i hi0 hi1 => ?_, ?_⟩
    · by_cases hin : min a b ≤ i ∧ i ≤ max a b
      · obtain ⟨k, hk'⟩ : ∃ k : Nat, i = min a b + k := ⟨(i - min a b).toNat, by omega⟩
        rw [if_pos hin, hk']
        exact h1 k (by omega)
      · have hps : r.pos i < r.size := Rng.pos_lt hi0 hi1
        obtain ⟨hv, hx⟩ := h2 (r.pos i) fun k hk' e => by
          have := Rng.pos_inj (r := r) hi0 hi1 (by omega) (by omega) e
          omega
        rw [if_neg hin, Lg.at_of_raw hps, Lg.at_of_raw hps, hv, hx]
    · intro hs0 hc
      subst hs0
      rw [Lg.Clean, Bits.clean_unsigned_iff, Bits.clean_unsigned_iff] at hc ⊢
      have hout : ∀ j, r.size ≤ j → ∀ k : Nat, (k : Int) ≤ max a b - min a b → j ≠ r.pos (min a b + k) := by
        intro j hj k hk' e
        have := Rng.pos_lt (r := r) (i := min a b + k) (by omega) (by omega)
        omega
      exact ⟨fun j hj => by rw [(h2 j (hout j hj)).1]; exact hc.1 j hj,
        fun j hj => by rw [(h2 j (hout j hj)).2]; exact hc.2 j hj⟩
  · intro hk
    push Not at hk
    obtain ⟨i, h1, h2, h3, h4, h5⟩ := hk
    obtain ⟨k, rfl⟩ : ∃ k : Nat, i = min a b + k := ⟨(i - min a b).toNat, by omega⟩
    refine Lg.update_gen_fault r ro x op hN ha hb hphys (fun k hkk => ?_) (k := k) (by omega) (fun z => ?_)
    · have hst := fun z => step (min a b + k) z (by omega) (by omega) (by omega) (by omega)
      have hrd := rd (srcIdx r ro (min a b) (min a b + k))
      generalize srcIdx r ro (min a b) (min a b + k) = j at *
      by_cases hj : 0 ≤ j ∧ j ≤ ro.hi
      · have hok := hrd hj.1 hj.2
        split_ifs at hok with hc
        · obtain ⟨c, hc1, -⟩ := hok
          exact Or.inl ⟨c, fun z => by rw [hst z, if_pos hj, hc1, res_bind_ok]⟩
        · exact Or.inr fun z => by rw [hst z, if_pos hj, hok]; rfl
      · exact Or.inl ⟨Lg.zero1, fun z => by rw [hst z, if_neg hj]⟩
    · rw [step (min a b + k) z (by omega) (by omega) (by omega) (by omega), if_pos ⟨by omega, h4⟩]
      have := rd (srcIdx r ro (min a b) (min a b + k)) (by omega) h4
      rw [if_neg (by rintro (h | h); · omega
                     · exact h5 h)] at this
      rw [this]; rfl

-- an ascending operand `[0:7]` written to `[3:2]` of a descending target: bits 2 and 3 receive its bits 4 and 5
example : ((Lg.ofInt 0 : Lg 8 false).update (Rng.down 8) 3 2 (Rng.up 8) (Lg.ofInt 0x10 : Lg 8 false)).map
    (fun y => (List.range 8).map y.at) = .ok [.b0, .b0, .b1, .b0, .b0, .b0, .b0, .b0] ∧
    srcIdx (Rng.down 8) (Rng.up 8) 2 2 = 3 ∧ (Rng.up 8).pos 3 = 4 := by decide +kernel

/-- **C55, refuted for all operands of the other direction.** Writing an ascending `[0:m-1]` operand to
a slice of a descending target whose lower bound `lo` is not 0 stores bit `2 lo + j` of the operand, not bit
`j`, in bit `lo + j`: zeros from bit `m - 2 lo` on. -/
theorem C55_direction_refuted (hn : 0 < n) (hm : 1 < m) (hN : n ≤ 2 ^ 31) (hM : m ≤ 2 ^ 31) (x : Lg n s) (op : Lg m t)
    (hi lo : Nat) (hl : lo ≤ hi) (hh : hi < n) (hm64 : m ≤ 64) :
    ∃ y, x.update (Rng.down n) hi lo (Rng.up m) op = .ok y ∧
      ∀ i, i < n → y.at i = if lo ≤ i ∧ i ≤ hi then (if i + lo < m then op.at (i + lo) else .b0) else x.at i := by
  obtain ⟨l1, l2, l3, l4⟩ := Rng.down_lo' n hn
  have k1 : (Rng.up m).lo = 0 := by simp only [Rng.up, Rng.lo]; omega
  have k2 : (Rng.up m).hi = (m : Int) - 1 := by simp only [Rng.up, Rng.hi]; omega
  have k4 : (Rng.up m).size = m := by simp only [Rng.up, Rng.size]; omega
  have key := C55_exact (s := s) (t := t) (Rng.down n) (Rng.up m)
  rw [l4, k4] at key
  have hidx : ∀ i : Int, srcIdx (Rng.down n) (Rng.up m) lo i = (m : Int) - 1 - i - lo := by
    intro i
    rw [srcIdx, if_neg, k2]
    simp only [Rng.down, Rng.up]; omega
  have hmin : min (hi : Int) (lo : Int) = lo := by omega
  have hmax : max (hi : Int) (lo : Int) = hi := by omega
  obtain ⟨y, hy, h1, -⟩ := (key x op (Or.inl l1) k1 (by omega) (by omega) hi lo (by omega) (by omega)).1 (by
    intro i h1 h2 h3 h4
    rw [k2] at h4
    omega)
  refine ⟨y, hy, fun i hi' => ?_⟩
  have := h1 i (by omega) (by omega)
  rw [Rng.pos_down hn, hmin, hmax, hidx, k2] at this
  rw [this]
  by_cases hin : lo ≤ i ∧ i ≤ hi
  · rw [if_pos hin, if_pos (by omega)]
    by_cases hb : i + lo < m
    · rw [if_pos hb, if_pos (by omega)]
      congr 1
      simp only [Rng.pos, Rng.up]
      split_ifs <;> omega
    · rw [if_neg hb, if_neg (by omega)]
  · rw [if_neg hin, if_neg (by omega)]

-- the ascending 1111 written to `[7:4]` of zero stores 0000, to `[3:0]` it stores 1111
example : ((Lg.ofInt 0 : Lg 8 false).update (Rng.down 8) 7 4 (Rng.up 4) (Lg.ofInt 15 : Lg 4 false)).map
      (fun y => (List.range 8).map y.at) = .ok (List.replicate 8 .b0) ∧
    ((Lg.ofInt 0 : Lg 8 false).update (Rng.down 8) 3 0 (Rng.up 4) (Lg.ofInt 15 : Lg 4 false)).map
      (fun y => (List.range 8).map y.at) = .ok (List.replicate 4 .b1 ++ List.replicate 4 .b0) := by decide +kernel

/-! ## 2-state -/

namespace Bits

/-- an update loop that reads operand index `c - k` for target index `start + k` -/
theorem update_loop_mirror (r ro : Rng) (x : Bits r.size s) (op : Bits ro.size t)
    (hr : r.lo = 0) (ho : ro.lo = 0) (hR : r.hi < 2 ^ 31) (hM : ro.hi < 2 ^ 31) (st c : Int) (d : Nat)
    (h0 : 0 ≤ st) (hd : st + d ≤ r.hi + 1) (hc : (d : Int) ≤ c + 1) (hc2 : c ≤ ro.hi) :
    ∃ y, (loopM 0 d x fun k x => (op.get ro (c - (k : Nat))).bind fun b => x.setBit r (st + (k : Nat)) b) = .ok y ∧
      (∀ k : Nat, k < d → y.raw (r.pos (st + k)) = op.bv.getLsbD (ro.pos (c - k))) ∧
      ∀ j, (∀ k : Nat, k < d → j ≠ r.pos (st + k)) → y.raw j = x.raw j := by
  have hs := Lg.size_hi hr
  refine loopM_induct 0 d x _ (fun K (y : Bits r.size s) =>
    (∀ k : Nat, k < K → y.raw (r.pos (st + k)) = op.bv.getLsbD (ro.pos (c - k))) ∧
      ∀ j, (∀ k : Nat, k < K → j ≠ r.pos (st + k)) → y.raw j = x.raw j) (Nat.zero_le _)
    ⟨fun k hk => absurd hk (by omega), fun j _ => rfl⟩ ?_
  rintro i z - hi ⟨h1, h2⟩
  have hin : st + i ≤ r.hi := by omega
  have hps : r.pos (st + i) < r.size := Rng.pos_lt (by omega) hin
  obtain ⟨w, hw, hwr⟩ := setBit_phys r z (st + i) _ (physIdx_pos hr (by omega) hin) hr hps (by omega)
    (op.bv.getLsbD (ro.pos (c - i)))
  have hsrc : src ro op (c - i) = op.bv.getLsbD (ro.pos (c - i)) := by
    rw [src, decide_eq_true (by omega), Bool.true_and]
  refine ⟨w, by rw [get_src ro op ho hM _ (by omega) (by omega) (by omega), hsrc, res_bind_ok, hw], fun k hk' => ?_, fun j hj => ?_⟩
  · rw [hwr]
    by_cases hki : k = i
    · subst hki; rw [if_pos rfl]
    · rw [if_neg, h1 k (by omega)]
      intro e
      have := Rng.pos_inj (r := r) (by omega) (by omega) (by omega) hin e
      omega
  · rw [hwr, if_neg (hj i (by omega))]
    exact h2 j fun k hk => hj k (by omega)

end Bits

/-- **C57, operands of the other direction, exactly.** Both low bounds 0 and one range ascending, the
other descending: target index `i` receives operand index `hi - i` in the form with constant bounds and
`hi - i - lo` in the form with run-time bounds, where `hi` is the highest index of the operand and `lo` the
lower bound of the slice, as long as all of these indices exist. -/
theorem C57_direction_exact (r ro : Rng) (x : Bits r.size s) (op : Bits ro.size t)
    (he : ¬ (r.lsb ≤ r.msb ↔ ro.lsb ≤ ro.msb)) (hr : r.lo = 0) (ho : ro.lo = 0) (hR : r.hi < 2 ^ 31) (hM : ro.hi < 2 ^ 31)
    (a b : Int) (ha : 0 ≤ a ∧ a ≤ r.hi) (hb : 0 ≤ b ∧ b ≤ r.hi) :
    (max a b ≤ ro.hi → ∃ y, x.update r a b ro op = .ok y ∧ ∀ i, 0 ≤ i → i ≤ r.hi →
      y.bv.getLsbD (r.pos i) = if min a b ≤ i ∧ i ≤ max a b then op.bv.getLsbD (ro.pos (ro.hi - i))
        else x.bv.getLsbD (r.pos i)) ∧
    (max a b + min a b ≤ ro.hi → ∃ y, x.updateRt r a b ro op = .ok y ∧ ∀ i, 0 ≤ i → i ≤ r.hi →
      y.bv.getLsbD (r.pos i) = if min a b ≤ i ∧ i ≤ max a b then op.bv.getLsbD (ro.pos (ro.hi - i - min a b))
        else x.bv.getLsbD (r.pos i)) := by
  have hx : (ro.bigEndian ^^ r.bigEndian) = true := by
    unfold Rng.bigEndian
    by_cases h1 : r.lsb ≤ r.msb <;> by_cases h2 : ro.lsb ≤ ro.msb <;> simp [h1, h2] at he ⊢
  have fin : ∀ (c : Int) (y : Bits r.size s),
      (∀ k : Nat, k < (max a b + 1 - min a b).toNat → y.raw (r.pos (min a b + k)) = op.bv.getLsbD (ro.pos (c - k))) →
      (∀ j, (∀ k : Nat, k < (max a b + 1 - min a b).toNat → j ≠ r.pos (min a b + k)) → y.raw j = x.raw j) →
      ∀ i, 0 ≤ i → i ≤ r.hi → y.bv.getLsbD (r.pos i) =
        if min a b ≤ i ∧ i ≤ max a b then op.bv.getLsbD (ro.pos (c - (i - min a b))) else x.bv.getLsbD (r.pos i) := by
    intro c y h1 h2 i hi0 hi1
    have hps : r.pos i < r.size := Rng.pos_lt (by omega) hi1
    rw [Bits.getLsbD_bv, Bits.getLsbD_bv x, decide_eq_true hps, Bool.true_and, Bool.true_and]
    by_cases hin : min a b ≤ i ∧ i ≤ max a b
    · obtain ⟨k, hk'⟩ : ∃ k : Nat, i = min a b + k := ⟨(i - min a b).toNat, by omega⟩
      rw [if_pos hin, hk', h1 k (by omega), show min a b + (k : Int) - min a b = k by omega]
    · rw [if_neg hin]
      refine h2 _ fun k hk' e => ?_
      have := Rng.pos_inj (r := r) (by omega) hi1 (by omega) (by omega) e
      omega
  constructor
  · intro h
    obtain ⟨y, hy, h1, h2⟩ := Bits.update_loop_mirror r ro x op hr ho hR hM (min a b) (ro.hi - min a b)
      (max a b + 1 - min a b).toNat (by omega) (by omega) (by omega) (by omega)
    refine ⟨y, ?_, fun i hi0 hi1 => ?_⟩
    · rw [← hy, Bits.update]
      simp only [hx, if_true]
      congr 1; funext k x
      rw [show ro.hi - (min a b + (k : Int)) = ro.hi - min a b - k by omega]
    · rw [fin _ y h1 h2 i hi0 hi1, show ro.hi - min a b - (i - min a b) = ro.hi - i by omega]
  · intro h
    obtain ⟨y, hy, h1, h2⟩ := Bits.update_loop_mirror r ro x op hr ho hR hM (min a b) (ro.hi - min a b - min a b)
      (max a b + 1 - min a b).toNat (by omega) (by omega) (by omega) (by omega)
    refine ⟨y, ?_, fun i hi0 hi1 => ?_⟩
    · rw [← hy, Bits.updateRt]
      simp only [hx, if_true]
      congr 1; funext k x
      rw [show ro.hi - (min a b + (k : Int)) - min a b = ro.hi - min a b - min a b - k by omega]
    · rw [fin _ y h1 h2 i hi0 hi1, show ro.hi - min a b - min a b - (i - min a b) = ro.hi - i - min a b by omega]

-- bits 2 and 3 of the target: bits 2 and 3 of an ascending operand with constant bounds, 4 and 5 with run-time bounds
example : ((Bits.ofInt 0 : Bits 8 false).update (Rng.down 8) 3 2 (Rng.up 8) (Bits.ofInt 0x24 : Bits 8 false)).map (·.bv) = .ok 4#8 ∧
    ((Bits.ofInt 0 : Bits 8 false).updateRt (Rng.down 8) 3 2 (Rng.up 8) (Bits.ofInt 0x24 : Bits 8 false)).map (·.bv) = .ok 8#8 := by
  decide +kernel

end Verif
