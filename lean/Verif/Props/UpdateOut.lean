import Verif.Props.UpdateExact
import Verif.Props.SliceBase
import Verif.Props.PartSelect
import Verif.Props.Lift

/-!
# Assignments to selections that leave the vector (C136)

IEEE 1800 11.5.1: a write to bits outside the vector affects only the bits that are in range, and
a write with an x or z base changes nothing.
-/

namespace Verif

variable {n m : Nat} {s t : Bool}

/-- number of stored bits that a write can reach -/
def cap (n : Nat) : Nat := if n ≤ 64 then hw n else n

/-- one write at any `int` index: wide vectors ignore indices outside, native vectors of more than
one bit reach all bits of their storage -/
theorem Bits.set_any (h1 : 1 < n) (hN : n ≤ 2 ^ 32) (x : Bits n s) (i : Int) (hl : -2 ^ 33 ≤ i) (hh : i ≤ 2 ^ 33)
    (hi : n ≤ 64 → 0 ≤ i ∧ i < 64) (v : Bool) :
    ∃ y, x.set (Rng.down n) i v = .ok y ∧ ∀ j : Nat, y.raw j = if (j : Int) = i ∧ j < cap n then v else x.raw j := by
  have hp := Bits.physIdx_down (n := n) (by omega) i
  have h0 := Rng.lo_down (n := n) (by omega)
  by_cases h : n ≤ 64
  · obtain ⟨hi0, hi1⟩ := hi h
    obtain ⟨k, rfl⟩ := Int.eq_ofNat_of_zero_le hi0
    have hc : (TV.u64 (Bits.physIdx (Rng.down n) k - (Rng.down n).lo)).v = k := by
      rw [hp, h0]
      exact tU64_conv_of (by omega) (by omega)
    obtain ⟨y, hy, hr⟩ := Bits.setNat_exact h h1 x _ k hc (by omega) v
    refine ⟨y, by rw [Bits.set]; simp only [h, dif_pos]; exact hy, fun j => ?_⟩
    rw [hr, cap, if_pos h]
    simp only [Nat.cast_inj]
  · by_cases hin : 0 ≤ i ∧ i < n
    · obtain ⟨k, rfl⟩ := Int.eq_ofNat_of_zero_le hin.1
      obtain ⟨y, hy, hr⟩ := Bits.set_phys (Rng.down n) x k k (by rw [hp, h0]; simp) (by omega) hN v
      refine ⟨y, hy, fun j => ?_⟩
      rw [hr, cap, if_neg h]
      by_cases hj : j = k
      · rw [if_pos hj, if_pos (by omega)]
      · rw [if_neg hj, if_neg (by omega)]
    · refine ⟨x, Bits.set_out_big h _ x i v ?_, fun j => ?_⟩
      · rw [hp, h0, Int.sub_zero]
        by_cases hneg : i < 0
        · simp only [CTy.conv]; omega
        · rw [tU64_conv_of (by omega) (by omega)]; omega
      · rw [cap, if_neg h, if_neg (by omega)]

theorem Bits.set_any_fault (h0 : 0 < n) (h : n ≤ 64) (x : Bits n s) (i : Int) (hl : -2 ^ 33 ≤ i) (hh : i ≤ 2 ^ 33)
    (hi : i < 0 ∨ 64 ≤ i) (v : Bool) : x.set (Rng.down n) i v = .error .shift := by
  rw [Bits.set]
  simp only [h, dif_pos]
  apply Bits.setNat_fault
  right
  rw [Bits.physIdx_down h0, Rng.lo_down h0, Int.sub_zero]
  show 64 ≤ tU64.conv i
  by_cases hneg : i < 0
  · simp only [CTy.conv]; omega
  · rw [tU64_conv_of (by omega) (by omega)]; omega

theorem Bits.setBit_down (h0 : 0 < n) (x : Bits n s) (i : Int) (v : Bool) :
    x.setBit (Rng.down n) i v = x.set (Rng.down n) i v := by
  rw [Bits.setBit, Bits.set]
  simp only [Rng.lo_down h0, Int.sub_zero]
  rfl

/-- the 2-state loop at any position -/
theorem Bits.updateRt_any (h1 : 1 < n) (hN : n ≤ 2 ^ 32) (hm : 0 < m) (x : Bits n s) (op : Bits m t) (lo : Int) (k : Nat)
    (h0 : 0 < k) (hk : k ≤ 2 ^ 31) (hl : -2 ^ 32 ≤ lo) (hh : lo ≤ 2 ^ 32) (hin : n ≤ 64 → 0 ≤ lo ∧ lo + k ≤ 64)
    (f : Nat → Bool) (hf : ∀ j : Nat, j < k → op.get (Rng.down m) j = .ok (f j)) (a b : Int) (hab : min a b = lo)
    (hab' : max a b = lo + k - 1) :
    ∃ y, x.updateRt (Rng.down n) a b (Rng.down m) op = .ok y ∧
      ∀ j : Nat, y.raw j = if (lo ≤ j ∧ (j : Int) < lo + k) ∧ j < cap n then f ((j : Int) - lo).toNat else x.raw j := by
  have hbe : ((Rng.down m).bigEndian ^^ (Rng.down n).bigEndian) = false := by
    rw [Rng.bigEndian_down hm, Rng.bigEndian_down (by omega)]; rfl
  rw [Bits.updateRt]
  simp only [hab, hab', hbe, Bool.false_eq_true, if_false]
  rw [show (lo + k - 1 + 1 - lo).toNat = k by omega]
  refine loopM_induct 0 k x _ (fun K (y : Bits n s) => ∀ j : Nat, y.raw j =
    if (lo ≤ j ∧ (j : Int) < lo + K) ∧ j < cap n then f ((j : Int) - lo).toNat else x.raw j) (Nat.zero_le _) ?_ ?_
  · intro j; rw [if_neg (by omega)]
  · rintro i z - hi hz
    obtain ⟨y, hy, hyr⟩ := Bits.set_any h1 hN z (lo + i) (by omega) (by omega) (fun h => by have := hin h; omega) (f i)
    refine ⟨y, ?_, fun j => ?_⟩
    · rw [show lo + (i : Int) - lo = i by omega, hf i hi, res_bind_ok, Bits.setBit_down (by omega), hy]
    · rw [hyr, hz]
      by_cases hj : (j : Int) = lo + i ∧ j < cap n
      · rw [if_pos hj, if_pos (by omega), hj.1]; congr 1; omega
      · rw [if_neg hj]
        by_cases hj2 : (lo ≤ j ∧ (j : Int) < lo + i) ∧ j < cap n
        · rw [if_pos hj2, if_pos (by omega)]
        · rw [if_neg hj2, if_neg (by omega)]

theorem Bits.clean_wide_of (h : 64 < n) {x y : Bits n s} (hx : x.Clean) (hr : ∀ i, n ≤ i → y.raw i = x.raw i) : y.Clean := by
  have h' : ¬ n ≤ 64 := by omega
  rw [Bits.clean_big h', Big.clean_iff] at hx ⊢
  intro i hi
  rw [← Bits.raw_big h', hr i hi, Bits.raw_big h', hx i hi]

/-- a loop whose steps succeed or fail in one way fails if one step always does -/
theorem loopM_error' {σ : Type} (a b : Nat) (st : σ) (f : Nat → σ → Res σ) (e : Fault)
    (hf : ∀ i s, a ≤ i → i < b → (∃ s', f i s = .ok s') ∨ f i s = .error e) {i : Nat} (ha : a ≤ i) (hb : i < b)
    (hi : ∀ s, f i s = .error e) : loopM a b st f = .error e := by
  obtain ⟨k, rfl⟩ : ∃ k, b = a + k := ⟨b - a, by omega⟩
  have key : ∀ j, j ≤ k → (∃ s', loopM a (a + j) st f = .ok s') ∨ loopM a (a + j) st f = .error e := by
    intro j
    induction j with
    | zero => intro _; left; exact ⟨st, loopM_zero _ _ _ _ (by omega)⟩
    | succ j ih =>
      intro hj
      rw [loopM_succ]
      rcases ih (by omega) with ⟨s', h'⟩ | h'
      · rw [h', res_bind_ok]; exact hf _ _ (by omega) (by omega)
      · rw [h']; right; rfl
  have key2 : ∀ j, j ≤ k → i < a + j → loopM a (a + j) st f = .error e := by
    intro j
    induction j with
    | zero => intro _ _; omega
    | succ j ih =>
      intro hj hij
      rw [loopM_succ]
      by_cases hlt : i < a + j
      · rw [ih (by omega) hlt]; rfl
      · obtain rfl : i = a + j := by omega
        rcases key j (by omega) with ⟨s', h'⟩ | h'
        · rw [h', res_bind_ok, hi]
        · rw [h']; rfl
  exact key2 k le_rfl hb

/-- the bounds that `slice_ref<k, increase>(base)` passes on -/
theorem Bits.updateBase_bounds (r ro : Rng) (x : Bits n s) (op : Bits m t) {k : Nat} (h0 : 0 < k) (hk : k ≤ 2 ^ 31) (inc : Bool)
    {base lo hi : Int} (hlo : -2 ^ 31 ≤ lo) (hhi : hi < 2 ^ 31) (hb : base = if inc then lo else hi) (hlh : hi = lo + k - 1) :
    ∃ a b, min a b = lo ∧ max a b = hi ∧ x.updateBase r k inc base ro op = x.updateRt r a b ro op := by
  cases inc
  · refine ⟨hi, lo, by omega, by omega, ?_⟩
    simp only [Bool.false_eq_true, if_false] at hb
    rw [Bits.updateBase, hb, tInt_conv_of (by omega) (by omega)]
    simp only [Bool.false_eq_true, if_false]
    rw [intRes_ok (by omega) (by omega), res_bind_ok, show hi - ((k : Int) - 1) = lo by omega]
  · refine ⟨lo, hi, by omega, by omega, ?_⟩
    simp only [if_true] at hb
    rw [Bits.updateBase, hb, tInt_conv_of (by omega) (by omega)]
    simp only [if_true]
    rw [intRes_ok (by omega) (by omega), res_bind_ok, show lo + ((k : Int) - 1) = hi by omega]

theorem Lg.updateBase_bounds (r ro : Rng) (x : Lg n s) (op : Lg m t) {k : Nat} (h0 : 0 < k) (hk : k ≤ 2 ^ 31) (inc : Bool)
    {base lo hi : Int} (hlo : -2 ^ 31 ≤ lo) (hhi : hi < 2 ^ 31) (hb : base = if inc then lo else hi) (hlh : hi = lo + k - 1) :
    ∃ a b, min a b = lo ∧ max a b = hi ∧ x.updateBase r k inc base ro op = x.updateRt r a b ro op := by
  cases inc
  · refine ⟨hi, lo, by omega, by omega, ?_⟩
    simp only [Bool.false_eq_true, if_false] at hb
    rw [Lg.updateBase, hb, tInt_conv_of (by omega) (by omega)]
    simp only [Bool.false_eq_true, if_false]
    rw [intRes_ok (by omega) (by omega), res_bind_ok, show hi - ((k : Int) - 1) = lo by omega]
  · refine ⟨lo, hi, by omega, by omega, ?_⟩
    simp only [if_true] at hb
    rw [Lg.updateBase, hb, tInt_conv_of (by omega) (by omega)]
    simp only [if_true]
    rw [intRes_ok (by omega) (by omega), res_bind_ok, show lo + ((k : Int) - 1) = hi by omega]

/-- **C136, 2-state, wide vectors:** `x[base +: k] = v` and `x[base -: k] = v` with `lo` and `hi`
the selected bounds, wherever they lie: the bits of the vector that are selected receive those of
`v`, the others keep their value, and a canonical vector stays canonical. -/
theorem C136_wide_bit (h : 64 < n) (hN : n ≤ 2 ^ 32) (x : Bits n s) (op : Bits m t) (hM : m ≤ 2 ^ 32) (k : Nat) (h0 : 0 < k) (hkm : k ≤ m)
    (hk : k ≤ 2 ^ 31) (inc : Bool) (base lo hi : Int) (hlo : -2 ^ 31 ≤ lo) (hhi : hi < 2 ^ 31)
    (hb : base = if inc then lo else hi) (hlh : hi = lo + k - 1) :
    ∃ y, x.updateBase (Rng.down n) k inc base (Rng.down m) op = .ok y ∧
      (∀ i : Nat, i < n → y.bv.getLsbD i =
        if lo ≤ i ∧ (i : Int) ≤ hi then op.bv.getLsbD ((i : Int) - lo).toNat else x.bv.getLsbD i) ∧
      (x.Clean → y.Clean) := by
  obtain ⟨a, b, e1, e2, e⟩ := Bits.updateBase_bounds (Rng.down n) (Rng.down m) x op h0 hk inc hlo hhi hb hlh
  obtain ⟨y, hy, hr⟩ := Bits.updateRt_any (by omega) hN (by omega) x op lo k h0 hk (by omega) (by omega) (fun h => by omega)
    (fun j => op.bv.getLsbD j) (fun j hj => Bits.get_phys (Rng.down m) op j j (Bits.physIdx_down (by omega) _) (by omega) hM)
    a b e1 (by omega)
  have hcap : cap n = n := by rw [cap, if_neg (by omega)]
  rw [hcap] at hr
  refine ⟨y, by rw [e, hy], fun i hi' => ?_, fun hc => ?_⟩
  · rw [Bits.getLsbD_bv y, hr]
    by_cases hin : lo ≤ i ∧ (i : Int) ≤ hi
    · rw [if_pos (by omega), if_pos hin]; simp [hi']
    · rw [if_neg (by omega), if_neg hin, Bits.getLsbD_bv x]
  · exact Bits.clean_wide_of h hc fun i hi' => by rw [hr, if_neg (by omega)]

/-- **C136, 2-state, native vectors, exactly:** inside 64 bits every selected bit of the storage
is written, also those above the declared width; a selection that leaves the 64 bits on either
side is undefined behaviour. -/
theorem C136_native_bit_exact (h1 : 1 < n) (h : n ≤ 64) (x : Bits n s) (op : Bits m t) (hM : m ≤ 2 ^ 32) (k : Nat) (h0 : 0 < k) (hkm : k ≤ m)
    (hk : k ≤ 2 ^ 31) (inc : Bool) (base lo hi : Int) (hlo : -2 ^ 31 ≤ lo) (hhi : hi < 2 ^ 31)
    (hb : base = if inc then lo else hi) (hlh : hi = lo + k - 1) :
    (0 ≤ lo → hi < 64 → ∃ y, x.updateBase (Rng.down n) k inc base (Rng.down m) op = .ok y ∧
      ∀ i : Nat, i < hw n → y.raw i =
        if lo ≤ i ∧ (i : Int) ≤ hi then op.bv.getLsbD ((i : Int) - lo).toNat else x.raw i) ∧
    (lo < 0 ∨ 64 ≤ hi → x.updateBase (Rng.down n) k inc base (Rng.down m) op = .error .shift) := by
  obtain ⟨a, b, e1, e2, e⟩ := Bits.updateBase_bounds (Rng.down n) (Rng.down m) x op h0 hk inc hlo hhi hb hlh
  have hget : ∀ j : Nat, j < k → op.get (Rng.down m) j = .ok (op.bv.getLsbD j) := fun j hj =>
    Bits.get_phys (Rng.down m) op j j (Bits.physIdx_down (by omega) _) (by omega) hM
  constructor
  · intro hl0 hh0
    obtain ⟨y, hy, hr⟩ := Bits.updateRt_any h1 (by omega) (by omega) x op lo k h0 hk (by omega) (by omega) (fun h => by omega)
      (fun j => op.bv.getLsbD j) hget a b e1 (by omega)
    have hcap : cap n = hw n := by rw [cap, if_pos h]
    rw [hcap] at hr
    refine ⟨y, by rw [e, hy], fun i hi' => ?_⟩
    rw [hr]
    by_cases hin : lo ≤ i ∧ (i : Int) ≤ hi
    · rw [if_pos (by omega), if_pos hin]
    · rw [if_neg (by omega), if_neg hin]
  · intro hout
    have hbe : ((Rng.down m).bigEndian ^^ (Rng.down n).bigEndian) = false := by
      rw [Rng.bigEndian_down (by omega), Rng.bigEndian_down (by omega)]; rfl
    rw [e, Bits.updateRt]
    simp only [e1, e2, hbe, Bool.false_eq_true, if_false]
    rw [show (hi + 1 - lo).toNat = k by omega]
    have hstep : ∀ i : Nat, i < k → ∀ z : Bits n s,
        ((op.get (Rng.down m) (lo + i - lo)).bind fun b => z.setBit (Rng.down n) (lo + i) b) =
          z.set (Rng.down n) (lo + i) (op.bv.getLsbD i) := fun i hi' z => by
      rw [show lo + (i : Int) - lo = i by omega, hget i hi', res_bind_ok, Bits.setBit_down (by omega)]
    refine loopM_error' 0 k x _ .shift (fun i z _ hi' => ?_) (i := if lo < 0 then 0 else k - 1) (by omega) (by split_ifs <;> omega) fun z => ?_
    · rw [hstep i hi']
      by_cases hw : lo + i < 0 ∨ 64 ≤ lo + i
      · exact Or.inr (Bits.set_any_fault (by omega) h z _ (by omega) (by omega) hw _)
      · obtain ⟨y, hy, -⟩ := Bits.set_any h1 (by omega) z (lo + i) (by omega) (by omega) (fun _ => by omega) (op.bv.getLsbD i)
        exact Or.inl ⟨y, hy⟩
    · rw [hstep _ (by split_ifs <;> omega)]
      exact Bits.set_any_fault (by omega) h z _ (by split_ifs <;> omega) (by split_ifs <;> omega) (by split_ifs <;> omega) _

/-- the stored pair of bits at any position of the storage -/
def Lg.rawAt (x : Lg n s) (j : Nat) : V4 := V4.mk (x.value.raw j) (x.xz.raw j)

theorem Lg.rawAt_lt (x : Lg n s) {j : Nat} (h : j < n) : x.rawAt j = x.at j := (Lg.at_of_raw h).symm

theorem Lg.setL_any (h1 : 1 < n) (hN : n ≤ 2 ^ 32) (x : Lg n s) (i : Int) (hl : -2 ^ 33 ≤ i) (hh : i ≤ 2 ^ 33)
    (hi : n ≤ 64 → 0 ≤ i ∧ i < 64) (l : Lg 1 false) :
    ∃ y, x.setL (Rng.down n) i l = .ok y ∧ ∀ j : Nat, y.rawAt j = if (j : Int) = i ∧ j < cap n then l.at 0 else x.rawAt j := by
  obtain ⟨v, hv, hvr⟩ := Bits.set_any h1 hN x.value i hl hh hi (Lg.hold1 l.value)
  obtain ⟨k, hk, hkr⟩ := Bits.set_any h1 hN x.xz i hl hh hi (Lg.hold1 l.xz)
  refine ⟨⟨v, k⟩, by rw [Lg.setL, hv, res_bind_ok, hk, res_map_ok], fun j => ?_⟩
  rw [Lg.rawAt, hvr, hkr]
  by_cases hj : (j : Int) = i ∧ j < cap n
  · rw [if_pos hj, if_pos hj, if_pos hj, Lg.hold1_at]
  · rw [if_neg hj, if_neg hj, if_neg hj, Lg.rawAt]

theorem Lg.setL_any_fault (h0 : 0 < n) (h : n ≤ 64) (x : Lg n s) (i : Int) (hl : -2 ^ 33 ≤ i) (hh : i ≤ 2 ^ 33)
    (hi : i < 0 ∨ 64 ≤ i) (l : Lg 1 false) : x.setL (Rng.down n) i l = .error .shift := by
  rw [Lg.setL, Bits.set_any_fault h0 h x.value i hl hh hi]; rfl

/-- bit `k` of the value to be stored: 0 above its width -/
def Lg.zext (op : Lg m t) (k : Nat) : V4 := if k < m then op.at k else .b0

theorem Lg.updateStep_down (hn : 0 < n) (hm : 0 < m) (hM : m ≤ 2 ^ 31) (op : Lg m t) (lo : Int) (k : Nat) (hk : k < 2 ^ 32)
    (hu : k < m → k < 64 ∨ (op.at k).isKnown = true) :
    ∃ l : Lg 1 false, l.at 0 = op.zext k ∧ ∀ z : Lg n s, Lg.updateStep (Rng.down n) lo (Rng.down m) op (lo + k) z =
      z.setL (Rng.down n) (lo + k) l := by
  obtain ⟨k1, k2, k3, k4⟩ := Rng.down_lo' m hm
  have key := @Lg.updateStep_eq n s t (Rng.down n) (Rng.down m)
  have key2 := @Lg.get_src t (Rng.down m)
  rw [k4] at key key2
  have hst := key op (by rw [k3, (Rng.down_lo' n hn).2.2.1]) k1 (by omega) lo k hk
  by_cases hkm : k < m
  · obtain ⟨b, hb, hb2⟩ := key2 op k1 (by omega) k (by omega) (by rw [Rng.pos_down hm]; exact hu hkm)
    refine ⟨b, ?_, fun z => by rw [hst, if_pos (by omega), hb, res_bind_ok]⟩
    rw [hb2, Lg.src, if_pos (by omega), Rng.pos_down hm, Lg.zext, if_pos hkm]
  · refine ⟨Lg.zero1, ?_, fun z => by rw [hst, if_neg (by omega)]⟩
    rw [Lg.zero1_at, Lg.zext, if_neg hkm]

/-- the 4-state loop at any position -/
theorem Lg.updateRt_any (h1 : 1 < n) (hN : n ≤ 2 ^ 32) (hm : 0 < m) (hM : m ≤ 2 ^ 31) (x : Lg n s) (op : Lg m t) (lo : Int) (k : Nat)
    (h0 : 0 < k) (hk : k ≤ 2 ^ 31) (hl : -2 ^ 32 ≤ lo) (hh : lo ≤ 2 ^ 32) (hin : n ≤ 64 → 0 ≤ lo ∧ lo + k ≤ 64)
    (hu : ∀ j, j < k → 64 ≤ j → j < m → (op.at j).isKnown = true) (a b : Int) (hab : min a b = lo)
    (hab' : max a b = lo + k - 1) :
    ∃ y, x.updateRt (Rng.down n) a b (Rng.down m) op = .ok y ∧
      ∀ j : Nat, y.rawAt j = if (lo ≤ j ∧ (j : Int) < lo + k) ∧ j < cap n then op.zext ((j : Int) - lo).toNat else x.rawAt j := by
  rw [C56_update_rt, Lg.update]
  simp only [hab, hab']
  rw [show (lo + k - 1 + 1 - lo).toNat = k by omega]
  refine loopM_induct 0 k x _ (fun K (y : Lg n s) => ∀ j : Nat, y.rawAt j =
    if (lo ≤ j ∧ (j : Int) < lo + K) ∧ j < cap n then op.zext ((j : Int) - lo).toNat else x.rawAt j) (Nat.zero_le _) ?_ ?_
  · intro j; rw [if_neg (by omega)]
  · rintro i z - hi hz
    obtain ⟨l, hl1, hl2⟩ := Lg.updateStep_down (n := n) (s := s) (by omega) hm hM op lo i (by omega)
      (fun h => by by_cases h' : i < 64; exact Or.inl h'; exact Or.inr (hu i hi (by omega) h))
    obtain ⟨y, hy, hyr⟩ := Lg.setL_any h1 hN z (lo + i) (by omega) (by omega) (fun h => by have := hin h; omega) l
    refine ⟨y, by rw [hl2, hy], fun j => ?_⟩
    rw [hyr, hz, hl1]
    by_cases hj : (j : Int) = lo + i ∧ j < cap n
    · rw [if_pos hj, if_pos (by omega), hj.1]; congr 1; omega
    · rw [if_neg hj]
      by_cases hj2 : (lo ≤ j ∧ (j : Int) < lo + i) ∧ j < cap n
      · rw [if_pos hj2, if_pos (by omega)]
      · rw [if_neg hj2, if_neg (by omega)]

/-- **C136, 4-state, wide vectors, partial:** the same with x and z; a `v` narrower than the
selection is extended with 0. Missing: an x or z of `v` from position 64 on (`C55_fault`), and
vectors of up to 64 bits. -/
theorem C136_wide_logic_partial (h : 64 < n) (hN : n ≤ 2 ^ 32) (hm : 0 < m) (hM : m ≤ 2 ^ 31) (x : Lg n s) (op : Lg m t) (k : Nat)
    (h0 : 0 < k) (hk : k ≤ 2 ^ 31) (hu : ∀ j, j < k → 64 ≤ j → j < m → (op.at j).isKnown = true)
    (inc : Bool) (base lo hi : Int) (hlo : -2 ^ 31 ≤ lo) (hhi : hi < 2 ^ 31)
    (hb : base = if inc then lo else hi) (hlh : hi = lo + k - 1) :
    ∃ y, x.updateBase (Rng.down n) k inc base (Rng.down m) op = .ok y ∧
      ∀ i : Nat, i < n → y.at i =
        if lo ≤ i ∧ (i : Int) ≤ hi then
          (if ((i : Int) - lo).toNat < m then op.at ((i : Int) - lo).toNat else .b0) else x.at i := by
  obtain ⟨a, b, e1, e2, e⟩ := Lg.updateBase_bounds (Rng.down n) (Rng.down m) x op h0 hk inc hlo hhi hb hlh
  obtain ⟨y, hy, hr⟩ := Lg.updateRt_any (by omega) hN hm hM x op lo k h0 hk (by omega) (by omega) (fun h => by omega) hu a b e1 (by omega)
  have hcap : cap n = n := by rw [cap, if_neg (by omega)]
  rw [hcap] at hr
  refine ⟨y, by rw [e, hy], fun i hi' => ?_⟩
  rw [← Lg.rawAt_lt y hi', hr, Lg.zext, Lg.rawAt_lt x hi']
  by_cases hin : lo ≤ i ∧ (i : Int) ≤ hi
  · rw [if_pos (by omega), if_pos hin]
  · rw [if_neg (by omega), if_neg hin]

/-- **C136, 4-state, native vectors, exactly:** as for 2-state vectors, in both planes. -/
theorem C136_native_logic_exact (h1 : 1 < n) (h : n ≤ 64) (hm : 0 < m) (hM : m ≤ 2 ^ 31) (x : Lg n s) (op : Lg m t) (k : Nat)
    (h0 : 0 < k) (hk : k ≤ 2 ^ 31) (hu : ∀ j, j < k → 64 ≤ j → j < m → (op.at j).isKnown = true)
    (inc : Bool) (base lo hi : Int) (hlo : -2 ^ 31 ≤ lo) (hhi : hi < 2 ^ 31)
    (hb : base = if inc then lo else hi) (hlh : hi = lo + k - 1) :
    (0 ≤ lo → hi < 64 → ∃ y, x.updateBase (Rng.down n) k inc base (Rng.down m) op = .ok y ∧
      ∀ i : Nat, i < hw n → V4.mk (y.value.raw i) (y.xz.raw i) =
        if lo ≤ i ∧ (i : Int) ≤ hi then
          (if ((i : Int) - lo).toNat < m then op.at ((i : Int) - lo).toNat else .b0) else V4.mk (x.value.raw i) (x.xz.raw i)) ∧
    (lo < 0 ∨ 64 ≤ hi → x.updateBase (Rng.down n) k inc base (Rng.down m) op = .error .shift) := by
  obtain ⟨a, b, e1, e2, e⟩ := Lg.updateBase_bounds (Rng.down n) (Rng.down m) x op h0 hk inc hlo hhi hb hlh
  constructor
  · intro hl0 hh0
    obtain ⟨y, hy, hr⟩ := Lg.updateRt_any h1 (by omega) hm hM x op lo k h0 hk (by omega) (by omega) (fun h => by omega) hu a b e1 (by omega)
    have hcap : cap n = hw n := by rw [cap, if_pos h]
    rw [hcap] at hr
    refine ⟨y, by rw [e, hy], fun i hi' => ?_⟩
    have := hr i
    rw [Lg.rawAt, Lg.rawAt, Lg.zext] at this
    rw [this]
    by_cases hin : lo ≤ i ∧ (i : Int) ≤ hi
    · rw [if_pos (by omega), if_pos hin]
    · rw [if_neg (by omega), if_neg hin]
  · intro hout
    rw [e, C56_update_rt, Lg.update]
    simp only [e1, e2]
    rw [show (hi + 1 - lo).toNat = k by omega]
    have hstep : ∀ i : Nat, i < k → ∃ l : Lg 1 false, ∀ z : Lg n s,
        Lg.updateStep (Rng.down n) lo (Rng.down m) op (lo + i) z = z.setL (Rng.down n) (lo + i) l := fun i hi' => by
      obtain ⟨l, -, hl2⟩ := Lg.updateStep_down (n := n) (s := s) (by omega) hm hM op lo i (by omega)
        (fun h => by by_cases h' : i < 64; exact Or.inl h'; exact Or.inr (hu i hi' (by omega) h))
      exact ⟨l, hl2⟩
    refine loopM_error' 0 k x _ .shift (fun i z _ hi' => ?_) (i := if lo < 0 then 0 else k - 1) (by omega) (by split_ifs <;> omega) fun z => ?_
    · obtain ⟨l, hl2⟩ := hstep i hi'
      simp only [hl2]
      by_cases hw : lo + i < 0 ∨ 64 ≤ lo + i
      · exact Or.inr (Lg.setL_any_fault (by omega) h z _ (by omega) (by omega) hw _)
      · obtain ⟨y, hy, -⟩ := Lg.setL_any h1 (by omega) z (lo + i) (by omega) (by omega) (fun _ => by omega) l
        exact Or.inl ⟨y, hy⟩
    · obtain ⟨l, hl2⟩ := hstep (if lo < 0 then 0 else k - 1) (by split_ifs <;> omega)
      rw [hl2]
      exact Lg.setL_any_fault (by omega) h z _ (by split_ifs <;> omega) (by split_ifs <;> omega) (by split_ifs <;> omega) _

/-- `x[98 +: 4] = 'bx1z1` on 100 bits stores `z1` in the two top bits; `x[1 -: 4] = 'bx1z1` stores `x1` in the low ones -/
example :
    (((⟨Bits.zero, Bits.zero⟩ : Lg 100 false).updateBase (Rng.down 100) 4 true 98 (Rng.down 4)
      (⟨.nat (by decide) 0b0111, .nat (by decide) 0b1010⟩ : Lg 4 false)).map fun y => (y.at 97, y.at 98, y.at 99)) =
      .ok (.b0, .b1, .z) ∧
    (((⟨Bits.zero, Bits.zero⟩ : Lg 100 false).updateBase (Rng.down 100) 4 false 1 (Rng.down 4)
      (⟨.nat (by decide) 0b0111, .nat (by decide) 0b1010⟩ : Lg 4 false)).map fun y => (y.at 0, y.at 1, y.at 2)) =
      .ok (.b1, .x, .b0) := by decide +kernel

/-- **C136 is false of the code for every native width above one**, 2-state: `x[n +: 1] = 1`,
which selects no bit of the vector, is undefined behaviour at 64 bits; otherwise, if the storage has a
spare bit, it makes an object of value 0 differ from 0. And `x[0 -: 2] = v`, whose upper half is
inside, is undefined behaviour. -/
theorem C136_native_refuted_all (h1 : 1 < n) (h : n ≤ 64) (v : Bits 2 false) :
    (n = 64 → (Bits.zero : Bits n false).updateBase (Rng.down n) 1 true n (Rng.down 1) (Bits.ofInt 1 : Bits 1 false) = .error .shift) ∧
    (n < hw n → ∃ y, (Bits.zero : Bits n false).updateBase (Rng.down n) 1 true n (Rng.down 1) (Bits.ofInt 1 : Bits 1 false) = .ok y ∧
      y.bv = 0 ∧ y.eq (Bits.zero : Bits n false) = false) ∧
    (∀ x : Bits n s, x.updateBase (Rng.down n) 2 false 0 (Rng.down 2) v = .error .shift) := by
  have hle := le_hw h
  have k1 := C136_native_bit_exact h1 h (Bits.zero : Bits n false) (Bits.ofInt 1 : Bits 1 false) (by omega) 1 (by omega) (by omega) (by omega)
    true n n n (by omega) (by omega) rfl (by omega)
  refine ⟨fun e => k1.2 (by omega), fun e => ?_, fun x => ?_⟩
  · obtain ⟨y, hy, hr⟩ := k1.1 (by omega) (by have := hw_le n; omega)
    refine ⟨y, hy, BitVec.eq_of_getLsbD_eq fun i hi => ?_, ?_⟩
    · rw [Bits.getLsbD_bv y, hr i (by omega), if_neg (by omega), Bits.raw_zero]; simp
    · rw [← Bool.not_eq_true, Bits.eq_iff_same]
      intro hc
      have := hr n e
      rw [if_pos (by omega), hc, Bits.raw_zero, show ((n : Int) - n).toNat = 0 by omega] at this
      exact absurd this (by decide)
  · exact (C136_native_bit_exact h1 h x v (by omega) 2 (by omega) (by omega) (by omega) false 0 (-1) 0 (by omega) (by omega) rfl
      (by omega)).2 (by omega)

/-- **C136 is false of the code for a base with an x or z** (no write in IEEE 1800): the bits from 0
on are written, for every vector. With a 64-bit base of `2^32 + i`, outside every vector, the bits
from `i` on are written. -/
theorem C136_base_refuted_all {l : Nat} (h1 : 1 < n) (hN : n ≤ 2 ^ 31) (x : Bits n s) (y : Lg l t) (k i : Nat) (op : Bits k false)
    (h0 : 0 < k) (hi : i + k ≤ n) :
    (y.xz.anySet = true → ∃ z, x.updateBase (Rng.down n) k true y.toNum (Rng.down k) op = .ok z ∧
      ∀ j, j < k → z.bv.getLsbD j = op.bv.getLsbD j) ∧
    (∃ z, x.updateBase (Rng.down n) k true (2 ^ 32 + i) (Rng.down k) op = .ok z ∧
      ∀ j, j < k → z.bv.getLsbD (i + j) = op.bv.getLsbD j) := by
  constructor
  · intro hy
    obtain ⟨z, hz, hb, -⟩ := (C111_part_select_partial (by omega) hN (by omega) x op k 0 h0 le_rfl).1 (by omega)
    exact ⟨z, by rw [Lg.toNum, if_pos hy]; exact hz, fun j hj => by rw [hb j (by omega), if_pos (by omega), Nat.sub_zero]⟩
  · obtain ⟨z, hz, hb, -⟩ := (C111_part_select_partial (by omega) hN (by omega) x op k i h0 le_rfl).1 (by omega)
    refine ⟨z, ?_, fun j hj => by rw [hb _ (by omega), if_pos (by omega), Nat.add_sub_cancel_left]⟩
    have : tInt.conv (2 ^ 32 + (i : Int)) = tInt.conv i := by
      rw [show (2 : Int) ^ 32 + i = i + 1 * ((2 ^ 32 : Nat) : Int) by omega]
      simp only [CTy.conv]
      exact Int.add_mul_bmod_self_right ..
    rw [← hz, Bits.updateBase, Bits.updateBase, this]

end Verif
