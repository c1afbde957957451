import Verif.Props.XSound
import Verif.Props.Measure

/-!
# Programs that work bit by bit

Client loops that read single bits with `operator[]` and write them with `set()`, compared with
the operators of the whole vectors: an adder made of gates, a reversal, a count, and the
decoding of a Gray code. The loops are client code; the functions that they call are the
models of `bit.hh` 47, 69-83, 1093-1120 and `logic.hh` 54-70, 134-137, 1111-1115.
-/

namespace Verif

variable {n : Nat} {s t u : Bool}

theorem Bits.set_down (hn : 0 < n) (hN : n ≤ 2 ^ 32) (x : Bits n s) (i : Nat) (hi : i < n) (v : Bool) :
    ∃ y, x.set (Rng.down n) i v = .ok y ∧
      ∀ j, y.bv.getLsbD j = if j = i then v else x.bv.getLsbD j := by
  obtain ⟨y, hy, hr⟩ := Bits.set_phys (Rng.down n) x i i
    (by rw [Bits.physIdx_down hn, Rng.lo_down hn]; simp) hi hN v
  refine ⟨y, hy, fun j => ?_⟩
  rw [Bits.getLsbD_bv, Bits.getLsbD_bv, hr]
  by_cases e : j = i
  · simp [e, hi]
  · simp [e]

/-! ## C151: 2-state -/

/-- `for i < n: r.set(i, a[i] ^ b[i] ^ c); c = majority(a[i], b[i], c)` -/
def ripple (a : Bits n s) (b : Bits n t) (r : Bits n u) : Res (Bits n u × Bool) :=
  loopM 0 n (r, false) fun i st =>
    (a.get (Rng.down n) i).bind fun x =>
    (b.get (Rng.down n) i).bind fun y =>
    (st.1.set (Rng.down n) i (x ^^ y ^^ st.2)).map fun r =>
      (r, x && y || st.2 && (x ^^ y))

/-- **C151, the adder.** A ripple-carry adder of single-bit reads and writes, at every width
and signedness and whatever the result object held before, gives the sum modulo `2^n` and
the carry. -/
theorem C151_ripple (hn : 0 < n) (hN : n ≤ 2 ^ 32) (a : Bits n s) (b : Bits n t) (r : Bits n u) :
    ∃ z c, ripple a b r = .ok (z, c) ∧ z.bv = a.bv + b.bv ∧
      (c = true ↔ 2 ^ n ≤ a.bv.toNat + b.bv.toNat) := by
  obtain ⟨⟨z, c⟩, hz, h1, h2⟩ : ∃ st, ripple a b r = .ok st ∧ _ := loopM_induct 0 n (r, false) _
    (fun k (st : Bits n u × Bool) => (∀ j, j < k → st.1.bv.getLsbD j = (a.bv + b.bv).getLsbD j) ∧
      st.2 = BitVec.carry k a.bv b.bv false) (Nat.zero_le n) ⟨by simp, by simp⟩
    (by
      rintro i ⟨q, c⟩ - hi ⟨h1, h2⟩
      simp only at h1 h2
      obtain ⟨y, hy, e⟩ := Bits.set_down hn hN q i hi (a.bv.getLsbD i ^^ b.bv.getLsbD i ^^ c)
      refine ⟨(y, a.bv.getLsbD i && b.bv.getLsbD i || c && (a.bv.getLsbD i ^^ b.bv.getLsbD i)), ?_, ?_, ?_⟩
      · rw [C01_read hn hN a i hi, res_bind_ok, C01_read hn hN b i hi, res_bind_ok]
        simp only [hy]; rfl
      · intro j hj
        simp only [e]
        by_cases ej : j = i
        · subst ej
          rw [if_pos rfl, BitVec.getLsbD_add hi, h2, Bool.xor_assoc]
        · rw [if_neg ej, h1 j (by omega)]
      · simp only
        rw [BitVec.carry_succ, h2]
        generalize a.bv.getLsbD i = p; generalize b.bv.getLsbD i = q
        generalize BitVec.carry i a.bv b.bv false = w
        revert p q w; decide)
  refine ⟨z, c, hz, ?_, ?_⟩
  · apply BitVec.eq_of_getLsbD_eq
    intro j hj; exact h1 j hj
  · simp only at h2
    rw [h2, BitVec.carry, decide_eq_true_iff, Nat.mod_eq_of_lt a.bv.isLt, Nat.mod_eq_of_lt b.bv.isLt]
    simp

/-- **C151, the adder against `+`, exactly.** On canonical operands `a + b` reads at every
index like the ripple-carry adder if and only if it is not the one bit sum `1 + 1` and does
not overflow a signed sum of 32 or 64 bits. Missing: those two cases, in which `+` does not give the
sum (`C28_one_bit`, `C28_signed_overflow`). -/
theorem C151_add_iff_partial (hn : 0 < n) (hN : n ≤ 2 ^ 32) (a : Bits n s) (b : Bits n t)
    (ha : a.Clean) (hb : b.Clean) (r : Bits n u) :
    ∃ z c, ripple a b r = .ok (z, c) ∧
      ((∃ w, a.add b = .ok w ∧ ∀ i, i < n → w.get (Rng.down n) i = z.get (Rng.down n) i) ↔
        ¬ (n = 1 ∧ a.bv.toNat = 1 ∧ b.bv.toNat = 1) ∧ ¬ Overflows s t n (a.bv.toInt + b.bv.toInt)) := by
  obtain ⟨z, c, hz, e, -⟩ := C151_ripple hn hN a b r
  refine ⟨z, c, hz, ?_⟩
  rw [← C28_add_iff hn a b ha hb]
  constructor
  · rintro ⟨w, hw, h⟩
    refine ⟨w, hw, ?_⟩
    rw [← e]
    apply BitVec.eq_of_getLsbD_eq
    intro i hi
    have := h i hi
    rw [C01_read hn hN w i hi, C01_read hn hN z i hi] at this
    exact Except.ok.inj this
  · rintro ⟨w, hw, h⟩
    refine ⟨w, hw, fun i hi => ?_⟩
    rw [C01_read hn hN w i hi, C01_read hn hN z i hi, h, e]

/-- `for i < n: r.set(i, a[n-1-i])` -/
def reverseBits (a : Bits n s) (r : Bits n u) : Res (Bits n u) :=
  loopM 0 n r fun i r =>
    (a.get (Rng.down n) ((n - 1 - i : Nat) : Int)).bind fun x => r.set (Rng.down n) i x

/-- **C151, the reversal**: bit `i` of the copy is bit `n-1-i`, and a second reversal restores
every bit, whatever the targets held before. -/
theorem C151_reverse (hn : 0 < n) (hN : n ≤ 2 ^ 32) (a : Bits n s) (r : Bits n u) (q : Bits n t) :
    ∃ y z, reverseBits a r = .ok y ∧ y.bv = a.bv.reverse ∧ reverseBits y q = .ok z ∧ z.bv = a.bv := by
  have one : ∀ {s u : Bool} (a : Bits n s) (r : Bits n u), ∃ y, reverseBits a r = .ok y ∧
      ∀ j, j < n → y.bv.getLsbD j = a.bv.getLsbD (n - 1 - j) := by
    intro s u a r
    obtain ⟨y, hy, h⟩ : ∃ y, reverseBits a r = .ok y ∧ _ := loopM_induct 0 n r _
      (fun k (y : Bits n u) => ∀ j, j < k → y.bv.getLsbD j = a.bv.getLsbD (n - 1 - j)) (Nat.zero_le n)
      (by simp)
      (by
        rintro i q - hi h
        obtain ⟨y, hy, e⟩ := Bits.set_down hn hN q i hi (a.bv.getLsbD (n - 1 - i))
        refine ⟨y, ?_, fun j hj => ?_⟩
        · rw [C01_read hn hN a (n - 1 - i) (by omega), res_bind_ok]; exact hy
        · rw [e]
          by_cases ej : j = i
          · rw [if_pos ej, ej]
          · rw [if_neg ej, h j (by omega)])
    exact ⟨y, hy, h⟩
  obtain ⟨y, hy, e⟩ := one a r
  obtain ⟨z, hz, f⟩ := one y q
  refine ⟨y, z, hy, ?_, hz, ?_⟩
  · apply BitVec.eq_of_getLsbD_eq
    intro j hj
    rw [e j hj, BitVec.getLsbD_reverse, BitVec.getMsbD_eq_getLsbD]; simp [hj]
  · apply BitVec.eq_of_getLsbD_eq
    intro j hj
    rw [f j hj, e _ (by omega)]
    congr 1; omega

/-- `for i < n: if (a[i]) c++` -/
def countOnes (a : Bits n s) : Res Nat :=
  loopM 0 n 0 fun i c => (a.get (Rng.down n) i).map fun x => c + x.toNat

/-- **C151, the count**: never faults and counts the ones, at every width. -/
theorem C151_count (hn : 0 < n) (hN : n ≤ 2 ^ 32) (a : Bits n s) :
    countOnes a = .ok ((List.range n).countP fun i => a.bv.getLsbD i) := by
  obtain ⟨y, hy, h⟩ := loopM_induct 0 n 0 (fun i c => (a.get (Rng.down n) i).map fun x => c + x.toNat)
    (fun k c => c = (List.range k).countP fun i => a.bv.getLsbD i) (Nat.zero_le n) (by simp)
    (by
      rintro i c - hi h
      refine ⟨_, by rw [C01_read hn hN a i hi, res_map_ok], ?_⟩
      rw [h, List.range_succ, List.countP_append]
      rcases h' : a.bv.getLsbD i <;> simp [h'])
  rw [countOnes, hy, h]

/-- `g ^ (g >> 1)` turned back: `b[n-1] = g[n-1]`, then `b[i] = b[i+1] ^ g[i]` downwards -/
def grayDecode (g : Bits n s) (r : Bits n u) : Res (Bits n u) :=
  (loopM 0 n (r, false) fun i st =>
    (g.get (Rng.down n) ((n - 1 - i : Nat) : Int)).bind fun x =>
    (st.1.set (Rng.down n) ((n - 1 - i : Nat) : Int) (st.2 ^^ x)).map fun r => (r, st.2 ^^ x)).map (·.1)

theorem grayDecode_spec (hn : 0 < n) (hN : n ≤ 2 ^ 32) (g : Bits n s) (r : Bits n u) (f : Nat → Bool)
    (hf : ∀ i, i < n → g.bv.getLsbD i = (f i ^^ f (i + 1))) (hfn : f n = false) :
    ∃ y, grayDecode g r = .ok y ∧ ∀ i, i < n → y.bv.getLsbD i = f i := by
  have key : ∃ st : Bits n u × Bool, (loopM 0 n (r, false) fun i st =>
      (g.get (Rng.down n) ((n - 1 - i : Nat) : Int)).bind fun x =>
      (st.1.set (Rng.down n) ((n - 1 - i : Nat) : Int) (st.2 ^^ x)).map fun r => (r, st.2 ^^ x)) = .ok st ∧
      (∀ j, n ≤ j + n → j < n → st.1.bv.getLsbD j = f j) ∧ st.2 = f 0 := by
    have := loopM_induct 0 n (r, false) (fun i st =>
      (g.get (Rng.down n) ((n - 1 - i : Nat) : Int)).bind fun x =>
      (st.1.set (Rng.down n) ((n - 1 - i : Nat) : Int) (st.2 ^^ x)).map fun r => (r, st.2 ^^ x))
      (fun k (st : Bits n u × Bool) => (∀ j, n ≤ j + k → j < n → st.1.bv.getLsbD j = f j) ∧ st.2 = f (n - k))
      (Nat.zero_le n) ⟨fun j h1 h2 => by omega, by simp [hfn]⟩
      (by
        rintro i ⟨q, c⟩ - hi ⟨h1, h2⟩
        simp only at h1 h2
        obtain ⟨y, hy, e⟩ := Bits.set_down hn hN q (n - 1 - i) (by omega) (c ^^ g.bv.getLsbD (n - 1 - i))
        have hv : (c ^^ g.bv.getLsbD (n - 1 - i)) = f (n - (i + 1)) := by
          rw [hf _ (by omega), h2]
          have e1 : n - 1 - i + 1 = n - i := by omega
          have e2 : n - 1 - i = n - (i + 1) := by omega
          rw [e1, e2]
          generalize f (n - i) = p; generalize f (n - (i + 1)) = q
          revert p q; decide
        refine ⟨(y, c ^^ g.bv.getLsbD (n - 1 - i)), ?_, ?_, hv⟩
        · rw [C01_read hn hN g (n - 1 - i) (by omega), res_bind_ok]
          simp only [hy]; rfl
        · intro j hj hjn
          simp only [e]
          by_cases ej : j = n - 1 - i
          · rw [if_pos ej, hv]; congr 1; omega
          · rw [if_neg ej, h1 j (by omega) hjn])
    simpa using this
  obtain ⟨⟨y, c⟩, hy, h, -⟩ := key
  refine ⟨y, ?_, fun i hi => h i (by omega) hi⟩
  rw [grayDecode, hy]; rfl

/-- **C151, the Gray code**: `x ^ (x >> 1)`, as the library computes it, is turned back into
`x` by a loop over its bits. -/
theorem C151_gray (hn : 1 < n) (hN : n ≤ 2 ^ 32) {m : Nat} (x : Bits n s) (k : Bits m t)
    (hk : k.Clean) (hk1 : numOf t k.bv = (1 : Nat)) (hm : n ≤ 64 → m ≤ 64) (r : Bits n u) :
    ∃ g y, x.shr k = .ok g ∧ grayDecode (x.xor g) r = .ok y ∧ y.bv = x.bv := by
  obtain ⟨g, hg, e⟩ := C24_shr_partial (by omega) hN x k hk 1 hk1 (fun h => ⟨hm h, hn⟩)
  obtain ⟨y, hy, h⟩ := grayDecode_spec (by omega) hN (x.xor g) r (fun i => x.bv.getLsbD i)
    (fun i hi => by
      rw [Bits.bv_xor, BitVec.getLsbD_xor, e, BitVec.getLsbD_ushiftRight, Nat.add_comm])
    (by simp)
  exact ⟨g, y, hg, hy, BitVec.eq_of_getLsbD_eq fun i hi => h i hi⟩

-- the adder at 70 bits, over a result object full of ones
example : (ripple (Bits.ofInt 0xfffffffffffff : Bits 70 false) (Bits.ofInt 1 : Bits 70 false)
    (Bits.ofInt (-1) : Bits 70 true)).map (fun p => (p.1.bv.toNat % 2 ^ 64, p.2)) =
    .ok (0x10000000000000, false) := by decide +kernel
example : (reverseBits (Bits.ofInt 0b1011 : Bits 6 false) (Bits.ofInt 0 : Bits 6 false)).map (·.bv) =
    .ok 0b110100#6 := by decide +kernel

/-! ## C152: 4-state -/

/-- what `&` computes on single bits (`C10_and_table_partial`) -/
def gateAnd (a b : V4) : V4 := (andDeviation a b).getD (V4.and a b)

/-- what `|` computes on single bits (`C11_or_table_partial`) -/
def gateOr (a b : V4) : V4 := (orDeviation a b).getD (V4.or a b)

/-- `for i < n: p = a[i] ^ b[i]; r.set(i, p ^ c); c = (a[i] & b[i]) | (c & p)`, where `a[i]`,
`b[i]`, `c` and `p` are `logic<0>` objects -/
def rippleStepL (a : Lg n s) (b : Lg n t) (i : Nat) (st : Lg n u × Lg 1 false) : Res (Lg n u × Lg 1 false) :=
  (a.get (Rng.down n) i).bind fun x =>
  (b.get (Rng.down n) i).bind fun y =>
  (x.xor y).bind fun p =>
  (p.xor st.2).bind fun q =>
  (st.1.setL (Rng.down n) i q).bind fun r =>
  (x.and y).bind fun g =>
  (st.2.and p).bind fun h =>
  (g.or h).map fun c => (r, c)

/-- the loop over all positions, from the lowest -/
def rippleL (a : Lg n s) (b : Lg n t) (r : Lg n u) : Res (Lg n u × Lg 1 false) :=
  loopM 0 n (r, Lg.known1 false) (rippleStepL a b)

/-- the carry into position `i` of the gates -/
def gateCarry (f g : Nat → V4) : Nat → V4
  | 0 => .b0
  | i + 1 => gateOr (gateAnd (f i) (g i)) (gateAnd (gateCarry f g i) (V4.xor (f i) (g i)))

theorem Lg.get_down (hn : 0 < n) (hN : n ≤ 2 ^ 32) (x : Lg n s) (i : Nat) (hi : i < n)
    (h : i < 64 ∨ (x.at i).isKnown = true) :
    ∃ b, x.get (Rng.down n) i = .ok b ∧ b.at 0 = x.at i := by
  have := C02_read_ok hn hN x i hi h
  cases e : x.get (Rng.down n) i with
  | error _ => rw [e] at this; cases this
  | ok b => rw [e] at this; exact ⟨b, rfl, Except.ok.inj this⟩

theorem rippleStepL_ok (hn : 0 < n) (hN : n ≤ 2 ^ 32) (a : Lg n s) (b : Lg n t) (q : Lg n u) (c : Lg 1 false)
    (i : Nat) (hi : i < n) (h : i < 64 ∨ (a.at i).isKnown = true ∧ (b.at i).isKnown = true) :
    ∃ r' c', rippleStepL a b i (q, c) = .ok (r', c') ∧
      (∀ j, r'.at j = if j = i then V4.xor (V4.xor (a.at i) (b.at i)) (c.at 0) else q.at j) ∧
      c'.at 0 = gateOr (gateAnd (a.at i) (b.at i)) (gateAnd (c.at 0) (V4.xor (a.at i) (b.at i))) := by
  obtain ⟨x, hx, ex⟩ := Lg.get_down hn hN a i hi (h.imp id (·.1))
  obtain ⟨y, hy, ey⟩ := Lg.get_down hn hN b i hi (h.imp id (·.2))
  obtain ⟨p, hp, ep⟩ := C08_xor_table Nat.one_pos x y
  obtain ⟨q', hq, eq⟩ := C08_xor_table Nat.one_pos p c
  obtain ⟨r', hr, er1, er2⟩ := Lg.setL_phys (Rng.down n) q i i
    (by rw [Bits.physIdx_down hn, Rng.lo_down hn]; simp) hi hN q'
  obtain ⟨g, hg, eg⟩ := C10_and_table_partial Nat.one_pos x y
  obtain ⟨h', hh, eh⟩ := C10_and_table_partial Nat.one_pos c p
  obtain ⟨c', hc, ec⟩ := C11_or_table_partial Nat.one_pos g h'
  have ew := Lg.at_write hi er1 er2
  refine ⟨r', c', ?_, ?_, ?_⟩
  · rw [rippleStepL, hx, res_bind_ok, hy, res_bind_ok, hp, res_bind_ok]
    simp only
    rw [hq, res_bind_ok, hr, res_bind_ok, hg, res_bind_ok, hh, res_bind_ok, hc, res_map_ok]
  · intro j
    rw [ew j, Lg.hold1_at, eq 0 Nat.one_pos, ep 0 Nat.one_pos, ex, ey]
  · rw [ec 0 Nat.one_pos, eg 0 Nat.one_pos, eh 0 Nat.one_pos, ep 0 Nat.one_pos, ex, ey, gateOr, gateAnd, gateAnd]

/-- **C152, exactly.** The gates never fault if x and z lie below position 64 only (above, the
reads are undefined behaviour, `C02_read_exact`); the carry is that of the tables of `&` and
`|` as the code has them. -/
theorem C152_exact (hn : 0 < n) (hN : n ≤ 2 ^ 32) (a : Lg n s) (b : Lg n t) (r : Lg n u)
    (h : ∀ i, i < n → i < 64 ∨ (a.at i).isKnown = true ∧ (b.at i).isKnown = true) :
    ∃ z c, rippleL a b r = .ok (z, c) ∧ c.at 0 = gateCarry a.at b.at n ∧
      ∀ i, i < n → z.at i = V4.xor (V4.xor (a.at i) (b.at i)) (gateCarry a.at b.at i) := by
  obtain ⟨⟨z, c⟩, hz, h1, h2⟩ := loopM_induct 0 n (r, Lg.known1 false) (rippleStepL a b)
    (fun k (st : Lg n u × Lg 1 false) =>
      (∀ j, j < k → st.1.at j = V4.xor (V4.xor (a.at j) (b.at j)) (gateCarry a.at b.at j)) ∧
      st.2.at 0 = gateCarry a.at b.at k) (Nat.zero_le n) ⟨by simp, by rw [Lg.known1_at, gateCarry]; rfl⟩
    (by
      rintro i ⟨q, c⟩ - hi ⟨h1, h2⟩
      simp only at h1 h2
      obtain ⟨r', c', e, e1, e2⟩ := rippleStepL_ok hn hN a b q c i hi (h i hi)
      refine ⟨(r', c'), e, ?_, ?_⟩
      · intro j hj
        simp only [e1]
        by_cases ej : j = i
        · rw [if_pos ej, ej, h2]
        · rw [if_neg ej, h1 j (by omega)]
      · simp only
        rw [e2, h2, gateCarry])
  exact ⟨z, c, hz, h2, h1⟩

theorem gateCarry_known (a : BitVec n) (b : BitVec n) (f g : Nat → V4) (k : Nat)
    (hf : ∀ i, i < k → f i = V4.ofBool (a.getLsbD i)) (hg : ∀ i, i < k → g i = V4.ofBool (b.getLsbD i)) :
    gateCarry f g k = V4.ofBool (BitVec.carry k a b false) := by
  induction k with
  | zero => simp [gateCarry, V4.ofBool]
  | succ k ih =>
    rw [gateCarry, ih (fun i hi => hf i (by omega)) (fun i hi => hg i (by omega)), hf k (by omega),
      hg k (by omega), BitVec.carry_succ]
    generalize a.getLsbD k = p; generalize b.getLsbD k = q
    generalize BitVec.carry k a b false = w
    revert p q w; decide

/-- **C152, partial.** Every result bit up to the first x or z of the operands is the bit of
the sum, whatever lies above; the carry is right if there is no x and z. Missing: bits above
an x or z, of which some are known and wrong (`C152_refuted`). -/
theorem C152_known_partial (hn : 0 < n) (hN : n ≤ 2 ^ 32) (a : Lg n s) (b : Lg n t) (r : Lg n u)
    (h : ∀ i, i < n → i < 64 ∨ (a.at i).isKnown = true ∧ (b.at i).isKnown = true)
    (k : Nat) (hk : k ≤ n) (ha : ∀ i, i < k → (a.at i).isKnown = true)
    (hb : ∀ i, i < k → (b.at i).isKnown = true) :
    ∃ z c, rippleL a b r = .ok (z, c) ∧
      (∀ i, i < k → z.at i = V4.ofBool ((a.value.bv + b.value.bv).getLsbD i)) ∧
      (k = n → c.at 0 = V4.ofBool (decide (2 ^ n ≤ a.value.bv.toNat + b.value.bv.toNat))) := by
  obtain ⟨z, c, hz, hc, e⟩ := C152_exact hn hN a b r h
  have kn : ∀ {s : Bool} (a : Lg n s) i, i < n → (a.at i).isKnown = true → a.at i = V4.ofBool (a.value.bv.getLsbD i) := by
    intro s a i hi
    rw [Lg.at]
    cases a.value.bv.getLsbD i <;> cases a.xz.bv.getLsbD i <;> simp [V4.mk, V4.ofBool, V4.isKnown, V4.known?]
  have fa : ∀ i, i < k → a.at i = V4.ofBool (a.value.bv.getLsbD i) := fun i hi => kn a i (by omega) (ha i hi)
  have fb : ∀ i, i < k → b.at i = V4.ofBool (b.value.bv.getLsbD i) := fun i hi => kn b i (by omega) (hb i hi)
  refine ⟨z, c, hz, fun i hi => ?_, ?_⟩
  · rw [e i (by omega), gateCarry_known a.value.bv b.value.bv _ _ i (fun j hj => fa j (by omega))
      (fun j hj => fb j (by omega)), fa i hi, fb i hi, BitVec.getLsbD_add (by omega)]
    generalize a.value.bv.getLsbD i = p; generalize b.value.bv.getLsbD i = q
    generalize BitVec.carry i a.value.bv b.value.bv false = w
    revert p q w; decide
  · rintro rfl
    rw [hc, gateCarry_known a.value.bv b.value.bv _ _ k fa fb, BitVec.carry,
      Nat.mod_eq_of_lt a.value.bv.isLt, Nat.mod_eq_of_lt b.value.bv.isLt]
    simp

/-- **C152 is false at every native width above one**: with an x in bit 0 of the first
operand and a second operand of 1, bit 1 of the result is a known 1, although it is 0 if the
x turns out to be 0. -/
theorem C152_refuted (h1 : 1 < n) (h : n ≤ 64) :
    ∃ a a' b : Lg n false, a.Clean ∧ a'.Clean ∧ b.Clean ∧ a.Allows a' ∧ a'.Def ∧ b.Def ∧
      ∀ r : Lg n u, ∃ z c z' c', rippleL a b r = .ok (z, c) ∧ rippleL a' b r = .ok (z', c') ∧
        z.at 1 = .b1 ∧ z'.at 1 = .b0 := by
  obtain ⟨a, ca, ea⟩ := Lg.exists_at (n := n) (s := false) fun i => if i = 0 then .x else .b0
  obtain ⟨a', ca', ea'⟩ := Lg.exists_at (n := n) (s := false) fun _ => .b0
  obtain ⟨b, cb, eb⟩ := Lg.exists_at (n := n) (s := false) fun i => if i = 0 then .b1 else .b0
  have e0 : a.at 0 = .x := by rw [ea 0 (by omega)]; rfl
  have e1 : a.at 1 = .b0 := by rw [ea 1 h1]; rfl
  have f0 : a'.at 0 = .b0 := ea' 0 (by omega)
  have f1 : a'.at 1 = .b0 := ea' 1 h1
  have g0 : b.at 0 = .b1 := by rw [eb 0 (by omega)]; rfl
  have g1 : b.at 1 = .b0 := by rw [eb 1 h1]; rfl
  refine ⟨a, a', b, ca, ca', cb, fun i hi hk => ?_, fun i hi => by rw [ea' i hi]; rfl,
    fun i hi => by rw [eb i hi]; split_ifs <;> rfl, fun r => ?_⟩
  · rw [ea i hi] at hk ⊢
    rw [ea' i hi]
    split_ifs at hk ⊢ with e
    · cases hk
    · rfl
  · obtain ⟨z, c, hz, -, e⟩ := C152_exact (by omega) (by omega) a b r (fun i hi => Or.inl (by omega))
    obtain ⟨z', c', hz', -, e'⟩ := C152_exact (by omega) (by omega) a' b r (fun i hi => Or.inl (by omega))
    refine ⟨z, c, z', c', hz, hz', ?_, ?_⟩
    · rw [e 1 h1]; simp only [gateCarry, e0, e1, g0, g1]; decide
    · rw [e' 1 h1]; simp only [gateCarry, f0, f1, g0, g1]; decide

-- 5 + 3 with x in bit 3 of the first operand: the lower three bits are known
example : ∃ a b : Lg 4 false, a.at 3 = .x ∧ b.at 3 = .b0 ∧
    ∀ i, i < 3 → (a.at i).isKnown = true ∧ (b.at i).isKnown = true := by
  refine ⟨⟨Bits.ofInt 5, Bits.ofInt 8⟩, ⟨Bits.ofInt 3, Bits.ofInt 0⟩, by decide +kernel, by decide +kernel, by decide +kernel⟩

end Verif
