import Verif.Props.CanonHistory
import Verif.Props.RoundTrip
import Verif.Show

/-!
# Histories of 4-state objects across widths (C16)

The canonical unsigned 2-state objects are exactly the ones a history makes (`C16_reached_iff`). The same holds of the
4-state ones (`C16_reached_logic_iff`), so the histories of `Hist2` and `Hist4` leave out no canonical object.
-/

namespace Verif

variable {n m : Nat}

theorem Rng.down_set (hn : 0 < n) (i : Nat) : Bits.physIdx (Rng.down n) i - (Rng.down n).lo = i := by
  rw [Bits.physIdx_down hn, Rng.lo_down hn]; simp

theorem Hist2.of_clean (hn : 0 < n) (hN : n ≤ 2 ^ 32) {x : Bits n false} (hx : x.Clean) : Hist2 n x := by
  have key : ∀ k, k ≤ n → ∃ y : Bits n false, Hist2 n y ∧ ∀ i, y.raw i = (decide (i < k) && x.raw i) := by
    intro k
    induction k with
    | zero => exact fun _ => ⟨_, .zero hn, fun i => by rw [Bits.raw_zero]; simp⟩
    | succ k ih =>
      intro hk
      obtain ⟨y, hy, hr⟩ := ih (by omega)
      obtain ⟨z, hz, hzr⟩ := Bits.set_phys (Rng.down n) y k k (Rng.down_set hn k) hk hN (x.raw k)
      refine ⟨z, .set k _ hy hk hN hz, fun i => ?_⟩
      rw [hzr, hr]
      by_cases h : i = k
      · subst h; simp
      · have : decide (i < k + 1) = decide (i < k) := by simp; omega
        rw [if_neg h, this]
  obtain ⟨y, hy, hr⟩ := key n le_rfl
  have : y = x := Bits.Clean.ext hy.ok.2 hx (by
    apply BitVec.eq_of_getLsbD_eq
    intro i hi
    rw [Bits.getLsbD_bv, Bits.getLsbD_bv, hr]; simp [hi])
  exact this ▸ hy

/-- **C16, the canonical 2-state objects are the ones that histories make**, at every width. -/
theorem C16_reached_iff (hN : n ≤ 2 ^ 32) (x : Bits n false) : Hist2 n x ↔ 0 < n ∧ x.Clean :=
  ⟨Hist2.ok, fun h => .of_clean h.1 hN h.2⟩

/-- Unsigned 4-state objects of all widths that a history makes: default construction, conversion of 2-state objects, single bit writes,
`& | ^ ~` on equal and on different sizes, shifts, `+ - *` that stay in range when no x or z is seen, `/` and `%`, constant and
run-time slices, extension, concatenation and updates of a slice. -/
inductive Hist4 : (n : Nat) → Lg n false → Prop
  | dflt {n : Nat} {x : Lg n false} : 0 < n → Lg.dflt = .ok x → Hist4 n x
  | bits {n : Nat} {b : Bits n false} : Hist2 n b → Hist4 n (Lg.ofBits b)
  | setL {n : Nat} {x y : Lg n false} (i : Nat) (l : Lg 1 false) : Hist4 n x → i < n → n ≤ 2 ^ 32 →
      x.setL (Rng.down n) i l = .ok y → Hist4 n y
  | and {n : Nat} {x y z : Lg n false} : Hist4 n x → Hist4 n y → x.and y = .ok z → Hist4 n z
  | or {n : Nat} {x y z : Lg n false} : Hist4 n x → Hist4 n y → x.or y = .ok z → Hist4 n z
  | xor {n : Nat} {x y z : Lg n false} : Hist4 n x → Hist4 n y → x.xor y = .ok z → Hist4 n z
  | not {n : Nat} {x z : Lg n false} : Hist4 n x → x.not = .ok z → Hist4 n z
  | andMix {n m : Nat} {x : Lg n false} {y : Lg m false} {z : Lg (max n m) false} : Hist4 n x → Hist4 m y →
      x.andMix y = .ok z → Hist4 (max n m) z
  | orMix {n m : Nat} {x : Lg n false} {y : Lg m false} {z : Lg (max n m) false} : Hist4 n x → Hist4 m y →
      x.orMix y = .ok z → Hist4 (max n m) z
  | xorMix {n m : Nat} {x : Lg n false} {y : Lg m false} {z : Lg (max n m) false} : Hist4 n x → Hist4 m y →
      x.xorMix y = .ok z → Hist4 (max n m) z
  | shr {n m : Nat} {x : Lg n false} {y : Lg m false} {z : Lg n false} : Hist4 n x → Hist4 m y → n ≤ 2 ^ 32 → m ≤ 2 ^ 32 →
      (n ≤ 64 → m ≤ 64 ∧ y.value.bv.toNat < n) → x.shr y = .ok z → Hist4 n z
  | shl {n m : Nat} {x : Lg n false} {y : Lg m false} {z : Lg n false} : Hist4 n x → Hist4 m y → 1 < n → n ≤ 2 ^ 32 →
      m ≤ 2 ^ 32 → (n ≤ 64 → m ≤ 64 ∧ y.value.bv.toNat < 32 ∧ x.value.bv.toNat * 2 ^ y.value.bv.toNat < 2 ^ n) →
      x.shl y = .ok z → Hist4 n z
  | add {n : Nat} {x y z : Lg n false} : Hist4 n x → Hist4 n y → 1 < n → n ≤ 2 ^ 32 →
      (x.xz.anySet = false → y.xz.anySet = false → x.value.bv.toNat + y.value.bv.toNat < 2 ^ n) →
      x.add y = .ok z → Hist4 n z
  | sub {n : Nat} {x y z : Lg n false} : Hist4 n x → Hist4 n y → 1 < n → n ≤ 2 ^ 32 →
      (x.xz.anySet = false → y.xz.anySet = false → y.value.bv.toNat ≤ x.value.bv.toNat) →
      x.sub y = .ok z → Hist4 n z
  | mul {n : Nat} {x y z : Lg n false} : Hist4 n x → Hist4 n y → 1 < n → n ≤ 2 ^ 32 →
      (x.xz.anySet = false → y.xz.anySet = false → x.value.bv.toNat * y.value.bv.toNat < 2 ^ n) →
      x.mul y = .ok z → Hist4 n z
  | div {n : Nat} {x y z : Lg n false} : Hist4 n x → Hist4 n y → n ≤ 2 ^ 32 → x.div y = .ok z → Hist4 n z
  | mod {n : Nat} {x y z : Lg n false} : Hist4 n x → Hist4 n y → n ≤ 2 ^ 32 → x.mod y = .ok z → Hist4 n z
  | slice {n : Nat} {x : Lg n false} (a b : Nat) {z : Lg (max a b - min a b + 1) false} : Hist4 n x → a < n → b < n →
      x.slice (Rng.down n) a b = .ok z → Hist4 _ z
  | sliceRt {n k : Nat} {x : Lg n false} (a b : Nat) {z : Lg k false} : Hist4 n x → 1 < n → n ≤ 2 ^ 32 → a < n → b < n →
      max a b - min a b + 1 = k → x.sliceRt (Rng.down n) k a b = .ok z → Hist4 k z
  | extend {n m : Nat} {x : Lg n false} : Hist4 n x → n ≤ m → Hist4 m (x.extend m)
  | concat {n m : Nat} {x : Lg n false} {y : Lg m false} {z : Lg (n + m) false} (h : n + m < 64) : Hist4 n x → Hist4 m y →
      (n + m ≤ 32 ∨ 32 < n) → x.concat y h = .ok z → Hist4 (n + m) z
  | updateRt {n m : Nat} {x z : Lg n false} {y : Lg m false} (a b : Nat) : Hist4 n x → Hist4 m y → a < n → b < n →
      n ≤ 2 ^ 31 → m ≤ 2 ^ 31 →
      (∀ k, k ≤ max a b - min a b → 64 ≤ k → k < m → (y.at k).isKnown = true) →
      x.updateRt (Rng.down n) a b (Rng.down m) y = .ok z → Hist4 n z

theorem Lg.clean_of_raw {z : Lg n false} (h1 : ∀ i, n ≤ i → z.value.raw i = false) (h2 : ∀ i, n ≤ i → z.xz.raw i = false) :
    z.Clean := ⟨(Bits.clean_unsigned_iff _).2 h1, (Bits.clean_unsigned_iff _).2 h2⟩

theorem Lg.clean_dflt (hn : 0 < n) {z : Lg n false} (he : Lg.dflt = .ok z) : z.Clean := by
  obtain ⟨y, hy, h1, h2⟩ := Lg.dflt_ok (n := n) (s := false) hn
  rw [he] at hy; injection hy with hy; subst hy
  exact clean_of_raw (fun i _ => h1 i) (fun i hi => by rw [h2]; simp; omega)

theorem Lg.clean_and' (hn : 0 < n) {x y z : Lg n false} (he : x.and y = .ok z) : z.Clean := by
  obtain ⟨w, hw, h1, h2⟩ := Lg.and_ok hn x y
  rw [he] at hw; injection hw with hw; subst hw
  exact clean_of_raw (fun j hj => by rw [h1]; simp; omega) (fun j hj => by rw [h2]; simp; omega)

theorem Lg.clean_or' (hn : 0 < n) {x y z : Lg n false} (he : x.or y = .ok z) : z.Clean := by
  obtain ⟨w, hw, h1, h2⟩ := Lg.or_ok hn x y
  rw [he] at hw; injection hw with hw; subst hw
  exact clean_of_raw (fun j hj => by rw [h1]; simp; omega) (fun j hj => by rw [h2]; simp; omega)

theorem Lg.clean_arith (hn : 0 < n) {f : Bits n false → Bits n false → Res (Bits n false)} {x y z : Lg n false}
    (he : Lg.arithWith f x y = .ok z)
    (h : x.xz.anySet = false → y.xz.anySet = false → ∀ v, f x.value y.value = .ok v → v.Clean) : z.Clean := by
  rw [Lg.arithWith] at he
  split at he
  · exact Lg.clean_dflt hn he
  · rename_i hz
    rw [Bool.or_eq_true, not_or, Bool.not_eq_true, Bool.not_eq_true] at hz
    cases e : f x.value y.value with
    | error f => rw [e] at he; cases he
    | ok v =>
      rw [e, res_map_ok] at he
      injection he with he
      subst he
      exact ⟨h hz.1 hz.2 v e, Bits.clean_zero⟩

theorem Lg.clean_div (hn : 0 < n) {f : Bits n false → Bits n false → Res (Bits n false)} {x y z : Lg n false}
    (he : Lg.divWith f x y = .ok z) (h : ∀ v, f x.value y.value = .ok v → v.Clean) : z.Clean := by
  rw [Lg.divWith] at he
  split at he
  · exact Lg.clean_dflt hn he
  · cases e : f x.value y.value with
    | error f => rw [e] at he; cases he
    | ok v =>
      rw [e, res_map_ok] at he
      injection he with he
      subst he
      exact ⟨h v e, Bits.clean_zero⟩

theorem Lg.clean_shift (hn : 0 < n) {f : {s' : Bool} → Bits n s' → Bits m false → Res (Bits n (s' && false))}
    {x : Lg n false} {y : Lg m false} {z : Lg n false} (he : Lg.shiftWith f x y = .ok z)
    (h : ∀ v : Bits n false, f x.value y.value = .ok v → v.Clean)
    (h' : x.xz.anySet = false → ∀ v : Bits n false, f x.xz y.value = .ok v → v.Clean) : z.Clean := by
  obtain ⟨d, hd, h1, -⟩ := Lg.dflt_ok (n := n) (s := false) hn
  have hd' : (Lg.dflt : Res (Lg n (false && false))) = .ok d := hd
  rw [Lg.shiftWith, hd', res_bind_ok] at he
  split at he
  · obtain ⟨k, hk, hr⟩ := Bits.mask_ok hn d.xz
    have hk' : (Bits.mask (n := n) (s := false) d.xz) = .ok k := hk
    rw [hk', res_map_ok] at he
    injection he with he
    subst he
    exact clean_of_raw (fun i _ => h1 i) (fun i hi => by rw [hr]; simp; omega)
  · rename_i hz
    rw [Bool.or_eq_true, not_or, Bool.not_eq_true, Bool.not_eq_true] at hz
    cases e : f x.value y.value with
    | error f => rw [e] at he; cases he
    | ok v =>
      rw [e, res_bind_ok] at he
      cases e2 : f x.xz y.value with
      | error f => rw [e2] at he; cases he
      | ok k =>
        rw [e2, res_map_ok] at he
        injection he with he
        subst he
        exact ⟨h v e, h' hz.2 k e2⟩

theorem Hist4.ok : ∀ {n : Nat} {x : Lg n false}, Hist4 n x → 0 < n ∧ x.Clean := by
  intro n x h
  induction h with
  | dflt hn he => exact ⟨hn, Lg.clean_dflt hn he⟩
  | @bits n b hb =>
    refine ⟨hb.ok.1, ?_, Bits.clean_zero⟩
    show (b.toSign false).Clean
    rw [Bits.toSign_self]; exact hb.ok.2
  | @setL n x y i l _ hi hN he ih =>
    obtain ⟨z, hz, h1, h2⟩ := Lg.setL_phys (Rng.down n) x i i (Rng.down_set ih.1 i) hi hN l
    rw [he] at hz; injection hz with hz; subst hz
    have c1 := (Bits.clean_unsigned_iff _).1 ih.2.1
    have c2 := (Bits.clean_unsigned_iff _).1 ih.2.2
    exact ⟨ih.1, Lg.clean_of_raw (fun j hj => by rw [h1, if_neg (by omega)]; exact c1 j hj)
      (fun j hj => by rw [h2, if_neg (by omega)]; exact c2 j hj)⟩
  | and _ _ he ihx _ => exact ⟨ihx.1, Lg.clean_and' ihx.1 he⟩
  | or _ _ he ihx _ => exact ⟨ihx.1, Lg.clean_or' ihx.1 he⟩
  | @xor n x y z _ _ he ihx ihy =>
    obtain ⟨w, hw, h1, h2⟩ := Lg.xor_ok ihx.1 x y
    rw [he] at hw; injection hw with hw; subst hw
    have c2 := (Bits.clean_unsigned_iff _).1 ihx.2.2
    have d2 := (Bits.clean_unsigned_iff _).1 ihy.2.2
    exact ⟨ihx.1, Lg.clean_of_raw (fun j hj => by rw [h1]; simp; omega) (fun j hj => by rw [h2, c2 j hj, d2 j hj]; rfl)⟩
  | @not n x z _ he ih =>
    obtain ⟨w, hw, h1, h2⟩ := Lg.not_ok ih.1 x
    rw [he] at hw; injection hw with hw; subst hw
    have c2 := (Bits.clean_unsigned_iff _).1 ih.2.2
    exact ⟨ih.1, Lg.clean_of_raw (fun j hj => by rw [h1]; simp; omega) (fun j hj => by rw [h2, c2 j hj])⟩
  | @andMix n m x y z _ _ he ihx _ =>
    have h0 : 0 < max n m := by have := ihx.1; omega
    exact ⟨h0, Lg.clean_and' h0 he⟩
  | @orMix n m x y z _ _ he ihx _ =>
    have h0 : 0 < max n m := by have := ihx.1; omega
    exact ⟨h0, Lg.clean_or' h0 he⟩
  | @xorMix n m x y z _ _ he ihx _ =>
    have h0 : 0 < max n m := by have := ihx.1; omega
    exact ⟨h0, Lg.clean_or' h0 he⟩
  | @shr n m x y z _ _ hN hM hr he ihx ihy =>
    have hy := Hist2.of_clean ihy.1 hM ihy.2.1
    exact ⟨ihx.1, Lg.clean_shift ihx.1 he (fun v hv => (Hist2.shr (.of_clean ihx.1 hN ihx.2.1) hy hN hr hv).ok.2)
      (fun _ v hv => (Hist2.shr (.of_clean ihx.1 hN ihx.2.2) hy hN hr hv).ok.2)⟩
  | @shl n m x y z _ _ h1 hN hM hr he ihx ihy =>
    have hy := Hist2.of_clean ihy.1 hM ihy.2.1
    refine ⟨ihx.1, Lg.clean_shift ihx.1 he (fun v hv => (Hist2.shl (.of_clean ihx.1 hN ihx.2.1) hy h1 hN hr hv).ok.2)
      (fun hz v hv => (Hist2.shl (.of_clean ihx.1 hN ihx.2.2) hy h1 hN (fun h => ⟨(hr h).1, (hr h).2.1, ?_⟩) hv).ok.2)⟩
    rw [Bits.anySet_native h ihx.2.2, decide_eq_false_iff_not, not_not] at hz
    rw [hz]; simp
  | @add n x y z _ _ h1 hN hs he ihx ihy =>
    exact ⟨ihx.1, Lg.clean_arith ihx.1 he fun a b v hv =>
      (Hist2.add (.of_clean ihx.1 hN ihx.2.1) (.of_clean ihx.1 hN ihy.2.1) h1 (hs a b) hv).ok.2⟩
  | @sub n x y z _ _ h1 hN hs he ihx ihy =>
    exact ⟨ihx.1, Lg.clean_arith ihx.1 he fun a b v hv =>
      (Hist2.sub (.of_clean ihx.1 hN ihx.2.1) (.of_clean ihx.1 hN ihy.2.1) h1 (hs a b) hv).ok.2⟩
  | @mul n x y z _ _ h1 hN hs he ihx ihy =>
    exact ⟨ihx.1, Lg.clean_arith ihx.1 he fun a b v hv =>
      (Hist2.mul (.of_clean ihx.1 hN ihx.2.1) (.of_clean ihx.1 hN ihy.2.1) h1 (hs a b) hv).ok.2⟩
  | @div n x y z _ _ hN he ihx ihy =>
    exact ⟨ihx.1, Lg.clean_div ihx.1 he fun v hv =>
      (Hist2.div (.of_clean ihx.1 hN ihx.2.1) (.of_clean ihx.1 hN ihy.2.1) hN hv).ok.2⟩
  | @mod n x y z _ _ hN he ihx ihy =>
    exact ⟨ihx.1, Lg.clean_div ihx.1 he fun v hv =>
      (Hist2.mod (.of_clean ihx.1 hN ihx.2.1) (.of_clean ihx.1 hN ihy.2.1) hN hv).ok.2⟩
  | @slice n x a b z _ ha hb he ih =>
    refine ⟨by omega, ?_⟩
    by_cases h65 : max a b - min a b = 64
    · rw [Lg.slice, C49_65_bits _ x.value a b (by omega) h65] at he; cases he
    · obtain ⟨w, hw, hc, -⟩ := C49_slice_logic x a b ha hb h65
      rw [he] at hw; injection hw with hw; subst hw; exact hc
  | @sliceRt n k x a b z _ h1 hN ha hb hk he ih =>
    refine ⟨by omega, ?_⟩
    obtain ⟨w, hw, hc, -⟩ := C51_slice_logic_partial h1 hN x k a b ha hb hk
    rw [he] at hw; injection hw with hw; subst hw; exact hc
  | @extend n m x _ h ih => exact ⟨by have := ih.1; omega, (C47_zero_extend_logic_partial ih.1 h x ih.2).1⟩
  | @concat n m x y z h _ _ hW he ihx ihy =>
    refine ⟨by have := ihx.1; omega, ?_⟩
    obtain ⟨w, hw, hc, -⟩ := C52_concat_logic_partial ihx.1 ihy.1 h hW x y ihx.2 ihy.2
    rw [he] at hw; injection hw with hw; subst hw; exact hc
  | @updateRt n m x z y a b _ _ ha hb hN hM hk he ihx ihy =>
    refine ⟨ihx.1, ?_⟩
    obtain ⟨w, hw, -, hc⟩ := C55_update_partial ihx.1 ihy.1 hN hM x y a b ha hb hk
    rw [C56_update_rt, hw] at he; injection he with he; subst he; exact hc rfl ihx.2

theorem Hist4.of_clean (hn : 0 < n) (hN : n ≤ 2 ^ 32) {x : Lg n false} (hx : x.Clean) : Hist4 n x := by
  have key : ∀ k, k ≤ n → ∃ y : Lg n false, Hist4 n y ∧ ∀ i, i < k → y.value.raw i = x.value.raw i ∧ y.xz.raw i = x.xz.raw i := by
    intro k
    induction k with
    | zero =>
      intro _
      obtain ⟨y, hy, -⟩ := Lg.dflt_ok (n := n) (s := false) hn
      exact ⟨y, .dflt hn hy, fun i h => by omega⟩
    | succ k ih =>
      intro hk
      obtain ⟨y, hy, hr⟩ := ih (by omega)
      obtain ⟨z, hz, h1, h2⟩ := Lg.setL_phys (Rng.down n) y k k (Rng.down_set hn k) hk hN
        (⟨Bits.mkN (by decide) ⟨.bool, if x.value.raw k then 1 else 0⟩, Bits.mkN (by decide) ⟨.bool, if x.xz.raw k then 1 else 0⟩⟩ : Lg 1 false)
      refine ⟨z, .setL k _ hy hk hN hz, fun i hi => ?_⟩
      rw [h1, h2]
      by_cases h : i = k
      · subst h
        rw [if_pos rfl, if_pos rfl]
        constructor <;> cases x.value.raw i <;> cases x.xz.raw i <;> decide
      · rw [if_neg h, if_neg h]; exact hr i (by omega)
  obtain ⟨y, hy, hr⟩ := key n le_rfl
  have : y = x := Lg.clean_ext hy.ok.2 hx fun i hi => by
    rw [Lg.at_lt _ hi, Lg.at_lt _ hi, (hr i hi).1, (hr i hi).2]
  exact this ▸ hy

/-- **C16, the canonical 4-state objects are the ones that histories make**, at every width. -/
theorem C16_reached_logic_iff (hN : n ≤ 2 ^ 32) (x : Lg n false) : Hist4 n x ↔ 0 < n ∧ x.Clean :=
  ⟨Hist4.ok, fun h => .of_clean h.1 hN h.2⟩

/-- **C16 for 4-state histories across widths, partial.** Both planes of every object of a history over any widths are canonical,
so two objects with the same 4-state bits are the same object and match (`===`). Missing: sums, differences, products
and left shifts of known values that leave the width (`C16_refuted`), and assignments. -/
theorem C16_across_widths_logic_partial {x y : Lg n false} (hx : Hist4 n x) (hy : Hist4 n y) :
    x.Clean ∧ ((∀ i, i < n → x.at i = y.at i) → x = y ∧ x.matches' y = true) := by
  refine ⟨hx.ok.2, fun h => ?_⟩
  have e := Lg.clean_ext hx.ok.2 hy.ok.2 h
  subst e
  have hn := hx.ok.1
  refine ⟨rfl, ?_⟩
  rw [Lg.matches', Bits.eq_clean hn (by simp) hx.ok.2.1 hx.ok.2.1, Bits.eq_clean hn (by simp) hx.ok.2.2 hx.ok.2.2]
  simp

-- an all x 3-bit object above 5 at four bits, inverted and widened to 100 bits
example : ∃ (z : Lg 7 false) (w : Lg 7 false), z.not = .ok w ∧ Hist4 7 w ∧
    (List.range 7).map w.at = [.b0, .b1, .b0, .b1, .x, .x, .x] ∧ Hist4 100 (w.extend 100) := by
  obtain ⟨d, hd, -⟩ := Lg.dflt_ok (n := 3) (s := false) (by decide)
  have h3 : Hist4 3 d := .dflt (by decide) hd
  have h4 : Hist4 4 (Lg.ofBits (Bits.ofInt 5)) := .bits (.int 5 (by decide) (fun _ => by decide))
  obtain ⟨z, hz, -⟩ := C52_concat_logic_partial (by decide) (by decide) (by decide) (.inl (by decide)) d _ h3.ok.2 h4.ok.2
  have h7 := Hist4.concat (by decide) h3 h4 (.inl (by decide)) hz
  obtain ⟨w, hw, -⟩ := Lg.not_ok h7.ok.1 z
  have hw7 := Hist4.not h7 hw
  refine ⟨z, w, hw, hw7, ?_, .extend hw7 (by decide)⟩
  have : (((Lg.dflt : Res (Lg 3 false)).bind fun d =>
    d.concat (Lg.ofBits (Bits.ofInt 5 : Bits 4 false) : Lg 4 false) (by decide)).bind Lg.not).map
      (fun w => (List.range 7).map w.at) = .ok [.b0, .b1, .b0, .b1, .x, .x, .x] := by decide +kernel
  rw [hd, res_bind_ok, hz, res_bind_ok, hw, res_map_ok] at this
  exact Except.ok.inj this

end Verif
