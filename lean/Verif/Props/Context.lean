import Verif.Props.CanonicalExact
import Verif.Props.Extend
import Verif.Props.Assign
import Verif.Props.ArithExact
import Verif.Props.MixedWidth

/-!
# Expressions in a wider context (C193)

In SystemVerilog the operands of `+ - * & | ^ ~` are extended to the width of the assignment target before the operation (IEEE 1800 11.6.1): `c = a + b` with a wider `c` keeps
the carry. In C++ the operator does not see the target.
-/

namespace Verif

variable {n m : Nat} {t : Bool}

theorem Bits.testBit_sto (x : Bits n false) (i : Nat) : x.sto.testBit i = x.raw i := by
  by_cases h : n ≤ 64
  · rw [sto_native h, raw_native h]; rfl
  · rw [sto_big h, raw_big h, Big.testBit_val']

/-- the storage as a bit vector -/
def Bits.stoBV (x : Bits n false) : BitVec (stoW n) := BitVec.ofNat _ x.sto

theorem Bits.getLsbD_stoBV (x : Bits n false) (i : Nat) : x.stoBV.getLsbD i = x.raw i := by
  have h : x.stoBV.toNat = x.sto := by rw [stoBV, BitVec.toNat_ofNat, Nat.mod_eq_of_lt x.sto_lt]
  rw [← BitVec.testBit_toNat, h, testBit_sto]

theorem Bits.toNat_stoBV (x : Bits n false) : x.stoBV.toNat = x.sto := by
  rw [stoBV, BitVec.toNat_ofNat, Nat.mod_eq_of_lt x.sto_lt]

theorem Bits.stoBV_clean {x : Bits n false} (hx : x.Clean) : x.stoBV = x.bv.setWidth _ := by
  apply BitVec.eq_of_toNat_eq
  rw [toNat_stoBV, sto_clean hx, BitVec.toNat_setWidth, Nat.mod_eq_of_lt]
  exact lt_of_lt_of_le x.bv.isLt (Nat.pow_le_pow_right (by decide) le_stoW)

theorem Bits.bv_extend_sto (hn : 0 < n) (h : n ≤ m) (x : Bits n false) : (x.extend m).bv = x.stoBV.setWidth m := by
  apply BitVec.eq_of_getLsbD_eq
  intro i hi
  rw [getLsbD_bv, raw_extend_unsigned hn h, BitVec.getLsbD_setWidth, getLsbD_stoBV]

/-- truncation commutes with all the operators -/
theorem AE.den_setWidth {w k : Nat} (h : k ≤ w) (ρ : Nat → BitVec w) : (e : AE) → (e.den ρ).setWidth k = e.den fun i => (ρ i).setWidth k
  | var _ => rfl
  | not a => by rw [den, den, ← a.den_setWidth h ρ, BitVec.setWidth_not h]
  | and a b => by rw [den, den, ← a.den_setWidth h ρ, ← b.den_setWidth h ρ, BitVec.setWidth_and]
  | or a b => by rw [den, den, ← a.den_setWidth h ρ, ← b.den_setWidth h ρ, BitVec.setWidth_or]
  | xor a b => by rw [den, den, ← a.den_setWidth h ρ, ← b.den_setWidth h ρ, BitVec.setWidth_xor]
  | add a b => by rw [den, den, ← a.den_setWidth h ρ, ← b.den_setWidth h ρ, BitVec.setWidth_add _ _ h]
  | sub a b => by
    rw [den, den, ← a.den_setWidth h ρ, ← b.den_setWidth h ρ, BitVec.sub_eq_add_neg, BitVec.setWidth_add _ _ h, BitVec.setWidth_neg_of_le h,
      ← BitVec.sub_eq_add_neg]
  | mul a b => by rw [den, den, ← a.den_setWidth h ρ, ← b.den_setWidth h ρ, BitVec.setWidth_mul _ _ h]

/-- no `*` and no `&` -/
def AE.Linear : AE → Prop
  | var _ => True
  | not a => a.Linear
  | or a b | xor a b | add a b | sub a b => a.Linear ∧ b.Linear
  | and _ _ | mul _ _ => False

theorem AE.run_sto_native (h : n ≤ 64) (h1 : 1 < n) (σ : Nat → Bits n false) (e : AE) (z : Bits n false) (hz : e.run σ = .ok z) :
    z.stoBV = e.den fun i => (σ i).stoBV := by
  have hs : stoW n = Verif.hw n := if_pos h
  have key : ∀ {w : Nat} (hw' : w = Verif.hw n) (v : BitVec w) (ρ : Nat → BitVec w), v.toNat = z.hold.toNat → (∀ i, (ρ i).toNat = (σ i).hold.toNat) →
      v = e.den ρ := by
    intro w hw' v ρ hv hρ
    subst hw'
    have e1 : v = z.hold := BitVec.eq_of_toNat_eq hv
    have e2 : ρ = fun i => (σ i).hold := funext fun i => BitVec.eq_of_toNat_eq (hρ i)
    rw [e1, e2]; exact e.run_hold h h1 σ z hz
  exact key hs _ _ (by rw [Bits.toNat_stoBV, Bits.sto_native h]) fun i => by rw [Bits.toNat_stoBV, Bits.sto_native h]

theorem AE.run_sto (h1 : 1 < n) (σ : Nat → Bits n false) : (e : AE) → e.Linear → ∃ z, e.run σ = .ok z ∧ z.stoBV = e.den fun i => (σ i).stoBV
  | var i, _ => ⟨σ i, rfl, rfl⟩
  | not a, hl => by
    obtain ⟨x, hx, ex⟩ := a.run_sto h1 σ hl
    refine ⟨x.not, by rw [run, hx]; rfl, ?_⟩
    rw [den, ← ex]
    apply BitVec.eq_of_toNat_eq
    have := Bits.sto_not h1 x
    rw [BitVec.toNat_not, Bits.toNat_stoBV, Bits.toNat_stoBV]; omega
  | or a b, hl => by
    obtain ⟨x, hx, ex⟩ := a.run_sto h1 σ hl.1
    obtain ⟨y, hy, ey⟩ := b.run_sto h1 σ hl.2
    refine ⟨x.or y, by rw [run, hx, hy]; rfl, ?_⟩
    rw [den, ← ex, ← ey]
    apply BitVec.eq_of_getLsbD_eq
    intro i _
    rw [BitVec.getLsbD_or, Bits.getLsbD_stoBV, Bits.getLsbD_stoBV, Bits.getLsbD_stoBV]
    exact Bits.raw_or (s := false) (t := false) _ _ _
  | xor a b, hl => by
    obtain ⟨x, hx, ex⟩ := a.run_sto h1 σ hl.1
    obtain ⟨y, hy, ey⟩ := b.run_sto h1 σ hl.2
    refine ⟨x.xor y, by rw [run, hx, hy]; rfl, ?_⟩
    rw [den, ← ex, ← ey]
    apply BitVec.eq_of_getLsbD_eq
    intro i _
    rw [BitVec.getLsbD_xor, Bits.getLsbD_stoBV, Bits.getLsbD_stoBV, Bits.getLsbD_stoBV]
    exact Bits.raw_xor (s := false) (t := false) _ _ _
  | add a b, hl => by
    obtain ⟨x, hx, ex⟩ := a.run_sto h1 σ hl.1
    obtain ⟨y, hy, ey⟩ := b.run_sto h1 σ hl.2
    obtain ⟨z, hz, -⟩ := C28_add_partial h1 x y (by simp)
    refine ⟨z, by rw [run, hx, hy]; exact hz, ?_⟩
    rw [den, ← ex, ← ey]
    apply BitVec.eq_of_toNat_eq
    rw [BitVec.toNat_add, Bits.toNat_stoBV, Bits.toNat_stoBV, Bits.toNat_stoBV]
    exact Bits.sto_add h1 hz
  | sub a b, hl => by
    obtain ⟨x, hx, ex⟩ := a.run_sto h1 σ hl.1
    obtain ⟨y, hy, ey⟩ := b.run_sto h1 σ hl.2
    obtain ⟨z, hz, -⟩ := C29_sub_partial (by omega) x y (by simp)
    refine ⟨z, by rw [run, hx, hy]; exact hz, ?_⟩
    rw [den, ← ex, ← ey]
    apply BitVec.eq_of_toNat_eq
    rw [BitVec.toNat_sub, Bits.toNat_stoBV, Bits.toNat_stoBV, Bits.toNat_stoBV, Nat.add_comm]
    exact Bits.sto_sub h1 hz

/-- the storage bits of a width, written out -/
def storageBits (n : Nat) : Nat := if n ≤ 8 then 8 else if n ≤ 16 then 16 else if n ≤ 32 then 32 else (n + 63) / 64 * 64

theorem stoW_storage (h1 : 1 < n) : stoW n = storageBits n := by
  rw [stoW, storageBits]
  by_cases h : n ≤ 64
  · rw [if_pos h, hw]; split_ifs <;> omega
  · rw [if_neg h, limbs]; split_ifs <;> omega

/-- **C193, native, exactly.** The value of a whole expression over canonical `n` bit operands, extended to or assigned to `m ≥ n` bits, is the expression computed with the storage size of `n` (8, 16, 32 or 64 bits) and
then extended with zeros or cut. -/
theorem C193_native_exact (h : n ≤ 64) (h1 : 1 < n) (e : AE) (σ : Nat → Bits n false) (hσ : ∀ i, (σ i).Clean) (z : Bits n false) (hz : e.run σ = .ok z)
    (hm : n ≤ m) :
    (z.extend m).bv = (e.den fun i => (σ i).bv.setWidth (storageBits n)).setWidth m ∧
    ∀ h' : m ≤ 64, (z.assignNat h' : Bits m t).bv = (e.den fun i => (σ i).bv.setWidth (storageBits n)).setWidth m := by
  have key := e.run_sto_native h h1 σ z hz
  have e1 : (fun i => (σ i).stoBV) = fun i => (σ i).bv.setWidth (stoW n) := funext fun i => Bits.stoBV_clean (hσ i)
  rw [e1] at key
  have k2 : z.stoBV.setWidth m = (e.den fun i => (σ i).bv.setWidth (storageBits n)).setWidth m := by
    rw [key, ← stoW_storage h1]
  refine ⟨by rw [Bits.bv_extend_sto (by omega) hm, k2], fun h' => ?_⟩
  rw [← k2]
  apply BitVec.eq_of_getLsbD_eq
  intro i hi
  rw [Bits.assignNat, Bits.getLsbD_bv, Bits.raw_native h', Bits.hold_mkN h' (by omega), BitVec.getLsbD_setWidth, Bits.getLsbD_stoBV, getLsbD_ofInt]
  have hle := le_hw h'
  by_cases hi' : i < hw n
  · rw [Bits.raw_nv h z hi']; simp [hi, show i < hw m by omega]
  · have hb := Bits.nv_nonneg h z
    have p : (2 : Int) ^ hw n ≤ 2 ^ i := pow_le_pow_right₀ (by decide) (by omega)
    rw [Bits.raw_of_ge_native h z (by omega), Int.ediv_eq_zero_of_lt hb.1 (by omega)]; simp

/-- **C193, native, partial.** Up to the storage size of the operands every expression over `+ - * & | ^ ~` that has a value obeys the rule of SystemVerilog: it gives the bits of the expression over the
operands extended to `m` bits. Missing: wider targets, for which this is false (`C193_native_iff`). -/
theorem C193_native_partial (h : n ≤ 64) (h1 : 1 < n) (e : AE) (σ : Nat → Bits n false) (hσ : ∀ i, (σ i).Clean) (z : Bits n false) (hz : e.run σ = .ok z)
    (hm : n ≤ m) (hs : m ≤ storageBits n) :
    (z.extend m).bv = (e.den fun i => (σ i).bv.setWidth m) ∧
    ∀ h' : m ≤ 64, (z.assignNat h' : Bits m t).bv = e.den fun i => (σ i).bv.setWidth m := by
  obtain ⟨a, b⟩ := C193_native_exact (t := t) h h1 e σ hσ z hz hm
  have : ((e.den fun i => (σ i).bv.setWidth (storageBits n)).setWidth m) = e.den fun i => (σ i).bv.setWidth m := by
    rw [AE.den_setWidth hs]
    congr 1; funext i
    rw [BitVec.setWidth_setWidth_of_le _ hs]
  exact ⟨a.trans this, fun h' => (b h').trans this⟩

/-- **C193, any width, partial.** The same for expressions over `+ - | ^ ~` at every width, wide ones included. Missing: wider targets (`C193_iff`), `&` on wide vectors
(`C193_wide_and`). -/
theorem C193_partial (h1 : 1 < n) (e : AE) (he : e.Linear) (σ : Nat → Bits n false) (hσ : ∀ i, (σ i).Clean) (hm : n ≤ m) (hs : m ≤ storageBits n) :
    ∃ z, e.run σ = .ok z ∧ (z.extend m).bv = e.den fun i => (σ i).bv.setWidth m := by
  obtain ⟨z, hz, ez⟩ := e.run_sto h1 σ he
  refine ⟨z, hz, ?_⟩
  rw [← stoW_storage h1] at hs
  rw [Bits.bv_extend_sto (by omega) hm, ez, AE.den_setWidth hs]
  congr 1; funext i
  rw [Bits.stoBV_clean (hσ i), BitVec.setWidth_setWidth_of_le _ hs]

/-- **C193 is false for targets wider than the storage of the operands**: no complement has the right bits there, whatever the vector, and a sum has them exactly if it fits the storage. -/
theorem C193_refuted (h1 : 1 < n) (x y : Bits n false) (hx : x.Clean) (hy : y.Clean) (hs : storageBits n < m) :
    (x.not.extend m).bv ≠ ~~~ x.bv.setWidth m ∧
    ∃ z, x.add y = .ok z ∧ ((z.extend m).bv = x.bv.setWidth m + y.bv.setWidth m ↔ x.bv.toNat + y.bv.toNat < 2 ^ storageBits n) := by
  rw [← stoW_storage h1] at hs ⊢
  have hle := le_stoW (n := n)
  have pw : 2 * 2 ^ stoW n ≤ 2 ^ m := by rw [← pow_succ']; exact Nat.pow_le_pow_right (by decide) hs
  have pn : 2 ^ n ≤ 2 ^ stoW n := Nat.pow_le_pow_right (by decide) hle
  have hxl := x.bv.isLt
  have hyl := y.bv.isLt
  constructor
  · intro hc
    have := congrArg (BitVec.getLsbD · (stoW n)) hc
    beta_reduce at this
    rw [Bits.bv_extend_sto (by omega) (by omega), BitVec.getLsbD_setWidth, BitVec.getLsbD_of_ge _ _ le_rfl, BitVec.getLsbD_not,
      BitVec.getLsbD_setWidth, BitVec.getLsbD_of_ge x.bv _ hle] at this
    simp [hs] at this
  · obtain ⟨z, hz, -⟩ := C28_add_partial h1 x y (by simp)
    refine ⟨z, hz, ?_⟩
    have e := Bits.sto_add h1 hz
    rw [Bits.sto_clean hx, Bits.sto_clean hy] at e
    have e2 : (z.extend m).bv.toNat = (x.bv.toNat + y.bv.toNat) % 2 ^ stoW n := by
      have := Bits.bv_extend_sto (m := m) (by omega) (by omega) z
      rw [show Bits.bv (Bits.extend m z) = _ from this, BitVec.toNat_setWidth, Bits.toNat_stoBV, e, Nat.mod_eq_of_lt]
      exact lt_of_lt_of_le (Nat.mod_lt _ (by positivity)) (by omega)
    have e3 : (x.bv.setWidth m + y.bv.setWidth m).toNat = x.bv.toNat + y.bv.toNat := by
      rw [BitVec.toNat_add, BitVec.toNat_setWidth, BitVec.toNat_setWidth, Nat.mod_eq_of_lt (show x.bv.toNat < 2 ^ m by omega),
        Nat.mod_eq_of_lt (show y.bv.toNat < 2 ^ m by omega), Nat.mod_eq_of_lt (by omega)]
    constructor
    · intro h
      have := congrArg BitVec.toNat h
      rw [e3] at this
      have := Nat.mod_lt (x.bv.toNat + y.bv.toNat) (show 0 < 2 ^ stoW n by positivity)
      omega
    · intro h
      apply BitVec.eq_of_toNat_eq
      rw [e3]
      exact e2.trans (Nat.mod_eq_of_lt h)

/-- **C193, exactly.** For the targets of at least the width of the operands: all expressions over `+ - | ^ ~` obey the rule for all canonical operands if and only if the target is not wider
than the storage of the operands. -/
theorem C193_iff (h1 : 1 < n) (hm : n ≤ m) :
    (∀ e : AE, e.Linear → ∀ σ : Nat → Bits n false, (∀ i, (σ i).Clean) →
      ∃ z, e.run σ = .ok z ∧ (z.extend m).bv = e.den fun i => (σ i).bv.setWidth m) ↔ m ≤ storageBits n := by
  constructor
  · intro h
    by_contra hc
    obtain ⟨x, hx, -⟩ := Bits.exists_clean (s := false) (0 : BitVec n)
    obtain ⟨z, hz, ez⟩ := h (.not (.var 0)) trivial (fun _ => x) (fun _ => hx)
    obtain rfl := Except.ok.inj hz
    exact (C193_refuted h1 x x hx hx (by omega)).1 ez
  · exact fun hs e he σ hσ => C193_partial h1 e he σ hσ hm hs

/-- **C193 is false for `&` on wide vectors**, at every target wider than the operands: `~x & ~x` has the bits above the width cleared. -/
theorem C193_wide_and (h : 64 < n) (hm : n < m) (x : Bits n false) (hx : x.Clean) :
    ((x.not.and x.not).extend m).bv ≠ ~~~ x.bv.setWidth m &&& ~~~ x.bv.setWidth m := by
  intro hc
  have h' : ¬ n ≤ 64 := by omega
  have := congrArg (BitVec.getLsbD · n) hc
  beta_reduce at this
  have e : x.not.and x.not = .big h' ((x.not.bg h').and (x.not.bg h')) := by simp [Bits.and, h']
  rw [Bits.getLsbD_bv] at this
  have e2 : Bits.raw (Bits.extend m (x.not.and x.not)) n = false := by
    rw [Bits.raw_extend_unsigned (by omega) (by omega) (x.not.and x.not), e, Bits.raw_big h', Bits.bg_big, Big.raw_and (by omega)]; simp
  rw [e2, BitVec.getLsbD_and, BitVec.getLsbD_not, BitVec.getLsbD_setWidth, BitVec.getLsbD_of_ge x.bv _ le_rfl] at this
  simp [hm] at this

/-! ### 4-state -/

/-- **C193, 4-state sums and differences, partial.** Without x and z they have the bits of the sum of the extended operands up to the storage size. Missing: wider targets, x and z
(`C193_logic_refuted`). -/
theorem C193_logic_partial (h1 : 1 < n) (x y : Lg n false) (hx : x.Known) (hy : y.Known) (cx : x.value.Clean) (cy : y.value.Clean) (hm : n ≤ m)
    (hs : m ≤ storageBits n) :
    (∃ z, x.add y = .ok z ∧ ∀ i, i < m → (z.extend m).at i = V4.ofBool ((x.value.bv.setWidth m + y.value.bv.setWidth m).getLsbD i)) ∧
    ∃ z, x.sub y = .ok z ∧ ∀ i, i < m → (z.extend m).at i = V4.ofBool ((x.value.bv.setWidth m - y.value.bv.setWidth m).getLsbD i) := by
  have fin : ∀ (f : Lg n false → Lg n false → Res (Lg n false)) (g : Bits n false → Bits n false → Res (Bits n false)) (v : BitVec m),
      f x y = Lg.arithWith (s := false) (t := false) g x y → (∃ z, g x.value y.value = .ok z ∧ (z.extend m).bv = v) →
      ∃ z, f x y = .ok z ∧ ∀ i, i < m → (z.extend m).at i = V4.ofBool (v.getLsbD i) := by
    rintro f g v hf ⟨z, hz, ez⟩
    refine ⟨_, hf.trans (Lg.arithWith_known hx hy hz), fun i hi => ?_⟩
    have k : (Lg.extend m (⟨z, Bits.zero⟩ : Lg n false)).Known := (Lg.known_zero (s := false) z).extend (by omega) hm
    rw [k.at hi]
    show V4.ofBool ((z.extend m).bv.getLsbD i) = _
    rw [ez]
  let σ : Nat → Bits n false := fun i => if i = 0 then x.value else y.value
  have hσ : ∀ i, (σ i).Clean := fun i => by
    by_cases h : i = 0
    · rw [show σ i = x.value from if_pos h]; exact cx
    · rw [show σ i = y.value from if_neg h]; exact cy
  exact ⟨fin Lg.add Bits.add _ rfl (C193_partial h1 (.add (.var 0) (.var 1)) ⟨trivial, trivial⟩ σ hσ hm hs),
    fin Lg.sub Bits.sub _ rfl (C193_partial h1 (.sub (.var 0) (.var 1)) ⟨trivial, trivial⟩ σ hσ hm hs)⟩

/-- **C193 is false for 4-state complements and for sums with x or z**, at every wider target: all added bits are 0. In SystemVerilog those of the complement are 1, those of the sum x. -/
theorem C193_logic_refuted (hn : 0 < n) (hm : n < m) (x y : Lg n false) (hx : x.Clean) (hy : y.Clean) :
    (∃ z, x.not = .ok z ∧ ∀ i, n ≤ i → i < m → (z.extend m).at i = .b0 ∧ V4.not ((x.extend m).at i) = .b1) ∧
    (x.SeenAt m → ∃ z, x.add y = .ok z ∧ (∀ i, i < n → (z.extend m).at i = .x) ∧ (∀ i, n ≤ i → i < m → (z.extend m).at i = .b0) ∧
      ∃ w, (x.extend m).add (y.extend m) = .ok w ∧ ∀ i, i < m → w.at i = .x) := by
  have mk : ∀ {k : Nat} (z : Lg k false), (∀ i, k ≤ i → z.value.raw i = false) → (∀ i, k ≤ i → z.xz.raw i = false) →
      z.Clean := fun z h1 h2 => ⟨(Bits.clean_unsigned_iff _).2 h1, (Bits.clean_unsigned_iff _).2 h2⟩
  obtain ⟨ex, hex⟩ := C47_zero_extend_logic_partial hn (by omega : n ≤ m) x hx
  constructor
  · obtain ⟨z, hz, v, k⟩ := Lg.not_ok hn x
    have cz : z.Clean := mk z (fun i hi => by rw [v]; simp [Nat.not_lt.2 hi]) fun i hi => by rw [k]; exact (Bits.clean_unsigned_iff _).1 hx.2 i hi
    refine ⟨z, hz, fun i hi him => ⟨?_, ?_⟩⟩
    · rw [(C47_zero_extend_logic_partial hn (by omega) z cz).2 i him, if_neg (by omega)]
    · rw [hex i him, if_neg (by omega)]; rfl
  · intro hs
    obtain ⟨d, hd, d1, d2⟩ := Lg.dflt_ok (s := false) hn
    have ha : x.xz.anySet = true := (Lg.anySet_iff_seen hx.2).2 (by
      obtain ⟨i, hi, hk, hu⟩ := hs
      exact ⟨i, hi, hk.imp (by omega) id, hu⟩)
    have cd : d.Clean := mk d (fun i _ => d1 i) fun i hi => by rw [d2]; simp [Nat.not_lt.2 hi]
    have e := (C47_zero_extend_logic_partial hn (by omega : n ≤ m) d cd).2
    obtain ⟨d', hd', dx⟩ := Lg.dflt_at (s := false) hn
    obtain rfl := Except.ok.inj (hd.symm.trans hd')
    refine ⟨d, by rw [Lg.add, Lg.arithWith, ha]; exact hd, fun i hi => by rw [e i (by omega), if_pos hi, dx i hi],
      fun i hi him => by rw [e i him, if_neg (by omega)], ?_⟩
    exact Lg.arithWith_x (by omega) (.inl ((Lg.anySet_iff_seen ex.2).2 (Lg.seen_extend hn (by omega) hx.2 |>.2 hs)))

-- 4-bit 15 + 15 assigned to 5 bits is 30, as in SystemVerilog; 8-bit 255 + 255 assigned to 9 bits is 254
example : (((Bits.ofInt 15 : Bits 4 false).add (Bits.ofInt 15 : Bits 4 false)).map fun z => ((z.assignNat (by decide) : Bits 5 false).bv.toNat)) = .ok 30 ∧
    (((Bits.ofInt 255 : Bits 8 false).add (Bits.ofInt 255 : Bits 8 false)).map fun z => ((z.assignNat (by decide) : Bits 9 false).bv.toNat)) = .ok 254 ∧
    storageBits 4 = 8 ∧ storageBits 33 = 64 ∧ storageBits 100 = 128 := by decide +kernel

-- 4-bit x in bit 2: the hypotheses of the last theorem
example : (⟨Bits.ofInt 0, Bits.ofInt 4⟩ : Lg 4 false).Clean ∧ (⟨Bits.ofInt 0, Bits.ofInt 4⟩ : Lg 4 false).SeenAt 5 :=
  ⟨⟨by decide +kernel, by decide +kernel⟩, 2, by decide, .inl (by decide), by decide +kernel⟩

end Verif
