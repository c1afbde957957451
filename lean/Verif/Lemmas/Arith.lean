import Verif.Lemmas.Planes
import Verif.Lemmas.BitDiv
import Verif.Lemmas.BigDiv
import Verif.Lemmas.Extend

/-! Arithmetic of both storages: one bit, products, quotients, negation. -/

namespace Verif

theorem lowHalves_setWidth {n m : Nat} (h : n ≤ m) {b : BitVec n} (hb : LowHalves b) :
    LowHalves (b.setWidth m) := by
  have e : ∀ i, (b.setWidth m).getLsbD i = b.getLsbD i := by
    intro i
    rw [BitVec.getLsbD_setWidth]
    by_cases hi : i < m
    · simp [hi]
    · rw [BitVec.getLsbD_of_ge _ _ (by omega)]; simp
  intro c hc
  simp only [e] at *
  exact hb c hc

namespace Bits

variable {n m : Nat} {s t : Bool}

/-! ### one bit -/

theorem bv_one_cases (x : Bits 1 s) : (x.nv = ⟨.bool, 0⟩ ∧ x.bv = 0) ∨ (x.nv = ⟨.bool, 1⟩ ∧ x.bv = 1) := by
  have e := bv_ofInt (by decide) x
  rcases nv_one (by decide) (by decide) x with h | h
  · left; exact ⟨h, by rw [e, h]; decide⟩
  · right; exact ⟨h, by rw [e, h]; decide⟩

theorem sub_one (x : Bits 1 s) (y : Bits 1 t) : ∃ z, x.sub y = .ok z ∧ z.bv = x.bv - y.bv := by
  rw [sub, dif_pos (by decide)]
  rcases bv_one_cases x with ⟨hx, bx⟩ | ⟨hx, bx⟩ <;> rcases bv_one_cases y with ⟨hy, hb⟩ | ⟨hy, hb⟩ <;>
    rw [hx, hy, bx, hb] <;>
    exact ⟨_, rfl, by rw [bv_mkN_one (by decide) (by decide)]; decide⟩

theorem mul_one (x : Bits 1 s) (y : Bits 1 t) : ∃ z, x.mul y = .ok z ∧ z.bv = x.bv * y.bv := by
  rw [mul, dif_pos (by decide)]
  rcases bv_one_cases x with ⟨hx, bx⟩ | ⟨hx, bx⟩ <;> rcases bv_one_cases y with ⟨hy, hb⟩ | ⟨hy, hb⟩ <;>
    rw [hx, hy, bx, hb] <;>
    exact ⟨_, rfl, by rw [bv_mkN_one (by decide) (by decide)]; decide⟩

theorem add_one (x : Bits 1 s) (y : Bits 1 t) : ∃ z, x.add y = .ok z ∧ z.bv = x.bv ||| y.bv := by
  rw [add, dif_pos (by decide)]
  rcases bv_one_cases x with ⟨hx, bx⟩ | ⟨hx, bx⟩ <;> rcases bv_one_cases y with ⟨hy, hb⟩ | ⟨hy, hb⟩ <;>
    rw [hx, hy, bx, hb] <;>
    exact ⟨_, rfl, by rw [bv_mkN_one (by decide) (by decide)]; decide⟩

/-! ### small results -/

theorem mkN_small (h : n ≤ 64) (hn : 0 < n) {ty : CTy} {v : Int} (h0 : 0 ≤ v) (h1 : v < 2 ^ n) :
    (mkN h ⟨ty, v⟩ : Bits n false).Clean ∧ (mkN h ⟨ty, v⟩ : Bits n false).bv.toNat = v := by
  have e : (mkN h ⟨ty, v⟩ : Bits n false).nv.v = v := by
    rw [nv_mkN]
    show (holderTy n false).conv v = v
    by_cases h2 : n ≤ 1
    · have : n = 1 := by omega
      subst this
      rw [holderTy_one h2]
      have : v = 0 ∨ v = 1 := by norm_num at h1; omega
      rcases this with rfl | rfl <;> rfl
    · rw [holderTy_ge h2]
      exact CTy.conv_unsigned_of_lt h0 (lt_of_lt_of_le h1 (pow_mono (le_hw h)))
  have eb := bv_ofInt h (mkN h ⟨ty, v⟩ : Bits n false)
  rw [e] at eb
  have et : (mkN h ⟨ty, v⟩ : Bits n false).bv.toNat = v := by
    rw [eb, BitVec.toNat_ofInt, Int.toNat_of_nonneg (Int.emod_nonneg _ (by positivity))]
    exact Int.emod_eq_of_lt h0 (by exact_mod_cast h1)
  refine ⟨?_, et⟩
  rw [clean_native h, e, numOf]
  simp [et]

theorem div_native (h : n ≤ 64) (hn : 0 < n) {x y : Bits n false} (hx : x.Clean) (hy : y.Clean)
    (hy0 : y.bv ≠ 0) :
    (∃ q, x.div y = .ok q ∧ q.Clean ∧ q.bv.toNat = x.bv.toNat / y.bv.toNat) ∧
    (∃ q, x.mod y = .ok q ∧ q.Clean ∧ q.bv.toNat = x.bv.toNat % y.bv.toNat) := by
  obtain ⟨ex, x0, x1⟩ := clean_unsigned_bounds h hx
  obtain ⟨ey, y0, y1⟩ := clean_unsigned_bounds h hy
  have hy1 : y.nv.v ≠ 0 := by
    rw [ey]; intro e; apply hy0; apply BitVec.eq_of_toNat_eq; simpa using e
  obtain ⟨hd, hm⟩ := div_unsigned_native h x y hy1
  have b1 := tdiv_nonneg_le x0 y0
  have b2 := tmod_nonneg_le x0 y0
  constructor
  · rw [div, dif_pos h, hd]
    obtain ⟨c, e⟩ := mkN_small (ty := CTy.usual (holderTy n false) (holderTy n false)) h hn b1.1 (lt_of_le_of_lt b1.2 x1)
    refine ⟨_, rfl, c, ?_⟩
    have : ((mkN h ⟨CTy.usual (holderTy n false) (holderTy n false), x.nv.v.tdiv y.nv.v⟩ : Bits n false).bv.toNat : Int)
      = ((x.bv.toNat / y.bv.toNat : Nat) : Int) := by
      rw [e, Int.tdiv_eq_ediv_of_nonneg x0, ex, ey]; simp
    exact_mod_cast this
  · rw [mod, dif_pos h, hm]
    obtain ⟨c, e⟩ := mkN_small (ty := CTy.usual (holderTy n false) (holderTy n false)) h hn b2.1 (lt_of_le_of_lt b2.2 x1)
    refine ⟨_, rfl, c, ?_⟩
    have : ((mkN h ⟨CTy.usual (holderTy n false) (holderTy n false), x.nv.v.tmod y.nv.v⟩ : Bits n false).bv.toNat : Int)
      = ((x.bv.toNat % y.bv.toNat : Nat) : Int) := by
      rw [e, Int.tmod_eq_emod_of_nonneg x0, ex, ey]; simp
    exact_mod_cast this

/-! ### wide -/

theorem limb_get {b : Big n s} (hc : b.Clean) (c j : Nat) (hj : j < 64) :
    (b.limb c).getLsbD j = b.bv.getLsbD (64 * c + j) := by
  have e1 : (64 * c + j) / 64 = c := by omega
  have e2 : (64 * c + j) % 64 = j := by omega
  have h : b.raw (64 * c + j) = (b.limb c).getLsbD j := by
    rw [Big.raw, e1, e2]
  rw [← h, ← Big.testBit_val', ← hc.toNat_bv, BitVec.testBit_toNat]

theorem limb_ne_zero {b : Big n s} (hc : b.Clean) (c : Nat) :
    b.limb c ≠ 0 ↔ ∃ j, j < 64 ∧ b.bv.getLsbD (64 * c + j) = true := by
  constructor
  · intro h
    by_contra hcon
    apply h
    apply BitVec.eq_of_getLsbD_eq
    intro i hi
    rw [limb_get hc c i hi]
    by_contra h2
    exact hcon ⟨i, hi, by simpa using h2⟩
  · rintro ⟨j, hj, h⟩ h0
    rw [← limb_get hc c j hj, h0] at h
    simp at h

theorem visible_of {b : Big n s} (hc : b.Clean) (h : LowHalves b.bv) : b.Visible := by
  intro i hi
  obtain ⟨j, hj, hb⟩ := h i ((limb_ne_zero hc i).1 hi)
  exact ⟨j, hj, by rw [limb_get hc i j (by omega)]; exact hb⟩

theorem limb_lt {b : Big n s} {c a : Nat} (h : b.limb c ≠ 0) (hv : val b.vals < 2 ^ (64 * a)) : c < a := by
  by_contra hca
  apply h
  apply BitVec.eq_of_getLsbD_eq
  intro i hi
  have e : b.raw (64 * c + i) = (b.limb c).getLsbD i := by
    have e1 : (64 * c + i) / 64 = c := by omega
    have e2 : (64 * c + i) % 64 = i := by omega
    rw [Big.raw, e1, e2]
  rw [← e, ← Big.testBit_val']
  have : (val b.vals).testBit (64 * c + i) = false := by
    apply Nat.testBit_lt_two_pow
    exact lt_of_lt_of_le hv (Nat.pow_le_pow_right (by decide) (by omega))
  simp [this]

theorem mul_wide (h : ¬ n ≤ 64) (x : Bits n s) (y : Bits n t) (hx : x.Clean) (hy : y.Clean)
    (vx : LowHalves x.bv) (vy : LowHalves y.bv) {a b : Nat} (ha : x.bv.toNat < 2 ^ (64 * a))
    (hb : y.bv.toNat < 2 ^ (64 * b)) (hab : 64 * (a + b) < n + 64) :
    ∃ z, x.mul y = .ok z ∧ z.bv = x.bv * y.bv := by
  have h64 : 64 < n := by omega
  rw [clean_big h] at hx hy
  rw [bv_big h] at vx vy ha hb
  have wx := visible_of hx vx
  have wy := visible_of hy vy
  rw [hx.toNat_bv] at ha
  rw [hy.toNat_bv] at hb
  have hlimb : a + b ≤ limbs n := by
    have := le_limbs n; omega
  have key : ∃ z, (x.bg h).mul (y.bg h) = .ok z ∧
      val z.vals % 2 ^ n = (val (x.bg h).vals * val (y.bg h).vals) % 2 ^ n := by
    by_cases hf : (x.bg h).fitIn64 = true ∧ (y.bg h).fitIn64 = true
    · obtain ⟨z, hz, e⟩ := Big.mul_fast h64 _ _ hf.1 hf.2
      refine ⟨z, hz, ?_⟩
      rw [e, Big.val_of_high_zero (wx.fitIn64 hf.1), Big.val_of_high_zero (wy.fitIn64 hf.2)]
    · rw [Big.mul_eq _ _ hf]
      obtain ⟨z, hz, e⟩ := Big.mulSlow_spec h64 (x.bg h) (y.bg h) (by
        intro i j hi hj
        have := limb_lt hi ha
        have := limb_lt hj hb
        omega)
      refine ⟨z, hz, ?_⟩
      rw [e, Nat.mod_mod_of_dvd _ (Big.two_pow_dvd n)]
  obtain ⟨z, hz, e⟩ := key
  refine ⟨.big h z, by rw [mul, dif_neg h, hz]; rfl, ?_⟩
  apply BitVec.eq_of_toNat_eq
  rw [bv_big h, bv_big h x, bv_big h y, bg_big, BitVec.toNat_mul, Big.toNat_bv, Big.toNat_bv, Big.toNat_bv, e,
    ← Nat.mul_mod]

theorem limb_top {b : Big n s} {i : Nat} (h0 : 2 ^ (64 * i) ≤ val b.vals) (h1 : val b.vals < 2 ^ (64 * (i + 1))) :
    b.limb i ≠ 0 := by
  intro h
  have : val b.vals < 2 ^ (64 * i) := by
    have hk : ∀ k, i ≤ k → val b.vals < 2 ^ (64 * (k + 1)) := fun k hk =>
      lt_of_lt_of_le h1 (Nat.pow_le_pow_right (by decide) (by omega))
    apply Nat.lt_pow_two_of_testBit
    intro j hj
    rw [Big.testBit_val', Big.raw]
    by_cases e : j / 64 = i
    · rw [e, h]; simp
    · have hz : b.limb (j / 64) = 0 := by
        by_contra hne
        have := limb_lt hne h1
        omega
      rw [hz]; simp
  omega

/-- a product that needs more limbs than there are writes outside the array -/
theorem mul_wide_oob (h : ¬ n ≤ 64) (x : Bits n s) (y : Bits n t) (hx : x.Clean) (hy : y.Clean)
    (vx : LowHalves x.bv) (vy : LowHalves y.bv) {i j : Nat}
    (hi0 : 2 ^ (64 * i) ≤ x.bv.toNat) (hi1 : x.bv.toNat < 2 ^ (64 * (i + 1)))
    (hj0 : 2 ^ (64 * j) ≤ y.bv.toNat) (hj1 : y.bv.toNat < 2 ^ (64 * (j + 1)))
    (hij : n ≤ 64 * (i + j + 1)) : x.mul y = .error .oob := by
  have h64 : 64 < n := by omega
  rw [clean_big h] at hx hy
  rw [bv_big h] at vx vy hi0 hi1 hj0 hj1
  have wx := visible_of hx vx
  have wy := visible_of hy vy
  have lx := (x.bg h).bv.isLt
  have ly := (y.bg h).bv.isLt
  rw [hx.toNat_bv] at hi0 hi1 lx
  rw [hy.toNat_bv] at hj0 hj1 ly
  have hl : limbs n ≤ i + j + 1 := by
    have := limbs_lt n; omega
  have hin : 64 * i < n := (Nat.pow_lt_pow_iff_right (by decide : 1 < 2)).1 (lt_of_le_of_lt hi0 lx)
  have hjn : 64 * j < n := (Nat.pow_lt_pow_iff_right (by decide : 1 < 2)).1 (lt_of_le_of_lt hj0 ly)
  have hle := le_limbs n
  have nx := limb_top hi0 hi1
  have ny := limb_top hj0 hj1
  have hnf : ¬ ((x.bg h).fitIn64 = true ∧ (y.bg h).fitIn64 = true) := by
    rintro ⟨f1, f2⟩
    have a1 : i = 0 := by
      by_contra hne; exact nx (wx.fitIn64 f1 i (by omega))
    have a2 : j = 0 := by
      by_contra hne; exact ny (wy.fitIn64 f2 j (by omega))
    omega
  rw [mul, dif_neg h, Big.mul_eq _ _ hnf, Big.mulSlow_oob h64 _ _ (by omega) (by omega) nx ny hl]
  rfl

theorem div_wide (h : ¬ n ≤ 64) (hN : n ≤ 2 ^ 32) {x : Bits n s} {y : Bits n t} (hx : x.Clean) (hy : y.Clean)
    (vx : LowHalves x.bv) (vy : LowHalves y.bv) (hy0 : y.bv ≠ 0) :
    (∃ q, x.div y = .ok q ∧ q.Clean ∧ q.bv.toNat = x.bv.toNat / y.bv.toNat) ∧
    (∃ q, x.mod y = .ok q ∧ q.Clean ∧ q.bv.toNat = x.bv.toNat % y.bv.toNat) := by
  rw [clean_big h] at hx hy
  rw [bv_big h] at vx vy
  have wx := visible_of hx vx
  have wy := visible_of hy vy
  have hyv : val (y.bg h).vals ≠ 0 := by
    intro e; apply hy0; apply BitVec.eq_of_toNat_eq
    rw [bv_big h, Big.toNat_bv, e]; simp
  obtain ⟨q, r, e, cq, cr, eq', er⟩ := Big.divMod_spec (by omega) hN ((x.bg h).toSign false) (y.bg h) hx hy hyv wx wy
  have ex : x.bv.toNat = val (x.bg h).vals := by rw [bv_big h, hx.toNat_bv]
  have ey : y.bv.toNat = val (y.bg h).vals := by rw [bv_big h, hy.toNat_bv]
  constructor
  · refine ⟨.big h (q.toSign _), by rw [div, dif_neg h, Big.div, e]; rfl, ?_, ?_⟩
    · exact cq
    · rw [ex, ey]
      show (q.toSign (s && t)).bv.toNat = _
      rw [Big.toNat_bv]
      exact (Nat.mod_eq_of_lt cq).trans eq'
  · refine ⟨.big h (r.toSign _), by rw [mod, dif_neg h, Big.mod, e]; rfl, ?_, ?_⟩
    · exact cr
    · rw [ex, ey]
      show (r.toSign (s && t)).bv.toNat = _
      rw [Big.toNat_bv]
      exact (Nat.mod_eq_of_lt cr).trans er

theorem big_zero_bv {u : Bool} : ((Big.zero : Big n false).toSign u).bv = 0 := by
  apply BitVec.eq_of_toNat_eq
  rw [Big.toNat_bv]
  show val (Big.zero : Big n false).vals % _ = _
  rw [Big.val_zero]; simp

theorem div_wide_zero (h : ¬ n ≤ 64) (x : Bits n s) {y : Bits n t} (hy : y.Clean) (hy0 : y.bv = 0) :
    (∃ q, x.div y = .ok q ∧ q.bv = 0) ∧ (∃ q, x.mod y = .ok q ∧ q.bv = 0) := by
  rw [clean_big h] at hy
  have hyv : val (y.bg h).vals = 0 := by
    rw [← hy.toNat_bv, ← bv_big h, hy0]; simp
  have e := Big.divMod_zero ((x.bg h).toSign false) (y.bg h) hyv
  constructor
  · refine ⟨.big h ((Big.zero : Big n false).toSign _), by rw [div, dif_neg h, Big.div, e]; rfl, ?_⟩
    exact big_zero_bv
  · refine ⟨.big h ((Big.zero : Big n false).toSign _), by rw [mod, dif_neg h, Big.mod, e]; rfl, ?_⟩
    exact big_zero_bv

/-- the built-in division by zero -/
theorem div_native_zero (h : n ≤ 64) (x y : Bits n false) (hy : y.Clean) (hy0 : y.bv = 0) :
    x.div y = .error .divZero ∧ x.mod y = .error .divZero := by
  obtain ⟨ey, y0, y1⟩ := clean_unsigned_bounds h hy
  have e : y.nv.v = 0 := by rw [ey, hy0]; simp
  have c : ∀ T : CTy, T.conv y.nv.v = 0 := by
    intro T; rw [e]; cases T with
    | bool => rfl
    | int w sg => cases sg <;> simp [CTy.conv]
  constructor
  · rw [div, dif_pos h, TV.div]; simp only [c]; rfl
  · rw [mod, dif_pos h, TV.mod]; simp only [c]; rfl

/-! ### signed division -/

theorem tdiv_range {a b N : Int} (hN : 0 < N) (h0 : -N ≤ a) (h1 : a < N) (hb : b ≠ 0)
    (hx : ¬ (a = -N ∧ b = -1)) : -N ≤ a.tdiv b ∧ a.tdiv b < N := by
  by_cases hm : b = -1
  · subst hm
    have : a ≠ -N := fun e => hx ⟨e, rfl⟩
    rw [Int.tdiv_neg, Int.tdiv_one]; omega
  by_cases h1' : b = 1
  · subst h1'; rw [Int.tdiv_one]; omega
  have e : (a.tdiv b).natAbs = a.natAbs / b.natAbs := Int.natAbs_tdiv a b
  have h2 : a.natAbs / b.natAbs ≤ a.natAbs / 2 := Nat.div_le_div_left (by omega) (by omega)
  omega

theorem tmod_range {a b N : Int} (h0 : -N ≤ a) (h1 : a < N) : -N ≤ a.tmod b ∧ a.tmod b < N := by
  have e : (a.tmod b).natAbs = a.natAbs % b.natAbs := Int.natAbs_tmod a b
  have h2 : a.natAbs % b.natAbs ≤ a.natAbs := Nat.mod_le _ _
  rcases Int.le_total 0 a with h | h
  · have := Int.tmod_nonneg b h; omega
  · have : a.tmod b ≤ 0 := by
      have h3 := Int.tmod_nonneg b (show 0 ≤ -a by omega)
      rw [Int.neg_tmod] at h3; omega
    omega

/-- storing a number in the range of the declared width -/
theorem mkN_signed (h : n ≤ 64) (h1 : 1 < n) {ty : CTy} {v : Int} (h0 : -2 ^ (n - 1) ≤ v) (hv : v < 2 ^ (n - 1)) :
    (mkN h ⟨ty, v⟩ : Bits n true).Clean ∧ (mkN h ⟨ty, v⟩ : Bits n true).bv.toInt = v := by
  have hw1 := le_hw h
  have p : (2 : Int) ^ (n - 1) ≤ 2 ^ (hw n - 1) := pow_mono (by omega)
  have e : (mkN h ⟨ty, v⟩ : Bits n true).nv.v = v := by
    rw [nv_mkN, holderTy_ge (by omega)]
    show (CTy.int (hw n) true).conv v = v
    exact CTy.conv_signed_of_mem (hw_pos n) (by omega) (by omega)
  have et : (mkN h ⟨ty, v⟩ : Bits n true).bv.toInt = v := by
    rw [bv_mkN h (by omega), BitVec.toInt_ofInt]
    exact CTy.conv_signed_of_mem (w := n) (by omega) h0 hv
  refine ⟨?_, et⟩
  rw [clean_native h, e, numOf, if_pos (by simp; omega), et]

theorem div_signed (h : n ≤ 64) (h1 : 1 < n) {x y : Bits n true} (hx : x.Clean) (hy : y.Clean)
    (hy0 : y.bv ≠ 0) (hm : ¬ (x.bv.toInt = -2 ^ (n - 1) ∧ y.bv.toInt = -1 ∧ (n = 32 ∨ n = 64))) :
    (∃ q, x.div y = .ok q ∧ q.bv = BitVec.ofInt n (x.bv.toInt.tdiv y.bv.toInt)) ∧
    (∃ r, x.mod y = .ok r ∧ r.Clean ∧ r.bv.toInt = x.bv.toInt.tmod y.bv.toInt) := by
  obtain ⟨ex, x0, x1⟩ := clean_signed_bounds h h1 hx
  obtain ⟨ey, y0, y1⟩ := clean_signed_bounds h h1 hy
  have hyn : y.nv.v ≠ 0 := by
    rw [ey]; intro e; apply hy0; apply BitVec.eq_of_toInt_eq; rw [e]; simp
  have hw1 := le_hw h
  have pN : (0 : Int) < 2 ^ (n - 1) := by positivity
  have p : (2 : Int) ^ (n - 1) ≤ 2 ^ (hw n - 1) := pow_mono (by omega)
  have hfit : fits n (x.nv.v.tdiv y.nv.v) := by
    by_cases hc : x.nv.v = -2 ^ (n - 1) ∧ y.nv.v = -1
    · have hn : ¬ (n = 32 ∨ n = 64) := fun hn => hm ⟨by rw [← ex, hc.1], by rw [← ey, hc.2], hn⟩
      rw [hc.1, hc.2, Int.tdiv_neg, Int.tdiv_one, neg_neg]
      have p' : (2 : Int) ^ (n - 1) < 2 ^ n := by
        have : (2 : Int) ^ n = 2 ^ (n - 1) * 2 := by rw [← pow_succ]; congr 1; omega
        omega
      apply fits_of (k := n) ?_ (by omega) p'
      rcases hw_cases n with e | e | e | e | e
      · rw [e] at hw1; omega
      · left; omega
      · left; omega
      · left; omega
      · right; omega
    · have := tdiv_range pN x0 x1 hyn hc
      exact fits_of (k := n - 1) (Or.inr (by omega)) this.1 this.2
  obtain ⟨hd, hmo⟩ := div_signed_native h x y hyn hfit
  constructor
  · refine ⟨_, by rw [div, dif_pos h, hd]; rfl, ?_⟩
    rw [bv_mkN h (by omega), ex, ey]
  · have r := tmod_range (b := y.nv.v) x0 x1
    obtain ⟨c, e⟩ := mkN_signed (ty := CTy.usual (holderTy n true) (holderTy n true)) h h1 r.1 r.2
    refine ⟨_, by rw [mod, dif_pos h, hmo]; rfl, c, ?_⟩
    rw [← ex, ← ey]; exact e

/-! ### negation -/

theorem neg_native (h : n ≤ 64) (hn : 0 < n) (x : Bits n s)
    (hf : s = true → 16 < n → x.nv.v ≠ -2 ^ (hw n - 1)) :
    ∃ z, x.neg h = .ok z ∧ z.bv = - x.bv := by
  by_cases h1 : n ≤ 1
  · have : n = 1 := by omega
    subst this
    rw [neg]
    rcases bv_one_cases x with ⟨hx, bx⟩ | ⟨hx, bx⟩ <;> rw [hx, bx] <;>
      exact ⟨_, rfl, by rw [bv_mkN_one (by decide) (by decide)]; decide⟩
  · obtain ⟨v, hv, e⟩ := neg_exact h x hf
    refine ⟨mkN h v, by rw [neg, hv]; rfl, ?_⟩
    rw [bv_mkN h h1, bv_ofInt h x, ← BitVec.ofInt_neg]
    have := congrArg (BitVec.setWidth n) e
    rwa [setWidth_ofInt (le_hw h), setWidth_ofInt (le_hw h)] at this

theorem usual_promote_int (n : Nat) (s : Bool) :
    CTy.usual (holderTy n s).promote tInt = (holderTy n s).promote := by
  rw [promote_holder]
  rcases hw_cases n with e | e | e | e | e <;> rw [e] <;> cases s <;> rfl

theorem bnot_inc (h : n ≤ 64) (x : Bits n s) (hf : s = true → 16 < n → x.nv.v ≠ -2 ^ (hw n - 1)) :
    ∃ v, TV.add (TV.bnot x.nv) (TV.int 1) = .ok v ∧
      BitVec.ofInt (hw n) v.v = BitVec.ofInt (hw n) (-x.nv.v) := by
  have hb := nv_abs_bounds h x
  have hb' := nv_bounds h x
  have e1 : TV.bnot x.nv = ⟨(holderTy n s).promote, (holderTy n s).promote.conv (-1 - x.nv.v)⟩ := by
    simp only [TV.bnot, nv_ty]
  rw [e1, TV.add, TV.arith]
  simp only [TV.int, usual_promote_int]
  by_cases h32 : hw n < 32
  · rw [promote_holder, if_pos h32]
    have p1 : (2 : Int) ^ hw n ≤ 2 ^ 31 := pow_mono (by omega)
    have p2 : (2 : Int) ^ (hw n - 1) ≤ 2 ^ 30 := pow_mono (by omega)
    have c1 : (CTy.int 32 true).conv (-1 - x.nv.v) = -1 - x.nv.v :=
      CTy.conv_signed_of_mem (by decide) (by show -2 ^ 31 ≤ _; omega) (by show _ < 2 ^ 31; omega)
    have c2 : (CTy.int 32 true).conv 1 = 1 := by decide
    have c3 : (CTy.int 32 true).conv (-1 - x.nv.v + 1) = -x.nv.v := by
      rw [show -1 - x.nv.v + 1 = -x.nv.v by ring]
      exact CTy.conv_signed_of_mem (by decide) (by show -2 ^ 31 ≤ _; omega) (by show _ < 2 ^ 31; omega)
    rw [c1, c1, c2, c3]
    exact ⟨⟨.int 32 true, -x.nv.v⟩, by rw [if_neg]; simp; intro _; ring, rfl⟩
  · rw [promote_holder, if_neg h32]
    cases s with
    | false =>
      refine ⟨_, by simp [CTy.signed]; rfl, ?_⟩
      rw [ofInt_conv (Nat.le_refl _), BitVec.ofInt_add, ofInt_conv (Nat.le_refl _), ofInt_conv (Nat.le_refl _),
        ofInt_conv (Nat.le_refl _), ← BitVec.ofInt_add]
      congr 1; ring
    | true =>
      have h16 : 16 < n := by have := hw_lt_iff n; omega
      have hx := hf rfl h16
      rw [if_pos (by simp; omega)] at hb'
      have p : (2 : Int) ≤ 2 ^ (hw n - 1) := by
        calc (2 : Int) = 2 ^ 1 := by norm_num
          _ ≤ _ := pow_mono (by omega)
      have c1 : (CTy.int (hw n) true).conv (-1 - x.nv.v) = -1 - x.nv.v :=
        CTy.conv_signed_of_mem (by omega) (by omega) (by omega)
      have c0 : (CTy.int (hw n) true).conv 1 = 1 :=
        CTy.conv_signed_of_mem (by omega) (by omega) (by omega)
      have c3 : (CTy.int (hw n) true).conv (-1 - x.nv.v + 1) = -x.nv.v := by
        rw [show -1 - x.nv.v + 1 = -x.nv.v by ring]
        exact CTy.conv_signed_of_mem (by omega) (by omega) (by omega)
      rw [c1, c1, c0, c3]
      exact ⟨⟨.int (hw n) true, -x.nv.v⟩, by rw [if_neg]; simp; intro _; ring, rfl⟩

theorem negate_native (h : n ≤ 64) (hn : 0 < n) (x : Bits n s)
    (hf : s = true → 16 < n → x.nv.v ≠ -2 ^ (hw n - 1)) :
    ∃ z, x.negate = .ok z ∧ z.Clean ∧ z.bv = - x.bv := by
  obtain ⟨v, hv, e⟩ := bnot_inc h x hf
  obtain ⟨z, hz, hr⟩ := maskOff_ok hn (mkN h v : Bits n false)
  have hb : (mkN h v : Bits n false).bv = - x.bv := by
    by_cases h1 : n ≤ 1
    · have : n = 1 := by omega
      subst this
      rcases bv_one_cases x with ⟨hx, bx⟩ | ⟨hx, bx⟩ <;> rw [hx] at hv <;> rw [bx] <;>
        cases hv <;> rw [bv_mkN_one (by decide) (by decide)] <;> decide
    · rw [bv_mkN h h1, bv_ofInt h x, ← BitVec.ofInt_neg]
      have := congrArg (BitVec.setWidth n) e
      rwa [setWidth_ofInt (le_hw h), setWidth_ofInt (le_hw h)] at this
  refine ⟨z, by rw [negate, dif_pos h, hv]; exact hz, ?_, ?_⟩
  · rw [clean_unsigned_iff]
    intro i hi
    rw [hr]; simp [show ¬ i < n by omega]
  · rw [← hb]
    exact bv_eq_of_raw fun i hi => by rw [hr]; simp [hi]

theorem negate_wide (h : ¬ n ≤ 64) (x : Bits n s) : ∃ z, x.negate = .ok z ∧ z.bv = - x.bv := by
  refine ⟨.big h ((x.bg h).negate.toSign false), by rw [negate, dif_neg h], ?_⟩
  rw [bv_big h x]
  exact Big.bv_negate (by omega) _

theorem oneN_spec (hn : 0 < n) : (oneN n).Clean ∧ (oneN n).bv = 1 := by
  have c1 : (one1 : Bits 1 false).Clean := clean_one (by decide) (by decide) _
  refine ⟨Clean.extend_unsigned (by decide) hn c1, ?_⟩
  rw [oneN, bv_extend_unsigned (by decide) hn c1]
  have : (one1 : Bits 1 false).bv = 1 := by decide
  rw [this]
  apply BitVec.eq_of_toNat_eq
  rw [BitVec.toNat_setWidth]
  rfl

end Bits

namespace Lg
variable {n m : Nat} {s t : Bool}

theorem arithWith_known {f : Bits n s → Bits n t → Res (Bits n (s && t))} {x : Lg n s} {y : Lg n t}
    (hx : x.Known) (hy : y.Known) {v : Bits n (s && t)} (hv : f x.value y.value = .ok v) :
    arithWith f x y = .ok ⟨v, Bits.zero⟩ := by
  rw [arithWith, hx.anySet, hy.anySet, hv]; rfl

theorem arithWith_x (hn : 0 < n) {f : Bits n s → Bits n t → Res (Bits n (s && t))} {x : Lg n s} {y : Lg n t}
    (h : x.xz.anySet = true ∨ y.xz.anySet = true) :
    ∃ z, arithWith f x y = .ok z ∧ ∀ i, i < n → z.at i = .x := by
  have : (x.xz.anySet || y.xz.anySet) = true := by simpa using h
  rw [arithWith, this]
  exact dflt_at hn

theorem divWith_known {f : Bits n s → Bits n t → Res (Bits n (s && t))} {x : Lg n s} {y : Lg n t}
    (hx : x.Known) (hy : y.Known) (h0 : y.value.anySet = true) {v : Bits n (s && t)}
    (hv : f x.value y.value = .ok v) : divWith f x y = .ok ⟨v, Bits.zero⟩ := by
  rw [divWith, hx.anySet, hy.anySet, h0, hv]; rfl

theorem divWith_x (hn : 0 < n) {f : Bits n s → Bits n t → Res (Bits n (s && t))} {x : Lg n s} {y : Lg n t}
    (h : x.xz.anySet = true ∨ y.xz.anySet = true ∨ y.value.anySet = false) :
    ∃ z, divWith f x y = .ok z ∧ ∀ i, i < n → z.at i = .x := by
  have : (x.xz.anySet || y.xz.anySet || !y.value.anySet) = true := by
    rcases h with h | h | h <;> simp [h]
  rw [divWith, this]
  exact dflt_at hn

theorem Known.extend {x : Lg n s} (hn : 0 < n) (h : n ≤ m) (hx : x.Known) : (x.extend m).Known := by
  apply known_of_raw
  intro i
  show (x.xz.extend m).raw i = false
  rw [Bits.raw_extend_unsigned hn h]
  exact hx.raw i

/-- the result of an operation on known operands -/
theorem known_mk_at (v : Bits n s) {i : Nat} (hi : i < n) :
    (⟨v, Bits.zero⟩ : Lg n s).at i = V4.ofBool (v.bv.getLsbD i) := (known_zero v).at hi

theorem anySet_of_ne {x : Bits n s} (hx : x.Clean) (h0 : x.bv ≠ 0) (hv : ¬ n ≤ 64 → LowHalves x.bv) :
    x.anySet = true := by
  by_cases h : n ≤ 64
  · rw [Bits.anySet_native h hx]; simpa using h0
  · rw [Bits.anySet, dif_neg h]
    rw [Bits.clean_big h] at hx
    have hv := hv h
    rw [Bits.bv_big h] at hv
    rw [(Bits.visible_of hx hv).anySet, decide_eq_true_iff]
    intro e
    apply h0
    apply BitVec.eq_of_toNat_eq
    rw [Bits.bv_big h, Big.toNat_bv, e]; simp

theorem anySet_of_eq {x : Bits n s} (hx : x.Clean) (h0 : x.bv = 0) : x.anySet = false := by
  by_cases h : n ≤ 64
  · rw [Bits.anySet_native h hx]; simpa using h0
  · apply Bits.anySet_false_of
    intro i
    rw [Bits.raw_big h, ← Big.testBit_val']
    rw [Bits.clean_big h] at hx
    rw [← hx.toNat_bv, ← Bits.bv_big h, h0]; simp

end Lg
end Verif
