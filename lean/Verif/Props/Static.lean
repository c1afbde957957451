import Verif.Model.Static
import Verif.Props.Access
import Verif.Show

/-!
# Template and vector indices: C90, C95
-/

namespace Verif

variable {n m : Nat} {s t : Bool}

/-! ## C90: compile-time indices -/

theorem Bits.setC_eq (r : Rng) (x : Bits n s) (idx : Int) (p : Nat)
    (hp : Bits.physIdx r idx - r.lo = p) (hlt : p < n) (hN : n ≤ 2 ^ 32) (v : Bool) :
    x.setC r idx v = x.set r idx v := by
  simp only [Bits.setC, Bits.set, hp]
  split
  · rfl
  · rw [if_pos]
    show tU64.conv (p : Int) < (n : Int)
    simp only [tU64, CTy.conv]
    omega

/-- **C90, 2-state.** On a range that starts at 0, `set<i>(v)` writes the bit that
`set(i, v)` writes and no other, and `get<i>()` (native only) reads it. -/
theorem C90_bit_static (r : Rng) (x : Bits r.size s) (h0 : r.lo = 0) (hN : r.size ≤ 2 ^ 32) (i : Int)
    (hl : r.lo ≤ i) (hh : i ≤ r.hi) (v : Bool) :
    (∃ y, x.setC r i v = .ok y ∧ x.set r i v = .ok y ∧
      ∀ p, p < r.size → y.bv.getLsbD p = if p = r.pos i then v else x.bv.getLsbD p) ∧
    (r.size ≤ 64 → x.getC r i = .ok (x.bv.getLsbD (r.pos i)) ∧ x.get r i = .ok (x.bv.getLsbD (r.pos i))) := by
  have hp := Bits.physIdx_pos h0 hl hh
  have hlt := Rng.pos_lt hl hh
  have hp' : Bits.physIdx r i - r.lo = (r.pos i : Int) := by rw [hp, h0]; simp
  obtain ⟨y, hy, hr⟩ := Bits.set_phys r x i (r.pos i) hp' hlt hN v
  refine ⟨⟨y, by rw [Bits.setC_eq r x i _ hp' hlt hN, hy], hy, ?_⟩, ?_⟩
  · intro p hpn
    rw [Bits.getLsbD_bv, Bits.getLsbD_bv, hr, decide_eq_true hpn, Bool.true_and, Bool.true_and]
  · intro h64
    have hg := Bits.get_phys r x i (r.pos i) hp hlt hN
    refine ⟨?_, hg⟩
    have hsz : i < r.size := by simp only [Rng.size, Rng.lo, Rng.hi] at *; omega
    rw [Bits.getC, if_pos ⟨hsz, h64⟩, hg]

theorem Lg.zero1_setXC {idx : Int} (h0 : 0 ≤ idx) (h : idx < 64) :
    zero1.setXC (Rng.down 1) idx = .ok x1 := by
  have e : ∀ (b : Bits 1 false) (v : Bool), b.setC (Rng.down 1) idx v = b.set (Rng.down 1) idx v := by
    intro b v; simp only [Bits.setC, Bits.set]; rfl
  simp only [setXC, e, zero1, (set1_ok _ h0 h).1, (set1_ok Bits.zero h0 h).2]; rfl

theorem Lg.zero1_setZC {idx : Int} (h0 : 0 ≤ idx) (h : idx < 64) :
    zero1.setZC (Rng.down 1) idx =
      .ok ⟨Bits.mkN (by decide) ⟨.bool, 1⟩, Bits.mkN (by decide) ⟨.bool, 1⟩⟩ := by
  have e : ∀ (b : Bits 1 false) (v : Bool), b.setC (Rng.down 1) idx v = b.set (Rng.down 1) idx v := by
    intro b v; simp only [Bits.setC, Bits.set]; rfl
  simp only [setZC, e, zero1, (set1_ok _ h0 h).1]; rfl

/-- `get<idx>()` reads the physical position, whatever the declared range. -/
theorem Lg.getC_exact (r : Rng) (x : Lg n s) (idx : Int) (p : Nat) (hp : Bits.physIdx r idx = p)
    (hpn : p < n) (h64 : n ≤ 64) (h0 : 0 ≤ idx) (hi : idx < n) :
    (x.getC r idx).map (·.at 0) = .ok (x.at p) := by
  have gv : x.value.getC r idx = .ok (x.value.bv.getLsbD p) := by
    rw [Bits.getC, if_pos ⟨hi, h64⟩, Bits.get_phys r x.value idx p hp hpn (by omega)]
  have gk : x.xz.getC r idx = .ok (x.xz.bv.getLsbD p) := by
    rw [Bits.getC, if_pos ⟨hi, h64⟩, Bits.get_phys r x.xz idx p hp hpn (by omega)]
  have hat : x.at p = V4.mk (x.value.bv.getLsbD p) (x.xz.bv.getLsbD p) := rfl
  rw [Lg.getC, Lg.xSetC, Lg.zSetC, gv, gk, hat]
  cases x.value.bv.getLsbD p <;> cases x.xz.bv.getLsbD p
  · rfl
  · show ((zero1.setXC (Rng.down 1) idx)).map _ = _
    rw [Lg.zero1_setXC h0 (by omega)]; rfl
  · rfl
  · show ((zero1.setZC (Rng.down 1) idx)).map _ = _
    rw [Lg.zero1_setZC h0 (by omega)]; rfl

/-- **C90, 4-state, partial.** On a range that starts at 0, `get<i>()` of a native
value gives the bit that `operator[](i)` gives, x and z included, and `set<i>(v)`,
`set_x<i>()`, `set_z<i>()` have the effect of their run-time forms. Missing: ranges
with another low bound (`C90_refuted`). -/
theorem C90_logic_static_partial (r : Rng) (x : Lg r.size s) (h0 : r.lo = 0) (hN : r.size ≤ 2 ^ 32) (i : Int)
    (hl : r.lo ≤ i) (hh : i ≤ r.hi) (v : Bool) :
    (r.size ≤ 64 → (x.getC r i).map (·.at 0) = .ok (x.at (r.pos i)) ∧
      (x.get r i).map (·.at 0) = .ok (x.at (r.pos i))) ∧
    (∃ y, x.setC r i v = .ok y ∧ x.set r i v = .ok y ∧
      ∀ p, y.at p = if p = r.pos i then V4.ofBool v else x.at p) ∧
    (∃ y, x.setXC r i = .ok y ∧ x.setX r i = .ok y ∧ ∀ p, y.at p = if p = r.pos i then .x else x.at p) ∧
    (∃ y, x.setZC r i = .ok y ∧ x.setZ r i = .ok y ∧ ∀ p, y.at p = if p = r.pos i then .z else x.at p) := by
  have hp := Bits.physIdx_pos h0 hl hh
  have hlt := Rng.pos_lt hl hh
  have hp' : Bits.physIdx r i - r.lo = (r.pos i : Int) := by rw [hp, h0]; simp
  have hsz : i < r.size := by simp only [Rng.size, Rng.lo, Rng.hi] at *; omega
  have ev : ∀ v, x.value.setC r i v = x.value.set r i v := Bits.setC_eq r x.value i _ hp' hlt hN
  have ek : ∀ v, x.xz.setC r i v = x.xz.set r i v := Bits.setC_eq r x.xz i _ hp' hlt hN
  refine ⟨fun h64 => ⟨Lg.getC_exact r x i _ hp hlt h64 (by omega) hsz, ?_⟩, ?_, ?_, ?_⟩
  · rw [Lg.get_exact r x i _ hp hlt hN hl hh (by omega) (by omega), if_pos (Or.inl (by omega))]
  · obtain ⟨y, hy, hv, hk⟩ := Lg.set_phys r x i _ hp' hlt hN v
    refine ⟨y, by rw [← hy, Lg.setC, Lg.set, ev]; simp only [ek], hy, fun p => ?_⟩
    rw [Lg.at_write hlt hv hk]
    cases v <;> rfl
  · obtain ⟨y, hy, hv, hk⟩ := Lg.setX_phys r x i _ hp' hlt hN
    exact ⟨y, by rw [← hy, Lg.setXC, Lg.setX, ek]; simp only [ev], hy, fun p => Lg.at_write hlt hv hk p⟩
  · obtain ⟨y, hy, hv, hk⟩ := Lg.setZ_phys r x i _ hp' hlt hN
    exact ⟨y, by rw [← hy, Lg.setZC, Lg.setZ, ek]; simp only [ev], hy, fun p => Lg.at_write hlt hv hk p⟩

/-- **C90 is false for ranges with a positive low bound.** On every native
descending range `get<i>()` of an index below the low bound compiles and gives the
bit at position `i`, where `operator[](i)` gives x; an index that is in range but
not below the size does not compile. -/
theorem C90_refuted (r : Rng) (x : Lg r.size s) (hd : r.lsb ≤ r.msb) (h64 : r.size ≤ 64) (i : Nat) :
    ((i : Int) < r.lo → i < r.size →
      (x.getC r i).map (·.at 0) = .ok (x.at i) ∧ (x.get r i).map (·.at 0) = .ok .x) ∧
    (r.size ≤ i → x.getC r i = .error .illFormed) := by
  have hbe : r.bigEndian = true := by simp [Rng.bigEndian, hd]
  have hp : Bits.physIdx r i = (i : Int) := by simp [Bits.physIdx, hbe]
  refine ⟨fun hlo hi => ⟨Lg.getC_exact r x i i hp hi h64 (by omega) (by omega), ?_⟩, fun hi => ?_⟩
  · rw [Lg.get, if_neg (by omega), Lg.dflt1]; rfl
  · rw [Lg.getC, Lg.xSetC, Bits.getC, if_neg (by omega)]; rfl

/-- **C90, writes on descending ranges.** On a descending range with any low bound `set<i>(v)`, `set_x<i>()` and
`set_z<i>()` of an index in range write the same bit as their run-time forms, the one named `i`, and no other. -/
theorem C90_set_descending (r : Rng) (x : Lg r.size s) (hd : r.lsb ≤ r.msb) (hN : r.size ≤ 2 ^ 32) (i : Int)
    (hl : r.lo ≤ i) (hh : i ≤ r.hi) (v : Bool) :
    (∃ y, x.setC r i v = .ok y ∧ x.set r i v = .ok y ∧
      ∀ p, y.at p = if p = r.pos i then V4.ofBool v else x.at p) ∧
    (∃ y, x.setXC r i = .ok y ∧ x.setX r i = .ok y ∧ ∀ p, y.at p = if p = r.pos i then .x else x.at p) ∧
    (∃ y, x.setZC r i = .ok y ∧ x.setZ r i = .ok y ∧ ∀ p, y.at p = if p = r.pos i then .z else x.at p) := by
  have hbe : r.bigEndian = true := by simp [Rng.bigEndian, hd]
  have hlt := Rng.pos_lt hl hh
  have hp' : Bits.physIdx r i - r.lo = (r.pos i : Int) := by
    simp only [Bits.physIdx, hbe, if_true, Rng.pos, if_pos hd, Rng.lo] at *
    omega
  have ev : ∀ v, x.value.setC r i v = x.value.set r i v := Bits.setC_eq r x.value i _ hp' hlt hN
  have ek : ∀ v, x.xz.setC r i v = x.xz.set r i v := Bits.setC_eq r x.xz i _ hp' hlt hN
  refine ⟨?_, ?_, ?_⟩
  · obtain ⟨y, hy, hv, hk⟩ := Lg.set_phys r x i _ hp' hlt hN v
    refine ⟨y, by rw [← hy, Lg.setC, Lg.set, ev]; simp only [ek], hy, fun p => ?_⟩
    rw [Lg.at_write hlt hv hk]
    cases v <;> rfl
  · obtain ⟨y, hy, hv, hk⟩ := Lg.setX_phys r x i _ hp' hlt hN
    exact ⟨y, by rw [← hy, Lg.setXC, Lg.setX, ek]; simp only [ev], hy, fun p => Lg.at_write hlt hv hk p⟩
  · obtain ⟨y, hy, hv, hk⟩ := Lg.setZ_phys r x i _ hp' hlt hN
    exact ⟨y, by rw [← hy, Lg.setZC, Lg.setZ, ek]; simp only [ev], hy, fun p => Lg.at_write hlt hv hk p⟩

-- `logic<11,4>`: `set_x<6>()` writes bit 2
example : ((Lg.ofInt 0 : Lg 8 false).setXC ⟨11, 4⟩ 6).map (fun y => (y.at 1, y.at 2, y.at 6)) = .ok (.b0, .x, .b0) := by
  decide +kernel

-- `logic<7,4>`: `get<2>()` is a bit, `operator[](2)` is x
example : ((Lg.ofInt 4 : Lg 4 false).getC ⟨7, 4⟩ 2).map (·.at 0) = .ok .b1 ∧
    ((Lg.ofInt 4 : Lg 4 false).get ⟨7, 4⟩ 2).map (·.at 0) = .ok .x := by decide +kernel
-- `logic<3,0>`: an x is read as an x
example : (((Lg.ofInt 4 : Lg 4 false).setXC (Rng.down 4) 3).bind fun y => y.getC (Rng.down 4) 3).map (·.at 0) =
    .ok .x := by decide +kernel
example : ((Bits.ofInt 4 : Bits 100 false).setC (Rng.down 100) 70 true).map (·.bv.toNat) = .ok (2 ^ 70 + 4) := by
  decide +kernel

/-! ## C95: vector indices -/

theorem bmod_num (a : Int) :
    (a.bmod (2 ^ 8) = if a % 256 < 128 then a % 256 else a % 256 - 256) ∧
    (a.bmod (2 ^ 16) = if a % 65536 < 32768 then a % 65536 else a % 65536 - 65536) ∧
    (a.bmod (2 ^ 32) = if a % 4294967296 < 2147483648 then a % 4294967296 else a % 4294967296 - 4294967296) ∧
    (a.bmod (2 ^ 64) = if a % 18446744073709551616 < 9223372036854775808 then a % 18446744073709551616
      else a % 18446744073709551616 - 18446744073709551616) := by
  refine ⟨?_, ?_, ?_, ?_⟩ <;> rw [Int.bmod_def] <;> norm_num

/-- `op.value - min(msb, lsb)` converted to `int` -/
theorem Bits.sub_index (hm : m ≤ 64) (op : Bits m t) (lo : Int) (hl : -2 ^ 31 ≤ lo ∧ lo < 2 ^ 31)
    (h0 : 0 ≤ op.nv.v - lo) (h1 : op.nv.v - lo < 2 ^ 31) {α : Type} (f : Int → Res α) :
    ((TV.sub op.nv (TV.int lo)).bind fun i => f (tInt.conv i.v)) = f (op.nv.v - lo) := by
  have hc := Bits.nv_conv hm op
  have hty : op.nv.ty = holderTy m t := Bits.nv_ty op
  generalize op.nv = a at *
  obtain ⟨ty, i⟩ := a
  simp only at hty hc h0 h1 ⊢
  subst hty
  have key : ∀ T : CTy, CTy.usual (holderTy m t) tInt = T → ((T = tInt ∧ -2 ^ 31 ≤ i ∧ i < 2 ^ 31) ∨ T = tU32 ∨
      T = .int 64 true ∨ T = tU64) →
      ((TV.sub ⟨holderTy m t, i⟩ (TV.int lo)).bind fun i => f (tInt.conv i.v)) = f (i - lo) := by
    intro T hT hc
    have hs : TV.sub ⟨holderTy m t, i⟩ (TV.int lo) = (let r := T.conv i - T.conv lo
        if T.signed && T.conv r != r then .error .overflow else .ok ⟨T, T.conv r⟩) := by
      simp only [TV.sub, TV.arith, TV.int, hT]
    rw [hs]
    rcases hc with ⟨rfl, hi⟩ | rfl | rfl | rfl
    · have e1 : tInt.conv i = i := by simp only [tInt, CTy.conv, (bmod_num _).2.2.1]; split_ifs <;> omega
      have e2 : tInt.conv lo = lo := by simp only [tInt, CTy.conv, (bmod_num _).2.2.1]; split_ifs <;> omega
      have e3 : tInt.conv (i - lo) = i - lo := by simp only [tInt, CTy.conv, (bmod_num _).2.2.1]; split_ifs <;> omega
      simp only [e1, e2, e3, bne_self_eq_false, Bool.and_false, Bool.false_eq_true, if_false, res_bind_ok]
    · simp only [tU32, CTy.signed, Bool.false_and, Bool.false_eq_true, if_false, res_bind_ok]
      congr 1
      simp only [tInt, CTy.conv, (bmod_num _).2.2.1]
      norm_num
      split_ifs <;> omega
    · have e1 : (CTy.int 64 true).conv i = i := by simp only [CTy.conv, (bmod_num _).2.2.2]; split_ifs <;> omega
      have e2 : (CTy.int 64 true).conv lo = lo := by simp only [CTy.conv, (bmod_num _).2.2.2]; split_ifs <;> omega
      have e4 : (CTy.int 64 true).conv (i - lo) = i - lo := by simp only [CTy.conv, (bmod_num _).2.2.2]; split_ifs <;> omega
      have e3 : tInt.conv (i - lo) = i - lo := by simp only [tInt, CTy.conv, (bmod_num _).2.2.1]; split_ifs <;> omega
      simp only [e1, e2, e3, e4, bne_self_eq_false, Bool.and_false, Bool.false_eq_true, if_false, res_bind_ok]
    · simp only [tU64, CTy.signed, Bool.false_and, Bool.false_eq_true, if_false, res_bind_ok]
      congr 1
      simp only [tInt, CTy.conv, (bmod_num _).2.2.1]
      norm_num
      split_ifs <;> omega
  by_cases g1 : m ≤ 1
  · refine key _ rfl (Or.inl ⟨by rw [holderTy_one g1]; rfl, ?_⟩)
    rw [holderTy_one g1] at hc
    simp only [CTy.conv] at hc
    split_ifs at hc <;> omega
  rw [holderTy_ge g1] at hc
  have hw4 : hw m = 8 ∨ hw m = 16 ∨ hw m = 32 ∨ hw m = 64 := by
    simp only [hw]; split_ifs <;> simp
  rcases hw4 with e | e | e | e <;> cases t <;> rw [e] at hc <;> simp only [CTy.conv] at hc <;>
    refine key _ rfl ?_ <;> rw [holderTy_ge g1, e] <;> (try rw [(bmod_num _).1] at hc) <;>
    (try rw [(bmod_num _).2.1] at hc) <;> (try rw [(bmod_num _).2.2.1] at hc)
  · exact Or.inl ⟨rfl, by norm_num at hc; (try split_ifs at hc) <;> omega⟩
  · exact Or.inl ⟨rfl, by norm_num at hc; (try split_ifs at hc) <;> omega⟩
  · exact Or.inl ⟨rfl, by norm_num at hc; (try split_ifs at hc) <;> omega⟩
  · exact Or.inl ⟨rfl, by norm_num at hc; (try split_ifs at hc) <;> omega⟩
  · exact Or.inr (Or.inl rfl)
  · exact Or.inl ⟨rfl, by norm_num at hc; (try split_ifs at hc) <;> omega⟩
  · exact Or.inr (Or.inr (Or.inr rfl))
  · exact Or.inr (Or.inr (Or.inl rfl))

/-- **C95, 2-state, partial.** About the bit selected by the body of `bit::get(bit)`; no call
compiles, because the body returns a `bit<0>` as `bool`. On every descending range, whatever its low bound,
`get(op)` reads the bit that `set(i, v)` with `i` the number held by `op` writes:
after `set(i, v)` it is `v`. Missing: ascending ranges with a low bound other than 0
(`C95_ascending_refuted`). -/
theorem C95_bit_vector_index_partial (r : Rng) (x : Bits r.size s) (hd : r.lsb ≤ r.msb ∨ r.lo = 0)
    (hb : -2 ^ 31 ≤ r.lo ∧ r.hi < 2 ^ 31) (hsz : r.size ≤ 2 ^ 31) (hm : m ≤ 64) (op : Bits m t) (hop : op.Clean)
    (hl : r.lo ≤ numOf t op.bv) (hh : numOf t op.bv ≤ r.hi) (v : Bool) :
    x.getIdx r op = .ok (x.bv.getLsbD (r.pos (numOf t op.bv))) ∧
    ∃ y, x.set r (numOf t op.bv) v = .ok y ∧ y.getIdx r op = .ok v := by
  have hnv := (Bits.clean_native hm op).1 hop
  generalize numOf t op.bv = i at *
  have hlt := Rng.pos_lt hl hh
  have hlh : r.lo ≤ r.hi := by simp only [Rng.lo, Rng.hi]; omega
  have hs2 : (r.size : Int) = r.hi - r.lo + 1 := by simp only [Rng.lo, Rng.hi, Rng.size]; omega
  have hph : Bits.physIdx r (i - r.lo) = (r.pos i : Int) := by
    simp only [Bits.physIdx, Rng.bigEndian, Rng.pos, Rng.lo, Rng.hi] at *
    split_ifs <;> simp_all <;> omega
  have hps : Bits.physIdx r i - r.lo = (r.pos i : Int) := by
    simp only [Bits.physIdx, Rng.bigEndian, Rng.pos, Rng.lo, Rng.hi] at *
    split_ifs <;> simp_all <;> omega
  have read : ∀ z : Bits r.size s, z.getIdx r op = .ok (z.bv.getLsbD (r.pos i)) := by
    intro z
    rw [Bits.getIdx, if_pos hm, Bits.sub_index hm op r.lo (by omega) (by omega) (by omega) (fun i => z.get r i), hnv]
    exact Bits.get_phys r z _ _ hph hlt (by omega)
  refine ⟨read x, ?_⟩
  obtain ⟨y, hy, hr⟩ := Bits.set_phys r x i _ hps hlt (by omega) v
  refine ⟨y, hy, ?_⟩
  rw [read, Bits.getLsbD_bv, hr, if_pos rfl, decide_eq_true hlt, Bool.true_and]

/-- **C95, 2-state, is false for ascending ranges with another low bound** (index arithmetic of the body,
which has to be made to compile first): on
`bit<1,4>` a one written at 3 is not read at 3. -/
theorem C95_ascending_refuted : ∃ y : Bits 4 false,
    (Bits.zero : Bits 4 false).set ⟨1, 4⟩ 3 true = .ok y ∧
    y.getIdx ⟨1, 4⟩ (Bits.ofInt 3 : Bits 3 false) = .ok false ∧
    y.getIdx ⟨1, 4⟩ (Bits.ofInt 5 : Bits 3 false) = .ok true :=
  ⟨Bits.ofInt 1, by decide +kernel, by decide +kernel, by decide +kernel⟩

/-- **C95, 4-state, partial.** On a native range that starts at 0 `get(op)` gives the
bit addressed by the number in `op`, x and z included. Missing: other low bounds
(`C95_logic_refuted`); an index that is itself 4-state or wide does not compile. -/
theorem C95_logic_vector_index_partial (r : Rng) (x : Lg r.size s) (h0 : r.lo = 0) (h64 : r.size ≤ 64)
    (hm : m ≤ 64) (op : Bits m t) (hop : op.Clean) (hl : r.lo ≤ numOf t op.bv) (hh : numOf t op.bv ≤ r.hi) :
    (x.getIdx r op).map (·.at 0) = .ok (x.at (r.pos (numOf t op.bv))) := by
  have hnv := (Bits.clean_native hm op).1 hop
  generalize numOf t op.bv = i at *
  have hs2 : (r.size : Int) = r.hi - r.lo + 1 := by simp only [Rng.lo, Rng.hi, Rng.size]; omega
  rw [Lg.getIdx, if_pos ⟨h64, hm⟩, Bits.sub_index hm op r.lo (by omega) (by omega) (by omega) (fun i => x.get r i),
    hnv, h0, Int.sub_zero, Lg.get_exact r x i _ (Bits.physIdx_pos h0 hl hh) (Rng.pos_lt hl hh) (by omega) hl hh
      (by omega) (by omega), if_pos (Or.inl (by omega))]

/-- **C95, 4-state, is false for ranges with a positive low bound**: every in-range
index below twice the low bound reads x, because the rebased index is tested against
the declared range. -/
theorem C95_logic_refuted (r : Rng) (x : Lg r.size s) (h64 : r.size ≤ 64)
    (hb : r.hi < 2 ^ 31) (hm : m ≤ 64) (op : Bits m t) (hop : op.Clean) (h0 : 0 < r.lo)
    (hl : r.lo ≤ numOf t op.bv) (hh : numOf t op.bv ≤ r.hi) (h2 : numOf t op.bv < 2 * r.lo) :
    (x.getIdx r op).map (·.at 0) = .ok .x := by
  have hnv := (Bits.clean_native hm op).1 hop
  generalize numOf t op.bv = i at *
  have hs2 : (r.size : Int) = r.hi - r.lo + 1 := by simp only [Rng.lo, Rng.hi, Rng.size]; omega
  rw [Lg.getIdx, if_pos ⟨h64, hm⟩, Bits.sub_index hm op r.lo (by omega) (by omega) (by omega) (fun i => x.get r i),
    hnv, Lg.get, if_neg (by omega), Lg.dflt1]
  rfl

-- `logic<7,4>`: the known bit 5 is read as x through a vector index
example : ((Lg.ofInt 15 : Lg 4 false).getIdx ⟨7, 4⟩ (Bits.ofInt 5 : Bits 3 false)).map (·.at 0) = .ok .x := by
  decide +kernel
-- `bit<7,4>`: a vector index finds what `set` wrote, `operator[]` does not
example : ((Bits.zero : Bits 4 false).set ⟨7, 4⟩ 5 true).bind (fun y => y.getIdx ⟨7, 4⟩ (Bits.ofInt 5 : Bits 3 false)) =
    .ok true ∧ ((Bits.zero : Bits 4 false).set ⟨7, 4⟩ 5 true).bind (fun y => y.get ⟨7, 4⟩ 5) = .ok false := by
  decide +kernel

end Verif
