import Verif.Props.Gates
import Verif.Props.Queries
import Verif.Props.ExprL
import Verif.Show

/-!
# Buses and multiplexers

Client programs over the x and z of 4-state vectors: the resolution of several drivers of a
bus, and the multiplexer with an unknown select. The loops are client code; the functions that
they call are the models of `logic.hh` 54-70 (`operator[]`), 116-120 and 134-137 (`set`),
139-151 (`x_set`, `z_set`), 153-169 (`set_x`, `set_z`), 1111-1115 (`set_`), of `operator^` and
of the conversion to `bool`.
-/

namespace Verif

variable {n : Nat} {s t u : Bool}

theorem Lg.set_down (hn : 0 < n) (hN : n ≤ 2 ^ 32) (x : Lg n s) (i : Nat) (hi : i < n) :
    (∃ y, x.setX (Rng.down n) i = .ok y ∧ ∀ j, y.at j = if j = i then .x else x.at j) ∧
    (∃ y, x.setZ (Rng.down n) i = .ok y ∧ ∀ j, y.at j = if j = i then .z else x.at j) ∧
    ∀ l : Lg 1 t, ∃ y, x.setL (Rng.down n) i l = .ok y ∧ ∀ j, y.at j = if j = i then l.at 0 else x.at j := by
  obtain ⟨l1, l2, l3, l4⟩ := Rng.down_lo' n hn
  have hp : Rng.pos (Rng.down n) i = i := by
    simp only [Rng.pos, Rng.down]; split_ifs <;> omega
  have key := @C90_logic_static_partial s (Rng.down n)
  rw [l4] at key
  obtain ⟨-, -, ⟨a, -, ha, ea⟩, ⟨b, -, hb, eb⟩⟩ := key x (Rng.lo_down hn) hN i (by rw [Rng.lo_down hn]; omega)
    (by rw [Rng.hi_down hn]; omega) false
  rw [hp] at ea eb
  refine ⟨⟨a, ha, ea⟩, ⟨b, hb, eb⟩, fun l => ?_⟩
  obtain ⟨r', hr, er1, er2⟩ := Lg.setL_phys (Rng.down n) x i i
    (by rw [Bits.physIdx_down hn, Rng.lo_down hn]; simp) hi hN l
  refine ⟨r', hr, fun j => ?_⟩
  rw [Lg.at_write hi er1 er2 j, Lg.hold1_at]

theorem Lg.xzSet_down (hn : 0 < n) (hN : n ≤ 2 ^ 32) (x : Lg n s) (i : Nat) (hi : i < n) :
    x.xSet (Rng.down n) i = .ok (decide (x.at i = .x)) ∧ x.zSet (Rng.down n) i = .ok (decide (x.at i = .z)) := by
  obtain ⟨h1, h2, -⟩ := Lg.xzSet_phys (Rng.down n) x i i (Bits.physIdx_down hn _) hi hN
  exact ⟨h1, h2⟩

/-! ## C180: the resolution of a bus -/

/-- `if (a.x_set(i)) r.set_x(i); else if (a.z_set(i)) r.set_z(i); else r.set(i, a[i]);` -/
def copyBit (a : Lg n s) (i : Nat) (r : Lg n u) : Res (Lg n u) :=
  (a.xSet (Rng.down n) i).bind fun isX =>
  if isX then r.setX (Rng.down n) i
  else
    (a.zSet (Rng.down n) i).bind fun isZ =>
    if isZ then r.setZ (Rng.down n) i
    else (a.get (Rng.down n) i).bind fun b => r.setL (Rng.down n) i b

/-- `r.set_x(i)` if one of the bits is x or `bool(a[i] ^ b[i])`, otherwise `r.set(i, a[i])` -/
def mergeBit (a : Lg n s) (b : Lg n t) (i : Nat) (r : Lg n u) : Res (Lg n u) :=
  (a.xSet (Rng.down n) i).bind fun aX =>
  (b.xSet (Rng.down n) i).bind fun bX =>
  if aX || bX then r.setX (Rng.down n) i
  else
    (a.get (Rng.down n) i).bind fun p =>
    (b.get (Rng.down n) i).bind fun q =>
    (p.xor q).bind fun d =>
    if d.toBool then r.setX (Rng.down n) i else r.setL (Rng.down n) i p

/-- one position of the bus: a driver that is z leaves the other one its way -/
def resolveBit (a : Lg n s) (b : Lg n t) (i : Nat) (r : Lg n u) : Res (Lg n u) :=
  (a.zSet (Rng.down n) i).bind fun aZ =>
  if aZ then copyBit b i r
  else
    (b.zSet (Rng.down n) i).bind fun bZ =>
    if bZ then copyBit a i r else mergeBit a b i r

/-- two drivers -/
def resolve (a : Lg n s) (b : Lg n t) (r : Lg n u) : Res (Lg n u) :=
  loopM 0 n r (resolveBit a b)

/-- any number of drivers, one after the other, on a bus that is `w` without drivers -/
def bus (w : Lg n u) : List (Lg n s) → Res (Lg n u)
  | [] => .ok w
  | d :: ds => (resolve w d w).bind fun w => bus w ds

/-- IEEE 1800 table 6-2, the type `wire`: the value of two drivers -/
def V4.wire : V4 → V4 → V4
  | .z, b => b
  | a, .z => a
  | .b0, .b0 => .b0
  | .b1, .b1 => .b1
  | _, _ => .x

theorem copyBit_ok (hn : 0 < n) (hN : n ≤ 2 ^ 32) (a : Lg n s) (i : Nat) (hi : i < n) (r : Lg n u) :
    ∃ y, copyBit a i r = .ok y ∧ ∀ j, y.at j = if j = i then a.at i else r.at j := by
  obtain ⟨gx, gz⟩ := Lg.xzSet_down hn hN a i hi
  obtain ⟨⟨y1, h1, e1⟩, ⟨y2, h2, e2⟩, h3⟩ := Lg.set_down (t := false) hn hN r i hi
  rw [copyBit, gx, res_bind_ok]
  by_cases cx : a.at i = .x
  · refine ⟨y1, ?_, fun j => by rw [e1, cx]⟩
    simp only [cx, decide_true, if_true, h1]
  · simp only [cx, decide_false, Bool.false_eq_true, if_false]
    rw [gz, res_bind_ok]
    by_cases cz : a.at i = .z
    · refine ⟨y2, ?_, fun j => by rw [e2, cz]⟩
      simp only [cz, decide_true, if_true, h2]
    · simp only [cz, decide_false, Bool.false_eq_true, if_false]
      obtain ⟨b, hb, eb⟩ := Lg.get_down hn hN a i hi (Or.inr (by revert cx cz; cases a.at i <;> decide))
      obtain ⟨y, hy, e⟩ := h3 b
      exact ⟨y, by rw [hb, res_bind_ok, hy], fun j => by rw [e, eb]⟩

theorem mergeBit_ok (hn : 0 < n) (hN : n ≤ 2 ^ 32) (a : Lg n s) (b : Lg n t) (i : Nat) (hi : i < n) (r : Lg n u)
    (ha : a.at i ≠ .z) (hb : b.at i ≠ .z) :
    ∃ y, mergeBit a b i r = .ok y ∧ ∀ j, y.at j = if j = i then V4.wire (a.at i) (b.at i) else r.at j := by
  obtain ⟨gx, -⟩ := Lg.xzSet_down hn hN a i hi
  obtain ⟨gy, -⟩ := Lg.xzSet_down hn hN b i hi
  obtain ⟨⟨y1, h1, e1⟩, -, h3⟩ := Lg.set_down (t := false) hn hN r i hi
  rw [mergeBit, gx, res_bind_ok, gy, res_bind_ok]
  by_cases cx : a.at i = .x ∨ b.at i = .x
  · refine ⟨y1, ?_, fun j => ?_⟩
    · rw [if_pos (by simpa using cx), h1]
    · rw [e1]
      revert ha hb cx
      cases a.at i <;> cases b.at i <;> simp [V4.wire]
  · rw [if_neg (by simpa using cx)]
    push Not at cx
    obtain ⟨p, hp, ep⟩ := Lg.get_down hn hN a i hi (Or.inr (by revert cx ha; cases a.at i <;> simp [V4.isKnown, V4.known?]))
    obtain ⟨q, hq, eq⟩ := Lg.get_down hn hN b i hi (Or.inr (by revert cx hb; cases b.at i <;> simp [V4.isKnown, V4.known?]))
    obtain ⟨d, hd, ed⟩ := C08_xor_table Nat.one_pos p q
    rw [hp, res_bind_ok, hq, res_bind_ok, hd, res_bind_ok]
    have eb : d.toBool = decide (V4.xor (a.at i) (b.at i) = .b1) := by
      have := Lg.toBool_vec d
      rw [this]
      congr 1
      rw [show d.vec 0 = d.at 0 from rfl, ed 0 Nat.one_pos, ep, eq]
    obtain ⟨y, hy, e⟩ := h3 p
    by_cases c : V4.xor (a.at i) (b.at i) = .b1
    · refine ⟨y1, ?_, fun j => ?_⟩
      · rw [if_pos (by rw [eb]; exact decide_eq_true c), h1]
      · rw [e1]
        revert ha hb cx c
        cases a.at i <;> cases b.at i <;> simp [V4.wire, V4.xor]
    · refine ⟨y, ?_, fun j => ?_⟩
      · rw [if_neg (by rw [eb]; simpa using c), hy]
      · rw [e, ep]
        revert ha hb cx c
        cases a.at i <;> cases b.at i <;> simp [V4.wire, V4.xor]

theorem resolveBit_ok (hn : 0 < n) (hN : n ≤ 2 ^ 32) (a : Lg n s) (b : Lg n t) (i : Nat) (hi : i < n) (r : Lg n u) :
    ∃ y, resolveBit a b i r = .ok y ∧ ∀ j, y.at j = if j = i then V4.wire (a.at i) (b.at i) else r.at j := by
  obtain ⟨-, ga⟩ := Lg.xzSet_down hn hN a i hi
  obtain ⟨-, gb⟩ := Lg.xzSet_down hn hN b i hi
  rw [resolveBit, ga, res_bind_ok]
  by_cases ca : a.at i = .z
  · obtain ⟨y, hy, e⟩ := copyBit_ok hn hN b i hi r
    refine ⟨y, by simp only [ca, decide_true, if_true, hy], fun j => by rw [e, ca]; rfl⟩
  · rw [if_neg (by simpa using ca), gb, res_bind_ok]
    by_cases cb : b.at i = .z
    · obtain ⟨y, hy, e⟩ := copyBit_ok hn hN a i hi r
      refine ⟨y, by simp only [cb, decide_true, if_true, hy], fun j => ?_⟩
      rw [e, cb]
      cases a.at i <;> rfl
    · rw [if_neg (by simpa using cb)]
      exact mergeBit_ok hn hN a b i hi r ca cb

/-- **C180, two drivers.** At every width, wherever the x and z lie and whatever the result object
held before, every bit of the bus is that of the table of `wire`. -/
theorem C180_two (hn : 0 < n) (hN : n ≤ 2 ^ 32) (a : Lg n s) (b : Lg n t) (r : Lg n u) :
    ∃ y, resolve a b r = .ok y ∧ ∀ i, i < n → y.at i = V4.wire (a.at i) (b.at i) := by
  obtain ⟨y, hy, h⟩ : ∃ y, resolve a b r = .ok y ∧ _ := loopM_induct 0 n r _
    (fun k (y : Lg n u) => ∀ j, j < k → y.at j = V4.wire (a.at j) (b.at j)) (Nat.zero_le n) (by simp)
    (by
      rintro i q - hi h
      obtain ⟨y, hy, e⟩ := resolveBit_ok hn hN a b i hi q
      refine ⟨y, hy, fun j hj => ?_⟩
      rw [e]
      by_cases ej : j = i
      · rw [if_pos ej, ej]
      · rw [if_neg ej, h j (by omega)])
  exact ⟨y, hy, h⟩

theorem wire_fold (l : List V4) (a : V4) :
    (l.foldl V4.wire a = .z ↔ a = .z ∧ ∀ d ∈ l, d = .z) ∧
    ∀ v : Bool, l.foldl V4.wire a = V4.ofBool v ↔
      (a = V4.ofBool v ∨ V4.ofBool v ∈ l) ∧ (a = V4.ofBool v ∨ a = .z) ∧ ∀ d ∈ l, d = V4.ofBool v ∨ d = .z := by
  induction l generalizing a with
  | nil =>
    refine ⟨by simp, fun v => ?_⟩
    simp only [List.foldl_nil, List.not_mem_nil, or_false, false_implies, implies_true, and_true]
    tauto
  | cons d l ih =>
    rw [List.foldl_cons]
    refine ⟨?_, fun v => ?_⟩
    · rw [(ih _).1, List.forall_mem_cons, ← and_assoc]
      apply and_congr_left'
      cases a <;> cases d <;> decide
    · rw [(ih _).2, List.forall_mem_cons, List.mem_cons]
      generalize (V4.ofBool v ∈ l) = P
      generalize (∀ d ∈ l, d = V4.ofBool v ∨ d = .z) = Q
      cases v <;> cases a <;> cases d <;> simp [V4.wire, V4.ofBool]

/-- **C180.** A bus with any number of drivers of any width, starting from z everywhere: no step
faults; a bit of the bus is z exactly if every driver has z there, it is 0 (1) exactly if some
driver has 0 (1) and every other one the same or z, and x otherwise; and so the order of the
drivers does not matter. -/
theorem C180_bus (hn : 0 < n) (hN : n ≤ 2 ^ 32) (w : Lg n u) (hw : ∀ i, i < n → w.at i = .z) (ds : List (Lg n s)) :
    ∃ y, bus w ds = .ok y ∧
      (∀ i, i < n → ((y.at i = .z ↔ ∀ d ∈ ds, d.at i = .z) ∧
        ∀ v : Bool, y.at i = V4.ofBool v ↔
          (∃ d ∈ ds, d.at i = V4.ofBool v) ∧ ∀ d ∈ ds, d.at i = V4.ofBool v ∨ d.at i = .z)) ∧
      ∀ es, List.Perm ds es → ∃ y', bus w es = .ok y' ∧ ∀ i, i < n → y'.at i = y.at i := by
  have one : ∀ (ds : List (Lg n s)) (w : Lg n u), ∃ y, bus w ds = .ok y ∧
      ∀ i, i < n → y.at i = (ds.map (·.at i)).foldl V4.wire (w.at i) := by
    intro ds
    induction ds with
    | nil => exact fun w => ⟨w, rfl, fun i _ => rfl⟩
    | cons d ds ih =>
      intro w
      obtain ⟨v, hv, ev⟩ := C180_two hn hN w d w
      obtain ⟨y, hy, ey⟩ := ih v
      refine ⟨y, by rw [bus, hv, res_bind_ok, hy], fun i hi => ?_⟩
      rw [ey i hi, ev i hi, List.map_cons, List.foldl_cons]
  have two : ∀ (ds : List (Lg n s)), ∃ y, bus w ds = .ok y ∧
      ∀ i, i < n → ((y.at i = .z ↔ ∀ d ∈ ds, d.at i = .z) ∧
        ∀ v : Bool, y.at i = V4.ofBool v ↔
          (∃ d ∈ ds, d.at i = V4.ofBool v) ∧ ∀ d ∈ ds, d.at i = V4.ofBool v ∨ d.at i = .z) := by
    intro ds
    obtain ⟨y, hy, e⟩ := one ds w
    refine ⟨y, hy, fun i hi => ?_⟩
    obtain ⟨f1, f2⟩ := wire_fold (ds.map (·.at i)) (w.at i)
    rw [e i hi, hw i hi] at *
    refine ⟨?_, fun v => ?_⟩
    · rw [f1]; simp
    · rw [f2]
      have : V4.z ≠ V4.ofBool v := by cases v <;> decide
      simp [this]
  obtain ⟨y, hy, h⟩ := two ds
  refine ⟨y, hy, h, fun es hp => ?_⟩
  obtain ⟨y', hy', h'⟩ := two es
  refine ⟨y', hy', fun i hi => ?_⟩
  have hz : y'.at i = .z ↔ y.at i = .z := by
    rw [(h i hi).1, (h' i hi).1]
    exact ⟨fun q d hd => q d (hp.mem_iff.1 hd), fun q d hd => q d (hp.mem_iff.2 hd)⟩
  have hb : ∀ v, y'.at i = V4.ofBool v ↔ y.at i = V4.ofBool v := fun v => by
    rw [(h i hi).2 v, (h' i hi).2 v]
    simp only [hp.mem_iff]
  have h0 := hb false
  have h1 := hb true
  revert hz h0 h1
  cases y.at i <;> cases y'.at i <;> simp [V4.ofBool]

/-! ## C181: the multiplexer with an unknown select -/

/-- one position of `sel ? a : b` with an unknown `sel`: x unless both bits are known and equal -/
def muxBit (a : Lg n s) (b : Lg n t) (i : Nat) (r : Lg n u) : Res (Lg n u) :=
  (a.zSet (Rng.down n) i).bind fun aZ =>
  (b.zSet (Rng.down n) i).bind fun bZ =>
  if aZ || bZ then r.setX (Rng.down n) i else mergeBit a b i r

/-- `sel ? a : b`: the branch that `sel` chooses, copied bit by bit, or both branches merged if
`sel` is x or z -/
def mux (sel : Lg 1 false) (a : Lg n s) (b : Lg n t) (r : Lg n u) : Res (Lg n u) :=
  (sel.xSet (Rng.down 1) 0).bind fun sX =>
  (sel.zSet (Rng.down 1) 0).bind fun sZ =>
  if sX || sZ then loopM 0 n r (muxBit a b)
  else if sel.toBool then loopM 0 n r (copyBit a) else loopM 0 n r (copyBit b)

theorem muxBit_ok (hn : 0 < n) (hN : n ≤ 2 ^ 32) (a : Lg n s) (b : Lg n t) (i : Nat) (hi : i < n) (r : Lg n u) :
    ∃ y, muxBit a b i r = .ok y ∧
      ∀ j, y.at j = if j = i then (if a.at i = b.at i ∧ (a.at i).isKnown then a.at i else .x) else r.at j := by
  obtain ⟨-, ga⟩ := Lg.xzSet_down hn hN a i hi
  obtain ⟨-, gb⟩ := Lg.xzSet_down hn hN b i hi
  rw [muxBit, ga, res_bind_ok, gb, res_bind_ok]
  by_cases c : a.at i = .z ∨ b.at i = .z
  · obtain ⟨⟨y, hy, e⟩, -, -⟩ := Lg.set_down (t := false) hn hN r i hi
    refine ⟨y, by rw [if_pos (by simpa using c), hy], fun j => ?_⟩
    rw [e]
    revert c
    cases a.at i <;> cases b.at i <;> simp [V4.isKnown, V4.known?]
  · rw [if_neg (by simpa using c)]
    push Not at c
    obtain ⟨y, hy, e⟩ := mergeBit_ok hn hN a b i hi r c.1 c.2
    refine ⟨y, hy, fun j => ?_⟩
    rw [e]
    revert c
    cases a.at i <;> cases b.at i <;> simp [V4.wire, V4.isKnown, V4.known?]

theorem bitLoop (r : Lg n u) (f : Nat → Lg n u → Res (Lg n u)) (g : Nat → V4)
    (h : ∀ i, i < n → ∀ r, ∃ y, f i r = .ok y ∧ ∀ j, y.at j = if j = i then g i else r.at j) :
    ∃ y, loopM 0 n r f = .ok y ∧ ∀ i, i < n → y.at i = g i := by
  refine loopM_induct 0 n r f (fun k (y : Lg n u) => ∀ j, j < k → y.at j = g j) (Nat.zero_le n) (by simp) ?_
  rintro i q - hi h'
  obtain ⟨y, hy, e⟩ := h i hi q
  refine ⟨y, hy, fun j hj => ?_⟩
  rw [e]
  by_cases ej : j = i
  · rw [if_pos ej, ej]
  · rw [if_neg ej, h' j (by omega)]

/-- **C181, exactly.** IEEE 1800, 11.4.11: a known select chooses a branch, of which every bit is
kept, x and z too; an unknown select gives the bits on which the branches agree and x elsewhere. -/
theorem C181_exact (hn : 0 < n) (hN : n ≤ 2 ^ 32) (sel : Lg 1 false) (a : Lg n s) (b : Lg n t) (r : Lg n u) :
    ∃ y, mux sel a b r = .ok y ∧ ∀ i, i < n → y.at i =
      match sel.at 0 with
      | .b1 => a.at i
      | .b0 => b.at i
      | _ => if a.at i = b.at i ∧ (a.at i).isKnown then a.at i else .x := by
  obtain ⟨gx, gz⟩ := Lg.xzSet_down Nat.one_pos (by norm_num) sel 0 Nat.one_pos
  rw [mux, show (0 : Int) = ((0 : Nat) : Int) from rfl, gx, res_bind_ok, gz, res_bind_ok, Lg.toBool_vec,
    show sel.vec 0 = sel.at 0 from rfl]
  obtain ⟨y1, h1, e1⟩ := bitLoop r _ _ fun i hi r => copyBit_ok hn hN a i hi r
  obtain ⟨y2, h2, e2⟩ := bitLoop r _ _ fun i hi r => copyBit_ok hn hN b i hi r
  obtain ⟨y3, h3, e3⟩ := bitLoop r _ _ fun i hi r => muxBit_ok hn hN a b i hi r
  cases sel.at 0
  · exact ⟨y2, by simpa using h2, e2⟩
  · exact ⟨y1, by simpa using h1, e1⟩
  · exact ⟨y3, by simpa using h3, e3⟩
  · exact ⟨y3, by simpa using h3, e3⟩

/-- **C181, soundness.** Whatever the unknown select, and the unknown bits of the branches, turn out to
be, the known bits of the multiplexer's output stay. -/
theorem C181_sound (hn : 0 < n) (hN : n ≤ 2 ^ 32) (sel sel' : Lg 1 false) (a a' : Lg n s) (b b' : Lg n t)
    (r r' : Lg n u) (hs : sel.Allows sel') (hd : sel'.Def) (ha : a.Allows a') (hb : b.Allows b') :
    ∃ y y', mux sel a b r = .ok y ∧ mux sel' a' b' r' = .ok y' ∧ y.Allows y' := by
  obtain ⟨y, hy, e⟩ := C181_exact hn hN sel a b r
  obtain ⟨y', hy', e'⟩ := C181_exact hn hN sel' a' b' r'
  refine ⟨y, y', hy, hy', fun i hi hk => ?_⟩
  have hs0 := hs 0 Nat.one_pos
  have hd0 := hd 0 Nat.one_pos
  have ha0 := ha i hi
  have hb0 := hb i hi
  rw [e i hi] at hk ⊢
  rw [e' i hi]
  by_cases ks : (sel.at 0).isKnown = true
  · rw [hs0 ks]
    revert hk ks
    cases sel.at 0
    · exact fun hk _ => hb0 hk
    · exact fun hk _ => ha0 hk
    · exact fun _ ks => by cases ks
    · exact fun _ ks => by cases ks
  · have e1 : (match sel.at 0 with
        | .b1 => a.at i
        | .b0 => b.at i
        | _ => if a.at i = b.at i ∧ (a.at i).isKnown then a.at i else .x) =
        if a.at i = b.at i ∧ (a.at i).isKnown then a.at i else .x := by
      revert ks
      cases sel.at 0 <;> simp [V4.isKnown, V4.known?]
    rw [e1] at hk ⊢
    by_cases c : a.at i = b.at i ∧ (a.at i).isKnown = true
    · rw [if_pos c, ha0 c.2, hb0 (c.1 ▸ c.2), ← c.1]
      revert hd0
      cases sel'.at 0 <;> simp [V4.isKnown, V4.known?]
    · rw [if_neg c] at hk
      cases hk

/-- the drivers of the examples: `0zz1` and `z1z1`, lowest bit last -/
example : ∃ a b : Lg 4 false, a.at 3 = .b0 ∧ a.at 2 = .z ∧ a.at 1 = .z ∧ a.at 0 = .b1 ∧
    b.at 3 = .z ∧ b.at 2 = .b1 ∧ b.at 1 = .z ∧ b.at 0 = .b1 :=
  ⟨⟨Bits.ofInt 7, Bits.ofInt 6⟩, ⟨Bits.ofInt 15, Bits.ofInt 10⟩, by decide +kernel, by decide +kernel,
    by decide +kernel, by decide +kernel, by decide +kernel, by decide +kernel, by decide +kernel, by decide +kernel⟩

-- the bus of both is `01z1`
example : Lg.bits (bus (⟨Bits.ofInt 15, Bits.ofInt 15⟩ : Lg 4 false)
    [(⟨Bits.ofInt 7, Bits.ofInt 6⟩ : Lg 4 false), ⟨Bits.ofInt 15, Bits.ofInt 10⟩]) = some [.b1, .z, .b1, .b0] := by
  decide +kernel

-- the bus of 70 bits that is z everywhere
example : ∃ w : Lg 70 false, ∀ i, i < 70 → w.at i = .z :=
  (Lg.exists_at fun _ => .z).imp fun _ h => h.2

-- `x ? 1100 : 1010` is `1xx0`
example : Lg.bits (mux Lg.x1 (Lg.ofInt 12 : Lg 4 false) (Lg.ofInt 10 : Lg 4 false) (Lg.ofInt 0 : Lg 4 false)) =
    some [.b0, .x, .x, .b1] := by decide +kernel

end Verif
