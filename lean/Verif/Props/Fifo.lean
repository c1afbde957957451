import Verif.Props.ArrayRuns
import Verif.Props.ExprI
import Verif.Show

/-!
# A ring buffer on a packed array (C200)

A client program: a queue kept in a packed array `logic<..>` with a run-time index for reading
(`packed_array::operator[]`) and writing (`update`), and two `logic<31, 0>` pointers that are compared
with `==` and stepped with `+`. The classic ring buffer leaves one slot free to tell a full queue from an
empty one. In this library that free slot is also what keeps the contents intact: a write clears the
lowest bit of the element after it (C78), and with one slot free that element is never live.
-/

namespace Verif

variable {w m : Nat} {s t u : Bool} {ra : Rng}

/-- the state of the client: memory, read and write pointers -/
structure Fifo (w : Nat) (s : Bool) (ra : Rng) where
  mem : PArr w s ra
  rd : Lg 32 false
  wr : Lg 32 false

namespace Fifo

/-- `p == D - 1 ? 0 : p + 1` -/
def next (ra : Rng) (p : Lg 32 false) : Res (Lg 32 false) :=
  (p.eq (Lg.ofInt ((ra.size : Int) - 1) : Lg 32 false)).bind fun e =>
  if e.toBool then .ok (Lg.ofInt 0) else p.add (Lg.ofInt 1 : Lg 32 false)

/-- `n = next(wr); if (n == rd) return false; mem.update(wr, v); wr = n; return true;` -/
def push (f : Fifo w s ra) (v : Lg w u) : Res (Fifo w s ra × Bool) :=
  (next ra f.wr).bind fun n => (n.eq f.rd).bind fun full =>
  if full.toBool then .ok (f, false)
  else (f.mem.update f.wr (Rng.down w) v).map fun y => (⟨y, f.rd, n⟩, true)

/-- `if (rd == wr) return {}; v = mem[rd]; rd = next(rd); return v;` -/
def pop (f : Fifo w s ra) : Res (Fifo w s ra × Option (Lg w false)) :=
  (f.rd.eq f.wr).bind fun empty =>
  if empty.toBool then .ok (f, none)
  else (f.mem.get f.rd).bind fun v => (next ra f.rd).map fun n => (⟨f.mem, n, f.wr⟩, some v)

/-- a request to the queue -/
inductive Op (w : Nat) (u : Bool) where
  | push (v : Lg w u)
  | pop

/-- an answer of the queue -/
inductive Out (w : Nat) (u : Bool) where
  | pushed (ok : Bool)
  | popped (v : Option (Lg w u))

/-- one request -/
def step (f : Fifo w s ra) : Op w u → Res (Fifo w s ra × Out w false)
  | .push v => (f.push v).map fun p => (p.1, .pushed p.2)
  | .pop => f.pop.map fun p => (p.1, .popped p.2)

/-- a sequence of requests -/
def run (f : Fifo w s ra) : List (Op w u) → Res (Fifo w s ra × List (Out w false))
  | [] => .ok (f, [])
  | o :: os => (f.step o).bind fun p => (run p.1 os).map fun r => (r.1, p.2 :: r.2)

/-- a freshly set up queue: both pointers zero, any memory -/
def init (mem : PArr w s ra) : Fifo w s ra := ⟨mem, Lg.ofInt 0, Lg.ofInt 0⟩

/-! ### what a bounded queue is -/

/-- the queue as a list, oldest first, holding at most `cap` values -/
def specStep (cap : Nat) (q : List (Lg w u)) : Op w u → List (Lg w u) × Out w u
  | .push v => if q.length < cap then (q ++ [v], .pushed true) else (q, .pushed false)
  | .pop => match q with
    | [] => ([], .popped none)
    | v :: q => (q, .popped (some v))

/-- a sequence of requests to the list -/
def specRun (cap : Nat) (q : List (Lg w u)) : List (Op w u) → List (Lg w u) × List (Out w u)
  | [] => (q, [])
  | o :: os => ((specRun cap (specStep cap q o).1 os).1, (specStep cap q o).2 :: (specRun cap (specStep cap q o).1 os).2)

/-- two answers agree: same flag, and popped values have the same four-state bits -/
def Agree : Out w false → Out w u → Prop
  | .pushed a, .pushed b => a = b
  | .popped none, .popped none => True
  | .popped (some z), .popped (some v) => ∀ j, j < w → z.at j = v.at j
  | _, _ => False

/-! ### pointers -/

/-- a pointer that is known and holds `i` -/
def Ptr (p : Lg 32 false) (i : Nat) : Prop := p.Known ∧ p.value.bv.toNat = i

theorem ptr_ofInt {i : Nat} (hi : i < 2 ^ 32) : Ptr (Lg.ofInt i) i := by
  refine ⟨Lg.known_zero _, ?_⟩
  show (Bits.ofInt (i : Int) : Bits 32 false).bv.toNat = i
  rw [C60_bits (by decide) (by decide), BitVec.ofInt_natCast, BitVec.toNat_ofNat, Nat.mod_eq_of_lt hi]

theorem toBool_known1 (b : Bool) : (Lg.known1 b).toBool = b := by cases b <;> decide

theorem Ptr.eq {p q : Lg 32 false} {i j : Nat} (hp : Ptr p i) (hq : Ptr q j) :
    ∃ z, p.eq q = .ok z ∧ z.toBool = decide (i = j) := by
  refine ⟨Lg.known1 (decide (i = j)), ?_, toBool_known1 _⟩
  have hc : ∀ x : Bits 32 false, x.Clean := fun x => ExI.W.clean (Or.inl (by simp [ExI.W])) x
  have e : (p.value.bv = q.value.bv) = (i = j) := by
    rw [← hp.2, ← hq.2]
    exact propext BitVec.toNat_inj.symm
  rw [Lg.eq, Lg.relWith, hp.1.anySet, hq.1.anySet, Bits.eq_clean (by decide) (by simp) (hc _) (hc _)]
  simp [e, res_map_ok]

theorem Ptr.next (h1 : 0 < ra.size) (hD : ra.size < 2 ^ 32) {p : Lg 32 false} {i : Nat} (hp : Ptr p i)
    (hi : i < ra.size) : ∃ z, Fifo.next ra p = .ok z ∧ Ptr z ((i + 1) % ra.size) := by
  have hl : Ptr (Lg.ofInt ((ra.size : Int) - 1)) (ra.size - 1) := by
    have := ptr_ofInt (i := ra.size - 1) (by omega)
    rwa [show ((ra.size - 1 : Nat) : Int) = (ra.size : Int) - 1 by omega] at this
  obtain ⟨e, he, hb⟩ := hp.eq hl
  rw [Fifo.next, he, res_bind_ok, hb]
  by_cases h : i = ra.size - 1
  · refine ⟨_, by rw [decide_eq_true h]; rfl, ?_⟩
    rw [show i + 1 = ra.size by omega, Nat.mod_self]
    exact ptr_ofInt (by decide)
  · obtain ⟨v, hv, hvb⟩ := C28_add_partial (by decide) p.value (Lg.ofInt 1 : Lg 32 false).value (by simp)
    have h1p := ptr_ofInt (i := 1) (by decide)
    refine ⟨⟨v, Bits.zero⟩, ?_, Lg.known_zero _, ?_⟩
    · rw [decide_eq_false h]
      simp only [Bool.false_eq_true, if_false]
      exact Lg.arithWith_known hp.1 h1p.1 hv
    · show v.bv.toNat = _
      have e1 : (Lg.ofInt 1 : Lg 32 false).value.bv.toNat = 1 := h1p.2
      have e2 : v.bv.toNat = (p.value.bv.toNat + (Lg.ofInt 1 : Lg 32 false).value.bv.toNat) % 2 ^ 32 := by
        rw [hvb]; exact BitVec.toNat_add _ _
      rw [e2, e1, hp.2, Nat.mod_eq_of_lt (by omega), Nat.mod_eq_of_lt (by omega)]

theorem Ptr.idx (hw0 : 0 < w) (hlo : ra.lo = 0) {p : Lg 32 false} {i : Nat} (hp : Ptr p i) (hi : i < ra.size) :
    PArr.Idx w ra p i where
  pos := by decide
  native := by decide
  clean := ExI.W.clean (Or.inl (by simp [ExI.W])) _
  known := hp.1
  num := by rw [numOf_false, hp.2, hlo]; omega
  lt := hi
  nonneg := by omega
  inside := by
    rw [hlo]
    have : ra.size * 1 ≤ ra.size * w := Nat.mul_le_mul_left _ hw0
    omega

/-! ### the invariant -/

/-- the queue `q` is what the state holds -/
structure Holds (f : Fifo w s ra) (q : List (Lg w u)) (r : Nat) : Prop where
  rlt : r < ra.size
  rd : Ptr f.rd r
  wr : Ptr f.wr ((r + q.length) % ra.size)
  len : q.length < ra.size
  elems : ∀ k (hk : k < q.length), ∀ j, j < w → Lg.at f.mem ((r + k) % ra.size * w + j) = (q[k]).at j

theorem mod_wrap {r k D : Nat} (hr : r < D) (hk : k ≤ D) :
    (r + k < D ∧ (r + k) % D = r + k) ∨ (D ≤ r + k ∧ (r + k) % D = r + k - D) := by
  by_cases h : r + k < D
  · exact Or.inl ⟨h, Nat.mod_eq_of_lt h⟩
  · refine Or.inr ⟨by omega, ?_⟩
    rw [Nat.mod_eq_sub_mod (by omega), Nat.mod_eq_of_lt (by omega)]

/-- what the array and the values need -/
structure Fits (w : Nat) (ra : Rng) : Prop where
  pos : 0 < w
  lo : ra.lo = 0
  two : 1 < ra.size
  small : ra.size * w < 2 ^ 31
  read : 64 < ra.size * w ∨ (1 < w ∧ ra.size * w < hw (ra.size * w))

theorem Fits.size (h : Fits w ra) : ra.size ≤ ra.size * w := Nat.le_mul_of_pos_right _ h.pos

theorem Fits.ne64 (h : Fits w ra) : ra.size * w ≠ 64 := by
  intro e
  have := h.read
  rw [e] at this
  have h2 : hw 64 = 64 := by decide
  omega

theorem Holds.push (hF : Fits w ra) {f : Fifo w s ra} {q : List (Lg w u)} {r : Nat} (h : Holds f q r) (v : Lg w u)
    (hv : ∀ j, 64 ≤ j → j < w → (v.at j).isKnown = true) :
    (q.length + 1 < ra.size → ∃ f', f.push v = .ok (f', true) ∧ Holds f' (q ++ [v]) r) ∧
    (¬ q.length + 1 < ra.size → f.push v = .ok (f, false)) := by
  have hsz := hF.size
  have h2 := hF.two
  have hs := hF.small
  have hl := h.len
  have hr := h.rlt
  have wl : (r + q.length) % ra.size < ra.size := Nat.mod_lt _ (by omega)
  obtain ⟨n, hn, hnp⟩ := h.wr.next (by omega) (by omega) wl
  rw [Nat.mod_add_mod] at hnp
  obtain ⟨e, he, heb⟩ := hnp.eq h.rd
  have key : (r + q.length + 1) % ra.size = r ↔ ¬ q.length + 1 < ra.size := by
    rcases mod_wrap (k := q.length + 1) hr (by omega) with ⟨a, b⟩ | ⟨a, b⟩ <;> rw [Nat.add_assoc, b] <;> omega
  constructor
  · intro hlt
    have hne : ¬ (r + q.length + 1) % ra.size = r := by rw [key]; omega
    obtain ⟨y, hy, -, hel⟩ := PArr.update_elem hF.pos hs f.mem f.wr _ (h.wr.idx hF.pos hF.lo wl) v hv (by omega)
      (Or.inr hF.ne64)
    refine ⟨⟨y, f.rd, n⟩, ?_, hr, h.rd, ?_, by simpa using hlt, ?_⟩
    · rw [Fifo.push, hn, res_bind_ok, he, res_bind_ok, heb, decide_eq_false hne]
      simp only [Bool.false_eq_true, if_false]
      rw [hy, res_map_ok]
    · simpa [Nat.add_assoc] using hnp
    · intro k hk j hj
      rw [List.length_append, List.length_singleton] at hk
      have kl : (r + k) % ra.size < ra.size := Nat.mod_lt _ (by omega)
      show Lg.at y _ = _
      rw [hel _ j kl hj]
      have m1 := mod_wrap (k := q.length) hr (by omega)
      have m2 := mod_wrap (k := k) hr (by omega)
      by_cases hkq : k = q.length
      · subst hkq
        rw [if_pos rfl]; simp
      · rw [if_neg (by omega), if_neg (by omega), h.elems k (by omega) j hj,
          List.getElem_append_left (by omega)]
  · intro hge
    rw [Fifo.push, hn, res_bind_ok, he, res_bind_ok, heb, decide_eq_true (key.2 hge)]
    rfl

theorem Holds.pop (hF : Fits w ra) {f : Fifo w s ra} {q : List (Lg w u)} {r : Nat} (h : Holds f q r) :
    (q = [] → f.pop = .ok (f, none)) ∧
    (∀ v q', q = v :: q' → ∃ f' z r', f.pop = .ok (f', some z) ∧ Holds f' q' r' ∧ ∀ j, j < w → z.at j = v.at j) := by
  have hsz := hF.size
  have h2 := hF.two
  have hs := hF.small
  have hl := h.len
  have hr := h.rlt
  obtain ⟨e, he, heb⟩ := h.rd.eq h.wr
  constructor
  · rintro rfl
    rw [Fifo.pop, he, res_bind_ok, heb, decide_eq_true (by simpa using (Nat.mod_eq_of_lt hr).symm)]
    rfl
  · rintro v q' rfl
    rw [List.length_cons] at hl
    have hne : ¬ r = (r + (v :: q').length) % ra.size := by
      rw [List.length_cons]
      rcases mod_wrap (k := q'.length + 1) hr (by omega) with ⟨a, b⟩ | ⟨a, b⟩ <;> rw [b] <;> omega
    have hle : (r + 1) * w ≤ ra.size * w := Nat.mul_le_mul_right w hr
    obtain ⟨z, hz, hzv⟩ := C78_read_partial hF.pos hs f.mem f.rd r (h.rd.idx hF.pos hF.lo hr)
      (hF.read.imp id fun a => ⟨a.1, by omega⟩)
    obtain ⟨n, hn, hnp⟩ := h.rd.next (by omega) (by omega) hr
    refine ⟨⟨f.mem, n, f.wr⟩, z, (r + 1) % ra.size, ?_, ⟨Nat.mod_lt _ (by omega), hnp, ?_, by omega, ?_⟩, ?_⟩
    · rw [Fifo.pop, he, res_bind_ok, heb, decide_eq_false hne]
      simp only [Bool.false_eq_true, if_false]
      rw [hz, res_bind_ok, hn, res_map_ok]
    · have := h.wr
      rw [List.length_cons] at this
      rwa [Nat.mod_add_mod, show r + 1 + q'.length = r + (q'.length + 1) by omega]
    · intro k hk j hj
      have := h.elems (k + 1) (by simpa using hk) j hj
      rw [Nat.mod_add_mod, show r + 1 + k = r + (k + 1) by omega]
      simpa using this
    · intro j hj
      rw [hzv j hj]
      have := h.elems 0 (by simp) j hj
      simpa [Nat.mod_eq_of_lt hr] using this

theorem Holds.run (hF : Fits w ra) : ∀ (os : List (Op w u)) (f : Fifo w s ra) (q : List (Lg w u)) (r : Nat), Holds f q r →
    (∀ v, Op.push v ∈ os → ∀ j, 64 ≤ j → j < w → (v.at j).isKnown = true) →
    ∃ f' outs, f.run os = .ok (f', outs) ∧ List.Forall₂ Agree outs (specRun (ra.size - 1) q os).2 ∧
      ∃ r', Holds f' (specRun (ra.size - 1) q os).1 r'
  | [], f, q, r, h, _ => ⟨f, [], rfl, .nil, r, h⟩
  | .push v :: os, f, q, r, h, hv => by
    have hp := h.push hF v (hv v (by simp))
    have hv' : ∀ v, Op.push v ∈ os → ∀ j, 64 ≤ j → j < w → (v.at j).isKnown = true := fun v hm => hv v (by simp [hm])
    by_cases hl : q.length + 1 < ra.size
    · obtain ⟨f1, hf1, hh⟩ := hp.1 hl
      obtain ⟨f', outs, hr, ha, r', hr'⟩ := Holds.run hF os f1 _ r hh hv'
      have e : specStep (ra.size - 1) q (.push v) = (q ++ [v], .pushed true) := if_pos (by omega)
      refine ⟨f', .pushed true :: outs, ?_, ?_, r', ?_⟩
      · rw [Fifo.run, step, hf1, res_map_ok, res_bind_ok]; simp only []; rw [hr, res_map_ok]
      · rw [specRun, e]; exact .cons rfl ha
      · rw [specRun, e]; exact hr'
    · obtain ⟨f', outs, hr, ha, r', hr'⟩ := Holds.run hF os f _ r h hv'
      have e : specStep (ra.size - 1) q (.push v) = (q, .pushed false) := if_neg (by omega)
      refine ⟨f', .pushed false :: outs, ?_, ?_, r', ?_⟩
      · rw [Fifo.run, step, hp.2 hl, res_map_ok, res_bind_ok]; simp only []; rw [hr, res_map_ok]
      · rw [specRun, e]; exact .cons rfl ha
      · rw [specRun, e]; exact hr'
  | .pop :: os, f, q, r, h, hv => by
    have hp := h.pop hF
    have hv' : ∀ v, Op.push v ∈ os → ∀ j, 64 ≤ j → j < w → (v.at j).isKnown = true := fun v hm => hv v (by simp [hm])
    cases q with
    | nil =>
      obtain ⟨f', outs, hr, ha, r', hr'⟩ := Holds.run hF os f _ r h hv'
      refine ⟨f', .popped none :: outs, ?_, ?_, r', hr'⟩
      · rw [Fifo.run, step, hp.1 rfl, res_map_ok, res_bind_ok]; simp only []; rw [hr, res_map_ok]
      · exact .cons trivial ha
    | cons v q =>
      obtain ⟨f1, z, r1, hf1, hh, hz⟩ := hp.2 v q rfl
      obtain ⟨f', outs, hr, ha, r', hr'⟩ := Holds.run hF os f1 _ r1 hh hv'
      refine ⟨f', .popped (some z) :: outs, ?_, ?_, r', hr'⟩
      · rw [Fifo.run, step, hf1, res_map_ok, res_bind_ok]; simp only []; rw [hr, res_map_ok]
      · exact .cons hz ha

end Fifo

open Fifo

/-- **C200**: a ring buffer in a packed array that leaves one slot free is a first-in first-out queue of
`D - 1` values, whatever the sequence of requests, however the pointers wrap, and whatever four-state values
are queued. Partial: the array must not be indexed from a base other than zero, its last element must be
readable (wider than 64 bits in total, or elements of two bits or more with spare bits in the storage word),
and values wider than 64 bits must be known at positions 64 and up. Missing: those arrays and values, and a
queue that uses every slot, for which it is false (`C200_full_refuted`). -/
theorem C200_queue_partial (hw0 : 0 < w) (hlo : ra.lo = 0) (hD : 1 < ra.size) (hb : ra.size * w < 2 ^ 31)
    (hread : 64 < ra.size * w ∨ (1 < w ∧ ra.size * w < hw (ra.size * w))) (mem : PArr w s ra) (os : List (Op w u))
    (hv : ∀ v, Op.push v ∈ os → ∀ j, 64 ≤ j → j < w → (v.at j).isKnown = true) :
    ∃ f' outs, (Fifo.init mem).run os = .ok (f', outs) ∧
      List.Forall₂ Fifo.Agree outs (specRun (ra.size - 1) [] os).2 := by
  have h0 : Holds (Fifo.init mem) ([] : List (Lg w u)) 0 :=
    ⟨by omega, ptr_ofInt (i := 0) (by decide), by simpa using (show Ptr (Fifo.init mem).wr 0 from ptr_ofInt (i := 0) (by decide)), by simpa using by omega,
      fun k hk => absurd hk (by simp)⟩
  obtain ⟨f', outs, hr, ha, -⟩ := Holds.run ⟨hw0, hlo, hD, hb, hread⟩ os _ _ _ h0 hv
  exact ⟨f', outs, hr, ha⟩

/-- a three-slot queue of nibbles -/
abbrev exRa : Rng := Rng.down 3

/-- the hypotheses are met by a queue of 4-bit values in three slots (12 bits in a 16-bit word) -/
example : 0 < 4 ∧ exRa.lo = 0 ∧ 1 < exRa.size ∧ exRa.size * 4 < 2 ^ 31 ∧
    (64 < exRa.size * 4 ∨ (1 < 4 ∧ exRa.size * 4 < hw (exRa.size * 4))) := by decide +kernel

/-- an answer as text-free data: the flag, or the popped value and its unknown mask -/
def Fifo.Out.view : Out w u → Bool ⊕ Option (Nat × Nat)
  | .pushed b => .inl b
  | .popped v => .inr (v.map fun z => (z.value.bv.toNat, z.xz.bv.toNat))

/-- three pushes (the third refused), a pop, a push that wraps, then the queue is drained; `0b1x01` is kept -/
example : ((Fifo.init (Lg.ofInt 0 : PArr 4 false exRa)).run (u := false)
      [.push (Lg.ofInt 9), .push ⟨Bits.ofInt 9, Bits.ofInt 4⟩, .push (Lg.ofInt 3), .pop, .push (Lg.ofInt 15), .pop, .pop, .pop]).map
      (fun p => p.2.map Fifo.Out.view) =
    .ok [.inl true, .inl true, .inl false, .inr (some (9, 0)), .inl true, .inr (some (9, 4)), .inr (some (15, 0)),
      .inr none] := by decide +kernel

/-! ### using every slot -/

/-- the client that counts its values instead, so that all slots can be used:
`if (cnt == D) return false; mem.update(wr, v); wr = next(wr); cnt = cnt + 1;` -/
def Fifo.pushAll (f : Fifo w s ra) (cnt : Nat) (v : Lg w u) : Res (Fifo w s ra × Nat × Bool) :=
  if cnt = ra.size then .ok (f, cnt, false)
  else (f.mem.update f.wr (Rng.down w) v).bind fun y => (next ra f.wr).map fun n => (⟨y, f.rd, n⟩, cnt + 1, true)

/-- **C200 refuted with every slot in use**: when the push that fills the last free slot writes slot `i`,
the oldest value sits in slot `i + 1`; the push is accepted and the oldest value is then read back
with its lowest bit cleared, whatever was pushed. -/
theorem C200_full_refuted (hw0 : 0 < w) (hlo : ra.lo = 0) (hb : ra.size * w < 2 ^ 31)
    (hread : 64 < ra.size * w ∨ (1 < w ∧ ra.size * w < hw (ra.size * w))) (f : Fifo w s ra) (i : Nat)
    (hi : i + 1 < ra.size) (hr : Ptr f.rd (i + 1)) (hwr : Ptr f.wr i) (v : Lg w u)
    (hv : ∀ j, 64 ≤ j → j < w → (v.at j).isKnown = true) :
    (∃ z, f.mem.get f.rd = .ok z ∧ ∀ j, j < w → z.at j = Lg.at f.mem ((i + 1) * w + j)) ∧
    ∃ f' z, f.pushAll (ra.size - 1) v = .ok (f', ra.size, true) ∧ f'.rd = f.rd ∧ f'.mem.get f'.rd = .ok z ∧
      z.at 0 = .b0 ∧ ∀ j, 0 < j → j < w → z.at j = Lg.at f.mem ((i + 1) * w + j) := by
  have hF : Fits w ra := ⟨hw0, hlo, by omega, hb, hread⟩
  have hsz := hF.size
  have hle : (i + 1 + 1) * w ≤ ra.size * w := Nat.mul_le_mul_right w hi
  have hrd : 64 < ra.size * w ∨ (1 < w ∧ (i + 1 + 1) * w < hw (ra.size * w)) := hread.imp id fun a => ⟨a.1, by omega⟩
  refine ⟨C78_read_partial hw0 hb f.mem f.rd (i + 1) (hr.idx hw0 hlo hi) hrd, ?_⟩
  obtain ⟨y, hy, -, hel⟩ := PArr.update_elem hw0 hb f.mem f.wr i (hwr.idx hw0 hlo (by omega)) v hv (by omega)
    (Or.inl hi)
  obtain ⟨n, hn, -⟩ := hwr.next (by omega) (by omega) (show i < ra.size by omega)
  obtain ⟨z, hz, hzv⟩ := C78_read_partial hw0 hb y f.rd (i + 1) (hr.idx hw0 hlo hi) hrd
  refine ⟨⟨y, f.rd, n⟩, z, ?_, rfl, hz, ?_, fun j h0 hj => ?_⟩
  · rw [Fifo.pushAll, if_neg (by omega), hy, res_bind_ok, hn, res_map_ok]
    rw [show ra.size - 1 + 1 = ra.size by omega]
  · rw [hzv 0 hw0, hel _ 0 hi hw0, if_neg (by omega), if_pos ⟨rfl, rfl⟩]
  · rw [hzv j hj, hel _ j hi hj, if_neg (by omega), if_neg (by omega)]

/-- the hypotheses are met: slots 1 and 2 hold 9 and 7, the push of 15 goes to slot 0 and 9 becomes 8 -/
example : ((⟨Lg.ofInt 0x790, Lg.ofInt 1, Lg.ofInt 0⟩ : Fifo 4 false exRa).pushAll 2 (Lg.ofInt 15 : Lg 4 false)).bind
      (fun p => (p.1.mem.get p.1.rd).map fun z => (p.2.1, p.2.2, z.value.bv.toNat)) = .ok (3, true, 8) := by decide +kernel

end Verif
