import Verif.Props.Array2
import Verif.Props.XSound

/-!
# Sequences of writes to packed arrays

Client code that writes a packed array many times: any list of `update(i, v)`, filling an array
in a loop, upwards and downwards, and copying one array into another. The loops are client code;
the functions that they call are the models of `array.hh` 79-117.
-/

namespace Verif

variable {w m k : Nat} {s t u : Bool} {ra : Rng}

/-- bit `j` of element `i` does not move when the element does -/
theorem elem_pos {w i p j : Nat} (hj : j < w) :
    (p * w ≤ i * w + j ∧ i * w + j < (p + 1) * w ↔ p = i) ∧ (i * w + j = (p + 1) * w ↔ p + 1 = i ∧ j = 0) := by
  have e1 : (p + 1) * w = p * w + w := by ring
  rcases Nat.lt_trichotomy p i with h | h | h
  · have : (p + 1) * w ≤ i * w := Nat.mul_le_mul_right w h
    refine ⟨⟨fun _ => by omega, fun _ => by omega⟩, ?_⟩
    constructor
    · intro e
      have : i * w = (p + 1) * w := by omega
      exact ⟨(Nat.eq_of_mul_eq_mul_right (by omega) this).symm, by omega⟩
    · rintro ⟨rfl, rfl⟩; rfl
  · subst h
    refine ⟨⟨fun _ => rfl, fun _ => by omega⟩, ⟨fun _ => by omega, fun _ => by omega⟩⟩
  · have : (i + 1) * w ≤ p * w := Nat.mul_le_mul_right w h
    have e2 : (i + 1) * w = i * w + w := by ring
    refine ⟨⟨fun _ => by omega, fun _ => by omega⟩, ⟨fun _ => by omega, fun _ => by omega⟩⟩

/-- one write, element by element -/
theorem PArr.update_elem (hw0 : 0 < w) (hb : ra.size * w < 2 ^ 31) (x : PArr w s ra) (op : Lg m t) (i : Nat)
    (hI : PArr.Idx w ra op i) (v : Lg w u) (hv : ∀ j, 64 ≤ j → j < w → (v.at j).isKnown = true)
    (h1 : 1 < ra.size * w) (h64 : i + 1 < ra.size ∨ ra.size * w ≠ 64) :
    ∃ y, x.update op (Rng.down w) v = .ok y ∧ (s = false → x.Clean → y.Clean) ∧
      ∀ e j, e < ra.size → j < w → Lg.at y (e * w + j) =
        if i = e then v.at j else if i + 1 = e ∧ j = 0 then .b0 else x.at (e * w + j) := by
  obtain ⟨y, hy, hr, hc⟩ := C78_update_exact hw0 hb x op i hI v hv h1 h64
  refine ⟨y, hy, hc, fun e j he hj => ?_⟩
  have hle : (e + 1) * w ≤ ra.size * w := Nat.mul_le_mul_right w he
  have e2 : (e + 1) * w = e * w + w := by ring
  rw [hr _ (by omega)]
  simp only [(elem_pos hj).1, (elem_pos hj).2]
  by_cases h : i = e
  · subst h; rw [if_pos rfl, if_pos rfl]; congr 1; omega
  · rw [if_neg h, if_neg h]

theorem PArr2.update_elem (hw0 : 0 < w) (hb : ra.size * w < 2 ^ 31) (x : PArr2 w s ra) (op : Lg m t) (i : Nat)
    (hI : PArr.Idx w ra op i) (v : Bits w u) (hv : v.Clean) (hw : w ≠ 32 ∧ w ≠ 64) (h1 : 1 < ra.size * w)
    (h64 : i + 1 < ra.size ∨ ra.size * w ≠ 64) :
    ∃ y, x.update op (Rng.down w) v = .ok y ∧
      ∀ e j, e < ra.size → j < w → (Bits.bv y).getLsbD (e * w + j) =
        if i = e then v.bv.getLsbD j
        else if i + 1 = e ∧ j = 0 then decide (w ≤ 64 ∧ numOf u v.bv < 0) else x.bv.getLsbD (e * w + j) := by
  obtain ⟨y, hy, hr, -⟩ := C103_update_exact hw0 hb x op i hI v hv hw h1 h64
  refine ⟨y, hy, fun e j he hj => ?_⟩
  have hle : (e + 1) * w ≤ ra.size * w := Nat.mul_le_mul_right w he
  have e2 : (e + 1) * w = e * w + w := by ring
  rw [hr _ (by omega)]
  simp only [(elem_pos hj).1, (elem_pos hj).2]
  by_cases h : i = e
  · subst h; rw [if_pos rfl, if_pos rfl]; congr 1; omega
  · rw [if_neg h, if_neg h]

/-! ## C153: any sequence of writes -/

/-- `x.update(op1, v1); x.update(op2, v2); ...` -/
def PArr.writeAll (x : PArr w s ra) : List (Lg m t × Lg w u) → Res (PArr w s ra)
  | [] => .ok x
  | p :: ws => (x.update p.1 (Rng.down w) p.2).bind fun y => PArr.writeAll y ws

/-- what one is entitled to assume of a write: the index is an element of the array, an element
wider than 64 bits has no x or z above, and the last element of a 64-bit array is not written
(`C78_refuted`) -/
def PArr.WriteOk (w : Nat) (ra : Rng) (ix : Lg m t → Nat) (p : Lg m t × Lg w u) : Prop :=
  PArr.Idx w ra p.1 (ix p.1) ∧ (∀ j, 64 ≤ j → j < w → (p.2.at j).isKnown = true) ∧
    (ix p.1 + 1 < ra.size ∨ ra.size * w ≠ 64)

/-- **C153, exactly.** After any sequence of writes, bit `j` of element `i` is that of the last
write that concerned it; a write concerns its element and the lowest bit of the next one, which it
clears. -/
theorem C153_runs_exact (hw0 : 0 < w) (hb : ra.size * w < 2 ^ 31) (h1 : 1 < ra.size * w)
    (x : PArr w s ra) (ix : Lg m t → Nat) (ws : List (Lg m t × Lg w u)) (hok : ∀ p ∈ ws, PArr.WriteOk w ra ix p) :
    ∃ y, x.writeAll ws = .ok y ∧ (s = false → x.Clean → y.Clean) ∧
      ∀ i j, i < ra.size → j < w → Lg.at y (i * w + j) =
        match ws.reverse.find? fun p => decide (ix p.1 = i ∨ ix p.1 + 1 = i ∧ j = 0) with
        | some p => if ix p.1 = i then p.2.at j else .b0
        | none => x.at (i * w + j) := by
  induction ws generalizing x with
  | nil => exact ⟨x, rfl, fun _ h => h, fun i j _ _ => rfl⟩
  | cons p ws ih =>
    obtain ⟨hI, hv, h64⟩ := hok p (by simp)
    obtain ⟨z, hz, hc, hr⟩ := PArr.update_elem hw0 hb x p.1 _ hI p.2 hv h1 h64
    obtain ⟨y, hy, hcy, hry⟩ := ih z fun q hq => hok q (by simp [hq])
    refine ⟨y, ?_, fun hs hx => hcy hs (hc hs hx), fun i j hi hj => ?_⟩
    · rw [PArr.writeAll, hz, res_bind_ok]; exact hy
    · rw [hry i j hi hj, List.reverse_cons, List.find?_append]
      cases List.find? (fun p => decide (ix p.1 = i ∨ ix p.1 + 1 = i ∧ j = 0)) ws.reverse with
      | some q => rfl
      | none =>
        simp only [Option.none_or, List.find?_cons, List.find?_nil]
        rw [hr i j hi hj]
        by_cases ha : ix p.1 = i
        · simp [ha]
        · by_cases hb' : ix p.1 + 1 = i ∧ j = 0 <;> simp [ha, hb']

/-- the last write to an element is what it holds, but for the lowest bit -/
theorem PArr.last_write (hw0 : 0 < w) (hb : ra.size * w < 2 ^ 31) (h1 : 1 < ra.size * w)
    (x : PArr w s ra) (ix : Lg m t → Nat) (pre post : List (Lg m t × Lg w u)) (q : Lg m t × Lg w u)
    (hok : ∀ p ∈ pre ++ q :: post, PArr.WriteOk w ra ix p) (hlast : ∀ p ∈ post, ix p.1 ≠ ix q.1) :
    ∃ y, x.writeAll (pre ++ q :: post) = .ok y ∧
      ∀ j, j < w → Lg.at y (ix q.1 * w + j) =
        if j = 0 ∧ ∃ p ∈ post, ix p.1 + 1 = ix q.1 then .b0 else q.2.at j := by
  obtain ⟨y, hy, -, hr⟩ := C153_runs_exact hw0 hb h1 x ix _ hok
  refine ⟨y, hy, fun j hj => ?_⟩
  rw [hr _ j (hok q (by simp)).1.lt hj, List.reverse_append, List.reverse_cons, List.append_assoc, List.find?_append]
  by_cases h : j = 0 ∧ ∃ p ∈ post, ix p.1 + 1 = ix q.1
  · rw [if_pos h]
    obtain ⟨h0, p, hp, hpi⟩ := h
    cases hf : List.find? (fun p => decide (ix p.1 = ix q.1 ∨ ix p.1 + 1 = ix q.1 ∧ j = 0)) post.reverse with
    | some r =>
      have := List.mem_of_find?_eq_some hf
      simp only [Option.some_or]
      rw [if_neg (hlast r (by simpa using this))]
    | none =>
      have := List.find?_eq_none.1 hf p (by simpa using hp)
      simp [hpi, h0] at this
  · rw [if_neg h]
    have hf : List.find? (fun p => decide (ix p.1 = ix q.1 ∨ ix p.1 + 1 = ix q.1 ∧ j = 0)) post.reverse = none := by
      rw [List.find?_eq_none]
      intro p hp
      have hp' : p ∈ post := by simpa using hp
      simp only [decide_eq_true_eq, not_or, not_and]
      exact ⟨hlast p hp', fun e h0 => h ⟨h0, p, hp', e⟩⟩
    rw [hf]
    simp

/-- **C153, partial.** The last value written to an element is what it holds, if the element
below is not written after it. Missing: elements whose lower neighbour is written later
(`C153_last_iff`, `C153_refuted`), and 2-state elements (`C153_2state_exact`). -/
theorem C153_last_partial (hw0 : 0 < w) (hb : ra.size * w < 2 ^ 31) (h1 : 1 < ra.size * w)
    (x : PArr w s ra) (ix : Lg m t → Nat) (pre post : List (Lg m t × Lg w u)) (q : Lg m t × Lg w u)
    (hok : ∀ p ∈ pre ++ q :: post, PArr.WriteOk w ra ix p) (hlast : ∀ p ∈ post, ix p.1 ≠ ix q.1)
    (hbelow : ∀ p ∈ post, ix p.1 + 1 ≠ ix q.1) :
    ∃ y, x.writeAll (pre ++ q :: post) = .ok y ∧ ∀ j, j < w → Lg.at y (ix q.1 * w + j) = q.2.at j := by
  obtain ⟨y, hy, hr⟩ := PArr.last_write hw0 hb h1 x ix pre post q hok hlast
  refine ⟨y, hy, fun j hj => ?_⟩
  rw [hr j hj, if_neg]
  rintro ⟨-, p, hp, e⟩; exact hbelow p hp e

/-- **C153, the last write, exactly.** The last value written to an element is what it holds at
the end if and only if its lowest bit is 0 or the element below is not written after it. -/
theorem C153_last_iff (hw0 : 0 < w) (hb : ra.size * w < 2 ^ 31) (h1 : 1 < ra.size * w)
    (x : PArr w s ra) (ix : Lg m t → Nat) (pre post : List (Lg m t × Lg w u)) (q : Lg m t × Lg w u)
    (hok : ∀ p ∈ pre ++ q :: post, PArr.WriteOk w ra ix p) (hlast : ∀ p ∈ post, ix p.1 ≠ ix q.1) :
    ∃ y, x.writeAll (pre ++ q :: post) = .ok y ∧
      ((∀ j, j < w → Lg.at y (ix q.1 * w + j) = q.2.at j) ↔
        q.2.at 0 = .b0 ∨ ∀ p ∈ post, ix p.1 + 1 ≠ ix q.1) := by
  obtain ⟨y, hy, hr⟩ := PArr.last_write hw0 hb h1 x ix pre post q hok hlast
  refine ⟨y, hy, ?_⟩
  constructor
  · intro h
    by_cases hp : ∃ p ∈ post, ix p.1 + 1 = ix q.1
    · left
      rw [← h 0 hw0, hr 0 hw0, if_pos ⟨rfl, hp⟩]
    · right
      intro p hm e; exact hp ⟨p, hm, e⟩
  · intro h j hj
    rw [hr j hj]
    split
    · rename_i hc
      rcases h with h | h
      · rw [hc.1, h]
      · obtain ⟨-, p, hp, e⟩ := hc
        exact absurd e (h p hp)
    · rfl

/-- **C153, refuted.** In every array, element 1 written with ones and then element 0 with anything
leaves element 1 with the lowest bit 0. -/
theorem C153_refuted (hw0 : 0 < w) (hb : ra.size * w < 2 ^ 31) (h2 : 2 < ra.size)
    (x : PArr w s ra) (op0 op1 : Lg m t) (hI0 : PArr.Idx w ra op0 0) (hI1 : PArr.Idx w ra op1 1)
    (v : Lg w false) (hv : ∀ j, 64 ≤ j → j < w → (v.at j).isKnown = true) :
    ∃ (o : Lg w false) (y : PArr w s ra), (∀ j, j < w → o.at j = .b1) ∧
      x.writeAll [(op1, o), (op0, v)] = .ok y ∧ Lg.at y w = .b0 := by
  have h1 : 1 < ra.size * w := by nlinarith
  obtain ⟨o, -, ho⟩ := Lg.exists_at (n := w) (s := false) fun _ => V4.b1
  have n0 : numOf t op0.value.bv = ra.lo := by simpa using hI0.num
  have n1 : numOf t op1.value.bv = ra.lo + 1 := by simpa using hI1.num
  have i0 : (numOf t op0.value.bv - ra.lo).toNat = 0 := by rw [n0]; simp
  have i1 : (numOf t op1.value.bv - ra.lo).toNat = 1 := by rw [n1]; simp
  obtain ⟨y, hy, hr⟩ := PArr.last_write hw0 hb h1 x (fun o => (numOf t o.value.bv - ra.lo).toNat) []
    [(op0, v)] (op1, o) (by
      intro p hp
      rcases List.mem_cons.1 hp with rfl | hp
      · exact ⟨by simp only [i1]; exact hI1, fun j _ hj => by rw [ho j hj]; rfl, Or.inl (by simp only [i1]; omega)⟩
      · rw [List.mem_singleton.1 hp]
        exact ⟨by simp only [i0]; exact hI0, hv, Or.inl (by simp only [i0]; omega)⟩)
    (by intro p hp; rw [List.mem_singleton.1 hp]; simp only [i0, i1]; decide)
  refine ⟨o, y, ho, hy, ?_⟩
  have := hr 0 hw0
  simp only [i1] at this
  simpa [n0] using this

/-- `x.update(op1, v1); x.update(op2, v2); ...` on an array of 2-state elements -/
def PArr2.writeAll (x : PArr2 w s ra) : List (Lg m t × Bits w u) → Res (PArr2 w s ra)
  | [] => .ok x
  | p :: ws => (x.update p.1 (Rng.down w) p.2).bind fun y => PArr2.writeAll y ws

/-- **C153, 2-state, exactly.** The same for elements of `bit` of a width other than 32 and 64,
but the lowest bit of the next element receives the sign of the value. -/
theorem C153_2state_exact (hw0 : 0 < w) (hb : ra.size * w < 2 ^ 31) (h1 : 1 < ra.size * w) (hw : w ≠ 32 ∧ w ≠ 64)
    (x : PArr2 w s ra) (ix : Lg m t → Nat) (ws : List (Lg m t × Bits w u))
    (hok : ∀ p ∈ ws, PArr.Idx w ra p.1 (ix p.1) ∧ p.2.Clean ∧ (ix p.1 + 1 < ra.size ∨ ra.size * w ≠ 64)) :
    ∃ y, x.writeAll ws = .ok y ∧
      ∀ i j, i < ra.size → j < w → (Bits.bv y).getLsbD (i * w + j) =
        match ws.reverse.find? fun p => decide (ix p.1 = i ∨ ix p.1 + 1 = i ∧ j = 0) with
        | some p => if ix p.1 = i then p.2.bv.getLsbD j else decide (w ≤ 64 ∧ numOf u p.2.bv < 0)
        | none => x.bv.getLsbD (i * w + j) := by
  induction ws generalizing x with
  | nil => exact ⟨x, rfl, fun i j _ _ => rfl⟩
  | cons p ws ih =>
    obtain ⟨hI, hv, h64⟩ := hok p (by simp)
    obtain ⟨z, hz, hr⟩ := PArr2.update_elem hw0 hb x p.1 _ hI p.2 hv hw h1 h64
    obtain ⟨y, hy, hry⟩ := ih z fun q hq => hok q (by simp [hq])
    refine ⟨y, ?_, fun i j hi hj => ?_⟩
    · rw [PArr2.writeAll, hz, res_bind_ok]; exact hy
    · rw [hry i j hi hj, List.reverse_cons, List.find?_append]
      cases List.find? (fun p => decide (ix p.1 = i ∨ ix p.1 + 1 = i ∧ j = 0)) ws.reverse with
      | some q => rfl
      | none =>
        simp only [Option.none_or, List.find?_cons, List.find?_nil]
        rw [hr i j hi hj]
        by_cases ha : ix p.1 = i
        · simp [ha]
        · by_cases hb' : ix p.1 + 1 = i ∧ j = 0 <;> simp [ha, hb']

/-! ## C154: loops over an array -/

/-- `for (i = 0; i < size; i++) x.update(op(i), v(i))` -/
def PArr.fillUp (x : PArr w s ra) (op : Nat → Lg m t) (v : Nat → Lg w u) : Res (PArr w s ra) :=
  loopM 0 ra.size x fun i x => x.update (op i) (Rng.down w) (v i)

/-- `for (i = size - 1; i >= 0; i--) x.update(op(i), v(i))` -/
def PArr.fillDown (x : PArr w s ra) (op : Nat → Lg m t) (v : Nat → Lg w u) : Res (PArr w s ra) :=
  loopM 0 ra.size x fun i x => x.update (op (ra.size - 1 - i)) (Rng.down w) (v (ra.size - 1 - i))

/-- `for (i = 0; i < size; i++) x.update(op(i), y[op(i)])` -/
def PArr.copyUp (x : PArr w s ra) (y : PArr w u ra) (op : Nat → Lg m t) : Res (PArr w s ra) :=
  loopM 0 ra.size x fun i x => (PArr.get y (op i)).bind fun e => x.update (op i) (Rng.down w) e

/-- **C154, upwards**: every element holds its value, whatever the array held before. -/
theorem C154_fill_up (hw0 : 0 < w) (hb : ra.size * w < 2 ^ 31) (h1 : 1 < ra.size * w) (h64 : ra.size * w ≠ 64)
    (x : PArr w s ra) (op : Nat → Lg m t) (hop : ∀ i, i < ra.size → PArr.Idx w ra (op i) i) (v : Nat → Lg w u)
    (hv : ∀ i j, i < ra.size → 64 ≤ j → j < w → ((v i).at j).isKnown = true) :
    ∃ y, x.fillUp op v = .ok y ∧ ∀ i j, i < ra.size → j < w → Lg.at y (i * w + j) = (v i).at j := by
  obtain ⟨y, hy, h⟩ : ∃ y, x.fillUp op v = .ok y ∧ _ := loopM_induct 0 ra.size x _
    (fun k (y : PArr w s ra) => ∀ i j, i < k → i < ra.size → j < w → Lg.at y (i * w + j) = (v i).at j)
    (Nat.zero_le _) (by simp)
    (by
      rintro i q - hi h
      obtain ⟨z, hz, -, hr⟩ := PArr.update_elem hw0 hb q (op i) i (hop i hi) (v i) (hv i · hi) h1 (Or.inr h64)
      refine ⟨z, hz, fun e j he he' hj => ?_⟩
      rw [hr e j he' hj]
      by_cases c : i = e
      · rw [if_pos c, c]
      · rw [if_neg c, if_neg (by omega), h e j (by omega) he' hj])
  exact ⟨y, hy, fun i j hi hj => h i j hi hi hj⟩

/-- **C154, downwards, exactly**: every element but the first loses its lowest bit. -/
theorem C154_fill_down_exact (hw0 : 0 < w) (hb : ra.size * w < 2 ^ 31) (h1 : 1 < ra.size * w) (h64 : ra.size * w ≠ 64)
    (x : PArr w s ra) (op : Nat → Lg m t) (hop : ∀ i, i < ra.size → PArr.Idx w ra (op i) i) (v : Nat → Lg w u)
    (hv : ∀ i j, i < ra.size → 64 ≤ j → j < w → ((v i).at j).isKnown = true) :
    ∃ y, x.fillDown op v = .ok y ∧ ∀ i j, i < ra.size → j < w →
      Lg.at y (i * w + j) = if 0 < i ∧ j = 0 then .b0 else (v i).at j := by
  obtain ⟨y, hy, h⟩ : ∃ y, x.fillDown op v = .ok y ∧ _ := loopM_induct 0 ra.size x _
    (fun k (y : PArr w s ra) => ∀ i j, ra.size ≤ i + k → i < ra.size → j < w →
      Lg.at y (i * w + j) = if ra.size < i + k ∧ j = 0 then .b0 else (v i).at j)
    (Nat.zero_le _) (by intro i j h1 h2; omega)
    (by
      rintro k q - hk h
      have hi : ra.size - 1 - k < ra.size := by omega
      obtain ⟨z, hz, -, hr⟩ := PArr.update_elem hw0 hb q _ _ (hop _ hi) (v (ra.size - 1 - k)) (hv _ · hi) h1 (Or.inr h64)
      refine ⟨z, hz, fun e j he he' hj => ?_⟩
      rw [hr e j he' hj]
      by_cases c : ra.size - 1 - k = e
      · rw [if_pos c, if_neg (by omega), c]
      · rw [if_neg c, h e j (by omega) he' hj]
        by_cases c2 : j = 0
        · subst c2
          by_cases c3 : ra.size - 1 - k + 1 = e
          · rw [if_pos ⟨c3, rfl⟩, if_pos ⟨by omega, rfl⟩]
          · rw [if_neg (by omega), if_pos ⟨by omega, rfl⟩, if_pos ⟨by omega, rfl⟩]
        · rw [if_neg (by omega), if_neg (by omega), if_neg (by omega)])
  refine ⟨y, hy, fun i j hi hj => ?_⟩
  rw [h i j (by omega) hi hj]
  by_cases c : 0 < i ∧ j = 0
  · rw [if_pos c, if_pos ⟨by omega, c.2⟩]
  · rw [if_neg c, if_neg (by omega)]

/-- **C154, refuted.** In every array of two elements or more there are values that the downward
loop does not leave in the array. -/
theorem C154_refuted (hw0 : 0 < w) (hb : ra.size * w < 2 ^ 31) (h2 : 1 < ra.size) (h64 : ra.size * w ≠ 64)
    (x : PArr w s ra) (op : Nat → Lg m t) (hop : ∀ i, i < ra.size → PArr.Idx w ra (op i) i) :
    ∃ (v : Nat → Lg w false) (y : PArr w s ra), x.fillDown op v = .ok y ∧ (v 1).at 0 = .b1 ∧ Lg.at y w = .b0 := by
  have h1 : 1 < ra.size * w := by nlinarith
  obtain ⟨o, -, ho⟩ := Lg.exists_at (n := w) (s := false) fun _ => V4.b1
  obtain ⟨y, hy, hr⟩ := C154_fill_down_exact hw0 hb h1 h64 x op hop (fun _ => o)
    (fun i j _ _ hj => by rw [ho j hj]; rfl)
  refine ⟨fun _ => o, y, hy, ho 0 hw0, ?_⟩
  have := hr 1 0 h2 hw0
  simpa using this

/-- **C154, copying.** Copying element by element copies every bit, to an array of either
signedness and with any content, if elements can be read at all (`C78_read_partial`). Missing:
arrays whose last element cannot be read (`C78_refuted`); the downward loop is
`C154_fill_down_exact`. -/
theorem C154_copy_partial (hw0 : 0 < w) (hb : ra.size * w < 2 ^ 31)
    (hr : 64 < ra.size * w ∨ (1 < w ∧ ra.size * w < hw (ra.size * w)))
    (x : PArr w s ra) (y : PArr w u ra) (op : Nat → Lg m t) (hop : ∀ i, i < ra.size → PArr.Idx w ra (op i) i)
    (hv : ∀ i j, i < ra.size → 64 ≤ j → j < w → (y.at (i * w + j)).isKnown = true) :
    ∃ z, x.copyUp y op = .ok z ∧ ∀ p, p < ra.size * w → Lg.at z p = y.at p := by
  have h1 : 1 < ra.size * w := by
    rcases hr with h | ⟨h, -⟩
    · omega
    · have : 0 < ra.size := by rw [Rng.size]; omega
      nlinarith
  have h64 : ra.size * w ≠ 64 := by
    rcases hr with h | ⟨-, h⟩
    · omega
    · intro e; rw [e] at h; exact absurd h (by decide)
  obtain ⟨z, hz, h⟩ : ∃ z, x.copyUp y op = .ok z ∧ _ := loopM_induct 0 ra.size x _
    (fun k (z : PArr w s ra) => ∀ i j, i < k → i < ra.size → j < w → Lg.at z (i * w + j) = y.at (i * w + j))
    (Nat.zero_le _) (by simp)
    (by
      rintro i q - hi h
      have hle : (i + 1) * w ≤ ra.size * w := Nat.mul_le_mul_right w hi
      obtain ⟨e, he, hev⟩ := C78_read_partial hw0 hb y (op i) i (hop i hi) (hr.imp id fun h => ⟨h.1, by omega⟩)
      obtain ⟨z, hz, -, hrz⟩ := PArr.update_elem hw0 hb q (op i) i (hop i hi) e
        (fun j h6 hj => by rw [hev j hj]; exact hv i j hi h6 hj) h1 (Or.inr h64)
      refine ⟨z, by rw [he, res_bind_ok]; exact hz, fun a j ha ha' hj => ?_⟩
      rw [hrz a j ha' hj]
      by_cases c : i = a
      · subst c; rw [if_pos rfl, hev j hj]
      · rw [if_neg c, if_neg (by omega), h a j (by omega) ha' hj])
  refine ⟨z, hz, fun p hp => ?_⟩
  have hlt : p / w < ra.size := by rw [Nat.div_lt_iff_lt_mul hw0]; exact hp
  have := h (p / w) (p % w) hlt hlt (Nat.mod_lt _ hw0)
  rwa [Nat.div_add_mod'] at this

-- four elements of four bits, filled with 1, 3, 5, 7, upwards and downwards
example : ((PArr.fillUp (w := 4) (ra := ⟨3, 0⟩) (Lg.ofInt 0 : Lg 16 false) (fun i => (Lg.ofInt i : Lg 32 false))
    (fun i => (Lg.ofInt (2 * i + 1) : Lg 4 false))).map fun y => Bits.bv y.value) = .ok 0x7531#16 := by decide +kernel
example : ((PArr.fillDown (w := 4) (ra := ⟨3, 0⟩) (Lg.ofInt 0 : Lg 16 false) (fun i => (Lg.ofInt i : Lg 32 false))
    (fun i => (Lg.ofInt (2 * i + 1) : Lg 4 false))).map fun y => Bits.bv y.value) = .ok 0x6421#16 := by decide +kernel
-- the hypothesis of the loops: index objects made from the loop counter
example : ∀ i, i < (⟨3, 0⟩ : Rng).size → PArr.Idx 4 ⟨3, 0⟩ (Lg.ofInt (i : Nat) : Lg 3 false) i := by
  intro i hi
  have : i = 0 ∨ i = 1 ∨ i = 2 ∨ i = 3 := by have : (⟨3, 0⟩ : Rng).size = 4 := rfl; omega
  rcases this with rfl | rfl | rfl | rfl <;>
    exact ⟨by decide, by decide, by decide +kernel, by decide +kernel, by decide +kernel, by decide, by decide, by decide⟩

end Verif
