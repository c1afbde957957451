import Verif.Model.Ref
import Verif.Props.Alias
import Verif.Props.SliceBase
import Verif.Props.Compose
import Verif.Props.ArrayRuns
import Verif.Show

/-!
# Programs with reference proxies (C162)

The meaning of a program is stated on a store of bits, without the library: an object is a
function from positions to 0, 1, x, z, and an assignment to `p` replaces the bits `lo..hi` of the
object `p` was taken from by the source as it is at that time.
-/

namespace Verif

variable {sh : Nat → Shape}

/-- the bit at a position of an object -/
def Obj.at {T : Shape} (x : Obj T) (i : Nat) : V4 :=
  match x with
  | .bit x => V4.ofBool (x.bv.getLsbD i)
  | .logic x => x.at i

/-- what an object holds: position by position -/
abbrev Store := Nat → Nat → V4

/-- the bits `lo..hi` of object `o` become the `m` bits `f`, filled with 0 -/
def Store.put (σ : Store) (o : Nat) (a b : Int) (m : Nat) (f : Nat → V4) : Store := fun o' i =>
  if o' = o ∧ min a b ≤ i ∧ (i : Int) ≤ max a b then
    (if i - (min a b).toNat < m then f (i - (min a b).toNat) else .b0)
  else σ o' i

/-- the proxies after a statement -/
def RStmt.envAfter (env : List Proxy) : RStmt → List Proxy
  | .ref p => env ++ [p]
  | _ => env

/-- the store after a statement -/
def RStmt.means (sh : Nat → Shape) (env : List Proxy) (σ : Store) : RStmt → Store
  | .ref _ => σ
  | .val k V v => match env[k]? with
    | none => σ
    | some p => σ.put p.obj p.a p.b V.n v.at
  | .obj k q => match env[k]? with
    | none => σ
    | some p => σ.put p.obj p.a p.b (sh q).n (σ q)

/-- the store after a program -/
def RStmt.meansAll (sh : Nat → Shape) (env : List Proxy) (σ : Store) : List RStmt → Store
  | [] => σ
  | c :: cs => RStmt.meansAll sh (c.envAfter env) (c.means sh env σ) cs

/-- when an assignment is right: the bounds lie in the target, the widths are those of objects, source and
target have the same number of states; the source has no x or z from bit 64 on (C55); a 2-state source is
as long as the slice or wide, and constant bounds begin at 0 (C57); an object assigned to a
slice of itself does not overlap the slice, or the slice begins at 0 (C124). -/
def RStmt.Ok (T V : Shape) (p : Proxy) (f : Nat → V4) (self : Prop) : Prop :=
  0 ≤ min p.a p.b ∧ max p.a p.b < T.n ∧ T.n < 2 ^ 31 ∧ 0 < V.n ∧ V.n < 2 ^ 31 ∧ T.four = V.four ∧
  (∀ k, 64 ≤ k → k < V.n → (f k).isKnown = true) ∧
  (T.four = false → max p.a p.b - min p.a p.b < V.n ∨ 64 < V.n) ∧
  (T.four = false → p.fixed = true → min p.a p.b = 0) ∧
  (self → min p.a p.b = 0 ∨ max p.a p.b < 2 * min p.a p.b)

/-- all assignments of a program are of that kind, in the stores they find -/
def RStmt.AllOk (sh : Nat → Shape) (env : List Proxy) (σ : Store) : List RStmt → Prop
  | [] => True
  | c :: cs =>
    (match c with
      | .ref _ => True
      | .val k V v => ∃ p, env[k]? = some p ∧ RStmt.Ok (sh p.obj) V p v.at False
      | .obj k q => ∃ p, env[k]? = some p ∧ RStmt.Ok (sh p.obj) (sh q) p (σ q) (q = p.obj)) ∧
    RStmt.AllOk sh (c.envAfter env) (c.means sh env σ) cs

theorem Obj.assign_spec {T V : Shape} (x : Obj T) (v : Obj V) (p : Proxy) {f : Nat → V4} (hf : ∀ i, i < V.n → v.at i = f i)
    (hok : RStmt.Ok T V p f False) :
    ∃ y, x.assign p.fixed p.a p.b v = .ok y ∧ ∀ i, i < T.n → y.at i =
      if min p.a p.b ≤ i ∧ (i : Int) ≤ max p.a p.b then
        (if i - (min p.a p.b).toNat < V.n then f (i - (min p.a p.b).toNat) else .b0) else x.at i := by
  obtain ⟨o, fixed, a, b⟩ := p
  obtain ⟨h0, hT, hTN, hV0, hVN, hfour, hk, hlen, hfix, -⟩ := hok
  dsimp only at h0 hT hlen hfix ⊢
  obtain ⟨a, rfl⟩ : ∃ a' : Nat, a = a' := ⟨a.toNat, by omega⟩
  obtain ⟨b, rfl⟩ : ∃ b' : Nat, b = b' := ⟨b.toNat, by omega⟩
  have em : (min (a : Int) b) = ((min a b : Nat) : Int) := by omega
  have eM : (max (a : Int) b) = ((max a b : Nat) : Int) := by omega
  rw [em, eM] at *
  simp only [Int.toNat_natCast, Int.ofNat_le]
  cases x with
  | @bit n s x =>
    cases v with
    | @logic m t v => simp at hfour
    | @bit m t v =>
      dsimp only at hT hTN hV0 hVN hk hlen hfix hf ⊢
      have hab : a < n ∧ b < n := by omega
      have key : ∃ y, (if fixed then x.update (Rng.down n) a b (Rng.down m) v
          else x.updateRt (Rng.down n) a b (Rng.down m) v) = .ok y ∧ ∀ i, i < n → y.bv.getLsbD i =
            if min a b ≤ i ∧ i ≤ max a b then v.bv.getLsbD (i - min a b) else x.bv.getLsbD i := by
        cases fixed with
        | false =>
          obtain ⟨y, hy, hr, -⟩ := C57_update_rt_partial (by omega) hV0 (by omega) (by omega) x v a b hab.1 hab.2
            (by rcases hlen rfl with h | h <;> omega)
          exact ⟨y, by simpa using hy, hr⟩
        | true =>
          have hz := hfix rfl rfl
          obtain ⟨y, hy, hr, -⟩ := C57_update_exact (by omega) hV0 (by omega) (by omega) x v a b hab.1 hab.2
            (by rcases hlen rfl with h | h <;> omega)
          have hz' : min a b = 0 := by omega
          exact ⟨y, by simpa using hy, fun i hi => by rw [hr i hi, hz', Nat.sub_zero]⟩
      obtain ⟨y, hy, hr⟩ := key
      refine ⟨.bit y, by rw [Obj.assign, hy]; rfl, fun i hi => ?_⟩
      show V4.ofBool (y.bv.getLsbD i) = _
      rw [hr i hi]
      split
      · split
        · next h => rw [← hf _ h]; rfl
        · next h => rw [BitVec.getLsbD_of_ge _ _ (by omega)]; rfl
      · rfl
  | @logic n s x =>
    cases v with
    | @bit m t v => simp at hfour
    | @logic m t v =>
      dsimp only at hT hTN hV0 hVN hk hlen hfix hf ⊢
      have hab : a < n ∧ b < n := by omega
      obtain ⟨y, hy, hr, -⟩ := C55_update_partial (by omega) hV0 (by omega) (by omega) x v a b hab.1 hab.2
        fun k _ h64 hkm => by have := hf k hkm; change v.at k = _ at this; rw [this]; exact hk k h64 hkm
      refine ⟨.logic y, by rw [Obj.assign, C56_update_rt, ite_self, hy]; rfl, fun i hi => ?_⟩
      show y.at i = _
      rw [hr i hi]
      split
      · split
        · next h => rw [← hf _ h]; rfl
        · rfl
      · rfl

theorem Obj.assignSelf_spec {T : Shape} (x : Obj T) (p : Proxy) {f : Nat → V4} (hf : ∀ i, i < T.n → x.at i = f i)
    (hok : RStmt.Ok T T p f True) :
    ∃ y, x.assignSelf p.fixed p.a p.b = .ok y ∧ ∀ i, i < T.n → y.at i =
      if min p.a p.b ≤ i ∧ (i : Int) ≤ max p.a p.b then
        (if i - (min p.a p.b).toNat < T.n then f (i - (min p.a p.b).toNat) else .b0) else x.at i := by
  obtain ⟨o, fixed, a, b⟩ := p
  obtain ⟨h0, hT, hTN, hV0, -, -, hk, -, hfix, hself⟩ := hok
  dsimp only at h0 hT hfix hself ⊢
  have hov := hself trivial
  obtain ⟨st, hst⟩ : ∃ a' : Nat, min a b = a' := ⟨(min a b).toNat, by omega⟩
  obtain ⟨en, hen⟩ : ∃ a' : Nat, max a b = a' := ⟨(max a b).toNat, by omega⟩
  have hse : st ≤ en := by omega
  have emin : min (en : Int) st = min a b := by omega
  have emax : max (en : Int) st = max a b := by omega
  clear hself
  simp only [hst, hen] at h0 hT hfix hov ⊢
  simp only [Int.toNat_natCast, Int.ofNat_le]
  cases x with
  | @bit n s x =>
    dsimp only at hT hTN hV0 hk hfix hf ⊢
    obtain ⟨l1, l2, l3, l4⟩ := Rng.down_lo' n hV0
    have key : ∃ y, (if fixed then x.updateSelf (Rng.down n) a b else x.updateRtSelf (Rng.down n) a b) = .ok y ∧
        (∀ i, i < n → y.bv.getLsbD i = if st ≤ i ∧ i ≤ en then x.bv.getLsbD (i - st) else x.bv.getLsbD i) := by
      cases fixed with
      | true =>
        have hz : st = 0 := by have := hfix rfl rfl; omega
        have key := C124_constant_exact (s := s) (Rng.down n)
        rw [l4] at key
        obtain ⟨y, hy, hr⟩ := key x l1 (by omega) st en hse (by omega)
        refine ⟨y, ?_, fun i hi => ?_⟩
        · rw [if_pos rfl, ← hy]; simp only [Bits.updateSelf, emin, emax]
        · subst hz
          simp [Bits.getLsbD_bv, hr]
      | false =>
        have key := C124_runtime_partial (s := s) (Rng.down n)
        rw [l4] at key
        obtain ⟨y, hy, hr, hr'⟩ := key x l1 (by omega) st en hse (by omega) (by omega)
        refine ⟨y, ?_, fun i hi => ?_⟩
        · rw [if_neg (by simp), ← hy]; simp only [Bits.updateRtSelf, emin, emax]
        · by_cases hin : st ≤ i ∧ i ≤ en
          · rw [if_pos hin]
            have := hr (i - st) (by omega)
            rwa [show ((st : Int) + ((i - st : Nat) : Int)) = (i : Nat) by omega, Rng.pos_down hV0, Rng.pos_down hV0] at this
          · rw [if_neg hin, Bits.getLsbD_bv, Bits.getLsbD_bv, hr' i fun k hk e => by
              rw [show ((st : Int) + (k : Int)) = ((st + k : Nat) : Int) by omega, Rng.pos_down hV0] at e; omega]
    obtain ⟨y, hy, hr⟩ := key
    refine ⟨.bit y, by rw [Obj.assignSelf, hy]; rfl, fun i hi => ?_⟩
    show V4.ofBool (y.bv.getLsbD i) = _
    rw [hr i hi]
    split
    · rw [if_pos (by omega), ← hf _ (by omega)]; rfl
    · rfl
  | @logic n s x =>
    dsimp only at hT hTN hV0 hk hfix hf ⊢
    obtain ⟨l1, l2, l3, l4⟩ := Rng.down_lo' n hV0
    have key := C124_logic_partial (s := s) (Rng.down n)
    rw [l4] at key
    obtain ⟨y, hy, hr, hr'⟩ := key x l1 (by omega) st en hse (by omega) (by omega) fun k hk1 h64 => by
      rw [Rng.pos_down hV0]
      have := hf k (by omega)
      change x.at k = _ at this
      rw [this]; exact hk k h64 (by omega)
    refine ⟨.logic y, ?_, fun i hi => ?_⟩
    · have : x.updateSelf (Rng.down n) a b = .ok y := by rw [← hy]; simp only [Lg.updateSelf, emin, emax]
      rw [Obj.assignSelf, this]; rfl
    · show y.at i = _
      by_cases hin : st ≤ i ∧ i ≤ en
      · rw [if_pos hin, if_pos (by omega), ← hf _ (by omega)]
        have := hr (i - st) (by omega)
        rwa [show ((st : Int) + ((i - st : Nat) : Int)) = (i : Nat) by omega, Rng.pos_down hV0, Rng.pos_down hV0] at this
      · rw [if_neg hin]
        obtain ⟨e1, e2⟩ := hr' i fun k hk e => by
          rw [show ((st : Int) + (k : Int)) = ((st + k : Nat) : Int) by omega, Rng.pos_down hV0] at e; omega
        show y.at i = x.at i
        simp only [Lg.at, Bits.getLsbD_bv, e1, e2]

/-- **C162, partial.** Every program of proxy declarations and assignments ends, and each object
holds what the program means. Missing: the assignments that C55, C57 and C124 exclude (`RStmt.Ok`). -/
theorem C162_proxies_partial (M : Mem sh) (env : List Proxy) (σ : Store) (hσ : ∀ o i, i < (sh o).n → (M o).at i = σ o i)
    (cs : List RStmt) (hok : RStmt.AllOk sh env σ cs) :
    ∃ M' env', RStmt.run M env cs = .ok (M', env') ∧
      ∀ o i, i < (sh o).n → (M' o).at i = RStmt.meansAll sh env σ cs o i := by
  induction cs generalizing M env σ with
  | nil => exact ⟨M, env, rfl, hσ⟩
  | cons c cs ih =>
    obtain ⟨hc, hcs⟩ := hok
    have key : ∃ M', RStmt.exec M env c = .ok (M', c.envAfter env) ∧
        ∀ o i, i < (sh o).n → (M' o).at i = c.means sh env σ o i := by
      have put : ∀ (p : Proxy) (y : Obj (sh p.obj)) (m : Nat) (f : Nat → V4), (∀ i, i < (sh p.obj).n → y.at i =
          if min p.a p.b ≤ i ∧ (i : Int) ≤ max p.a p.b then
            (if i - (min p.a p.b).toNat < m then f (i - (min p.a p.b).toNat) else .b0) else (M p.obj).at i) →
          ∀ o i, i < (sh o).n → (Function.update M p.obj y o).at i = σ.put p.obj p.a p.b m f o i := by
        intro p y m f hy o i hi
        by_cases ho : o = p.obj
        · subst ho
          rw [Function.update_self, hy i hi, Store.put, hσ _ i hi]
          simp
        · rw [Function.update_of_ne ho, Store.put, if_neg (fun h => ho h.1), hσ o i hi]
      cases c with
      | ref p => exact ⟨M, rfl, hσ⟩
      | val k V v =>
        obtain ⟨p, hp, hpok⟩ := hc
        obtain ⟨y, hy, hr⟩ := (M p.obj).assign_spec v p (fun _ _ => rfl) hpok
        refine ⟨Function.update M p.obj y, ?_, ?_⟩
        · simp only [RStmt.exec, hp, hy]; rfl
        · simp only [RStmt.means, hp]
          exact put p y _ _ hr
      | obj k q =>
        obtain ⟨p, hp, hpok⟩ := hc
        by_cases hq : q = p.obj
        · subst hq
          have hpok' : RStmt.Ok (sh p.obj) (sh p.obj) p (σ p.obj) True := by simpa using hpok
          obtain ⟨y, hy, hr⟩ := (M p.obj).assignSelf_spec p (hσ p.obj) hpok'
          refine ⟨Function.update M p.obj y, ?_, ?_⟩
          · simp only [RStmt.exec, hp, if_pos, hy]; rfl
          · simp only [RStmt.means, hp]
            exact put p y _ _ hr
        · obtain ⟨y, hy, hr⟩ := (M p.obj).assign_spec (M q) p (hσ q) (by simpa [hq] using hpok)
          refine ⟨Function.update M p.obj y, ?_, ?_⟩
          · simp only [RStmt.exec, hp, if_neg hq, hy]; rfl
          · simp only [RStmt.means, hp]
            exact put p y _ _ hr
    obtain ⟨M₁, h1, hσ₁⟩ := key
    obtain ⟨M₂, env₂, h2, hσ₂⟩ := ih M₁ _ _ hσ₁ hcs
    exact ⟨M₂, env₂, by rw [RStmt.run, h1, res_bind_ok]; exact h2, hσ₂⟩

private theorem map_ok_inv {α β : Type} {r : Res α} {f : α → β} {b : β} (h : r.map f = .ok b) :
    ∃ a, r = .ok a ∧ f a = b := by
  cases r with
  | error e => exact absurd h (by simp [Except.map])
  | ok a => exact ⟨a, rfl, by simpa [Except.map] using h⟩

private theorem exec_frame (M : Mem sh) (env : List Proxy) (c : RStmt) (r : Mem sh × List Proxy)
    (h : RStmt.exec M env c = .ok r) :
    (∀ p ∈ env, p ∈ r.2) ∧ ∀ o, (∀ p ∈ r.2, p.obj ≠ o) → r.1 o = M o := by
  have upd : ∀ (k : Nat) (q : Proxy), env[k]? = some q → ∀ y : Obj (sh q.obj), ∀ o, (∀ p ∈ env, p.obj ≠ o) →
      Function.update M q.obj y o = M o := fun k q he y o ho =>
    Function.update_of_ne (fun e => ho q (List.mem_of_getElem? he) e.symm) _ _
  cases c with
  | ref q =>
    simp only [RStmt.exec, Except.ok.injEq] at h
    subst h
    exact ⟨fun p hp => by simp [hp], fun o _ => rfl⟩
  | val k V v =>
    simp only [RStmt.exec] at h
    cases he : env[k]? with
    | none => rw [he] at h; exact absurd h (by simp)
    | some q =>
      rw [he] at h
      obtain ⟨y, -, rfl⟩ := map_ok_inv h
      exact ⟨fun p hp => hp, fun o ho => upd k q he y o ho⟩
  | obj k j =>
    simp only [RStmt.exec] at h
    cases he : env[k]? with
    | none => rw [he] at h; exact absurd h (by simp)
    | some q =>
      rw [he] at h
      obtain ⟨y, -, rfl⟩ := map_ok_inv h
      exact ⟨fun p hp => hp, fun o ho => upd k q he y o ho⟩

/-- **C162, other objects.** A program that ends leaves every object without a proxy as it was, storage
included, whatever the bounds and operands are. -/
theorem C162_others (M M' : Mem sh) (env env' : List Proxy) (cs : List RStmt) (h : RStmt.run M env cs = .ok (M', env'))
    (o : Nat) (ho : ∀ p ∈ env', p.obj ≠ o) : M' o = M o := by
  have key : ∀ (cs : List RStmt) (M : Mem sh) (env : List Proxy), RStmt.run M env cs = .ok (M', env') →
      (∀ p ∈ env, p ∈ env') ∧ M' o = M o := by
    intro cs
    induction cs with
    | nil =>
      intro M env h
      simp only [RStmt.run, Except.ok.injEq, Prod.mk.injEq] at h
      exact ⟨fun p hp => h.2 ▸ hp, by rw [h.1]⟩
    | cons c cs ih =>
      intro M env h
      rw [RStmt.run] at h
      cases hc : RStmt.exec M env c with
      | error e => rw [hc] at h; exact absurd h (by simp [Except.bind])
      | ok r =>
        rw [hc, res_bind_ok] at h
        obtain ⟨h1, h2⟩ := ih _ _ h
        obtain ⟨f1, f2⟩ := exec_frame M env c r hc
        exact ⟨fun p hp => h1 p (f1 p hp), by rw [h2, f2 o fun p hp => ho p (h1 p hp)]⟩
  exact (key cs M env h).2

/-- does the assignment to proxy `k` write bit `i` of object `o`? -/
def Proxy.covers (env : List Proxy) (o i k : Nat) : Bool :=
  match env[k]? with
  | none => false
  | some p => decide (p.obj = o ∧ min p.a p.b ≤ (i : Int) ∧ (i : Int) ≤ max p.a p.b)

/-- the lower bound of proxy `k` -/
def Proxy.lower (env : List Proxy) (k : Nat) : Nat :=
  match env[k]? with
  | none => 0
  | some p => (min p.a p.b).toNat

/-- **C162, the last assignment, partial.** After any sequence of assignments of temporaries to any
proxies of any objects, a bit is the one the last assignment that covers it has for it, or the
original one. Missing: what `RStmt.Ok` leaves out, constant 2-state proxies
(`C162_constant_refuted`) and operands with an x or z from bit 64 on; objects assigned to themselves
are `C162_self_refuted`. -/
theorem C162_last_partial (M : Mem sh) (env : List Proxy) (ws : List (Nat × (Σ V, Obj V)))
    (hok : ∀ w ∈ ws, ∃ p, env[w.1]? = some p ∧ RStmt.Ok (sh p.obj) w.2.1 p w.2.2.at False) :
    ∃ M', RStmt.run M env (ws.map fun w => .val w.1 w.2.1 w.2.2) = .ok (M', env) ∧
      ∀ o i, i < (sh o).n → (M' o).at i =
        match ws.reverse.find? fun w => Proxy.covers env o i w.1 with
        | some w => if i - Proxy.lower env w.1 < w.2.1.n then w.2.2.at (i - Proxy.lower env w.1) else .b0
        | none => (M o).at i := by
  induction ws generalizing M with
  | nil => exact ⟨M, rfl, fun o i _ => rfl⟩
  | cons w ws ih =>
    obtain ⟨p, hp, hpok⟩ := hok w (by simp)
    obtain ⟨y, hy, hr⟩ := (M p.obj).assign_spec w.2.2 p (fun _ _ => rfl) hpok
    obtain ⟨M', hM', hr'⟩ := ih (Function.update M p.obj y) fun v hv => hok v (by simp [hv])
    refine ⟨M', ?_, fun o i hi => ?_⟩
    · rw [List.map_cons, RStmt.run]
      simp only [RStmt.exec, hp, hy, res_map_ok, res_bind_ok]
      exact hM'
    · rw [hr' o i hi, List.reverse_cons, List.find?_append]
      cases List.find? (fun w => Proxy.covers env o i w.1) ws.reverse with
      | some q => rfl
      | none =>
        simp only [Option.none_or, List.find?_cons, List.find?_nil]
        by_cases ho : o = p.obj
        · subst ho
          rw [Function.update_self, hr i hi]
          simp only [Proxy.covers, Proxy.lower, hp, true_and]
          by_cases hc : min p.a p.b ≤ (i : Int) ∧ (i : Int) ≤ max p.a p.b
          · simp only [if_pos hc, decide_eq_true hc, hp]
          · simp only [if_neg hc, decide_eq_false hc]
        · rw [Function.update_of_ne ho]
          simp only [Proxy.covers, hp, show ¬ p.obj = o from fun e => ho e.symm, false_and, decide_false]

/-- **C162, refuted for constant 2-state proxies.** `auto p = x.slice_ref<hi, lo>(); p = v;` with a slice that begins
above the bits of `v` clears the slice, for all `x` and `v`. -/
theorem C162_constant_refuted {n m : Nat} {s : Bool} (x : Bits n s) (hm : 0 < m) (hN : n ≤ 2 ^ 31) (h : m ≤ 64)
    (v : Bits m false) (hc : v.Clean) (hi lo : Nat) (hle : lo ≤ hi) (hhi : hi < n) (hlo : m ≤ lo)
    (hW : hi < (if m ≤ 32 then 32 else 64)) :
    ∃ M' env', RStmt.run (sh := fun _ => ⟨false, n, s⟩) (fun _ => .bit x) []
        [.ref ⟨0, true, hi, lo⟩, .val 0 ⟨false, m, false⟩ (.bit v)] = .ok (M', env') ∧
      ∀ i, lo ≤ i → i ≤ hi → (M' 0).at i = .b0 := by
  obtain ⟨y, hy, hr⟩ := C57_native_refuted hm hN h x v hc hi lo hle hhi hlo hW
  refine ⟨Function.update (fun _ => .bit x) 0 (.bit y), [⟨0, true, hi, lo⟩], ?_, fun i h1 h2 => ?_⟩
  · simp only [RStmt.run, RStmt.exec, List.nil_append, res_bind_ok, List.getElem?_cons_zero, Obj.assign, if_true, hy, res_map_ok]
  · rw [Function.update_self]
    show V4.ofBool (y.bv.getLsbD i) = .b0
    rw [hr i (by omega), if_pos ⟨h1, h2⟩]; rfl

/-- **C162, refuted for an object assigned to a slice of itself**: at every width and for every slice that overlaps the
bits it is assigned, there is an object that does not end with the meaning of `p = x`. -/
theorem C162_self_refuted {n : Nat} (s : Bool) (hN : n < 2 ^ 31) (st en : Nat) (h0 : 0 < st) (hov : 2 * st ≤ en) (hen : en < n)
    (fixed : Bool) :
    ∃ x : Lg n s, x.Clean ∧ ∃ M' env',
      RStmt.run (sh := fun _ => ⟨true, n, s⟩) (fun _ => .logic x) [] [.ref ⟨0, fixed, en, st⟩, .obj 0 0] = .ok (M', env') ∧
      ∃ i, i < n ∧ (M' 0).at i ≠
        RStmt.meansAll (fun _ => ⟨true, n, s⟩) [] (fun _ => x.at) [.ref ⟨0, fixed, en, st⟩, .obj 0 0] 0 i := by
  obtain ⟨l1, l2, l3, l4⟩ := Rng.down_lo' n (by omega)
  have key := C124_logic_refuted (s := s) (Rng.down n)
  rw [l4] at key
  obtain ⟨x, hx, -, y, hy, k, hk, hne⟩ := key l1 (by omega) st en h0 hov (by omega)
  refine ⟨x, hx, Function.update (fun _ => .logic x) 0 (.logic y), [⟨0, fixed, en, st⟩], ?_, st + k, by omega, ?_⟩
  · simp only [RStmt.run, RStmt.exec, List.nil_append, res_bind_ok, List.getElem?_cons_zero, Obj.assignSelf, if_true, hy, res_map_ok]
  · rw [Function.update_self]
    simp only [RStmt.meansAll, RStmt.means, RStmt.envAfter, List.nil_append, List.getElem?_cons_zero, Store.put]
    rw [if_pos ⟨trivial, by omega, by omega⟩, show st + k - (min (en : Int) st).toNat = k by omega, if_pos (by omega)]
    rw [show ((st : Int) + (k : Int)) = ((st + k : Nat) : Int) by omega, Rng.pos_down (by omega), Rng.pos_down (by omega)] at hne
    exact hne

/-- three proxies of two objects: later assignments win where slices overlap, also through a proxy
that was declared first -/
example : ((RStmt.run (sh := fun _ => ⟨true, 8, false⟩) (fun _ => .logic (Lg.ofInt 0)) []
    [.ref ⟨0, false, 5, 2⟩, .ref ⟨0, true, 3, 0⟩, .ref ⟨1, false, 7, 4⟩,
      .val 1 ⟨true, 4, false⟩ (.logic (Lg.ofInt 15)), .val 0 ⟨true, 4, false⟩ (.logic (Lg.ofInt 8)), .obj 2 0]).map
      fun r => ((List.range 8).map (r.1 0).at, (List.range 8).map (r.1 1).at)) =
    .ok ([.b1, .b1, .b0, .b0, .b0, .b1, .b0, .b0], [.b0, .b0, .b0, .b0, .b1, .b1, .b0, .b0]) := by decide +kernel

/-! ## C163: reordering the chunks of a vector -/

variable {n w : Nat} {s : Bool}

/-- `for (i = 0; i < k; i++) y.slice_ref((i + 1) * w - 1, i * w) = x.slice<w>((p(i) + 1) * w - 1, p(i) * w);` -/
def Lg.chunkStep (x : Lg n false) (w : Nat) (p : Nat → Nat) (i : Nat) (y : Lg n s) : Res (Lg n s) :=
  (x.sliceRt (Rng.down n) w (((p i + 1) * w - 1 : Nat) : Int) ((p i * w : Nat) : Int)).bind fun v =>
    y.updateRt (Rng.down n) (((i + 1) * w - 1 : Nat) : Int) ((i * w : Nat) : Int) (Rng.down w) v

def Lg.chunks (x : Lg n false) (w k : Nat) (p : Nat → Nat) (y : Lg n s) : Res (Lg n s) :=
  loopM 0 k y fun i y => x.chunkStep w p i y

theorem Lg.chunkStep_spec (hw0 : 0 < w) {k : Nat} (hn : n = k * w) (h1 : 1 < n) (hN : n ≤ 2 ^ 31) (x : Lg n false)
    (hx : ∀ e j, e < k → 64 ≤ j → j < w → (x.at (e * w + j)).isKnown = true)
    (p : Nat → Nat) (i : Nat) (hi : i < k) (hp : p i < k) (y : Lg n s) :
    ∃ z, x.chunkStep w p i y = .ok z ∧ (s = false → y.Clean → z.Clean) ∧
      ∀ e j, e < k → j < w → z.at (e * w + j) = if e = i then x.at (p i * w + j) else y.at (e * w + j) := by
  have e1 : ∀ i, (i + 1) * w = i * w + w := fun i => by ring
  have hle : ∀ e, e < k → e * w + w ≤ n := fun e he => by
    have : (e + 1) * w ≤ k * w := Nat.mul_le_mul_right w he
    rw [e1] at this; omega
  have l1 := hle _ hi
  have l2 := hle _ hp
  have m1 : ∀ q, min ((q + 1) * w - 1) (q * w) = q * w := fun q => by rw [e1]; omega
  have m2 : ∀ q, max ((q + 1) * w - 1) (q * w) = q * w + w - 1 := fun q => by rw [e1]; omega
  obtain ⟨v, hv, cv, rv⟩ := C51_slice_logic_partial h1 (by omega) x w ((p i + 1) * w - 1) (p i * w) (by rw [e1]; omega) (by omega)
    (by rw [m1, m2]; omega)
  rw [m1] at rv
  obtain ⟨z, hz, rz, cz⟩ := C55_update_partial (by omega) hw0 (by omega) (by omega) y v ((i + 1) * w - 1) (i * w)
    (by rw [e1]; omega) (by omega) fun j _ h64 hj => by rw [rv j hj]; exact hx _ _ hp h64 hj
  rw [m1, m2] at rz
  refine ⟨z, by rw [Lg.chunkStep, hv, res_bind_ok, C56_update_rt, hz], cz, fun e j he hj => ?_⟩
  have l3 := hle _ he
  rw [rz _ (by omega)]
  have hpos : (i * w ≤ e * w + j ∧ e * w + j ≤ i * w + w - 1) ↔ e = i := by
    have := (elem_pos (w := w) (i := e) (p := i) hj).1
    rw [e1] at this
    rw [← show i = e ↔ e = i from eq_comm, ← this]
    omega
  simp only [hpos]
  by_cases h : e = i
  · subst h
    rw [if_pos rfl, if_pos rfl, show e * w + j - e * w = j by omega, if_pos hj, rv j hj]
  · rw [if_neg h, if_neg h]

/-- **C163, partial.** Chunk `i` of the result is chunk `p(i)` of the operand, for every `p`, all widths and contents, and whatever the
result object held. Missing: chunks with an x or z from their bit 64 on (`C163_refuted`). -/
theorem C163_chunks_partial (hw0 : 0 < w) {k : Nat} (hn : n = k * w) (h1 : 1 < n) (hN : n ≤ 2 ^ 31) (x : Lg n false)
    (hx : ∀ e j, e < k → 64 ≤ j → j < w → (x.at (e * w + j)).isKnown = true)
    (p : Nat → Nat) (hp : ∀ i, i < k → p i < k) (y : Lg n s) :
    ∃ z, x.chunks w k p y = .ok z ∧ (s = false → y.Clean → z.Clean) ∧
      ∀ e j, e < k → j < w → z.at (e * w + j) = x.at (p e * w + j) := by
  obtain ⟨z, hz, cz, rz⟩ : ∃ z, x.chunks w k p y = .ok z ∧ (s = false → y.Clean → z.Clean) ∧
      ∀ e j, e < k → j < w → z.at (e * w + j) = if e < k then x.at (p e * w + j) else y.at (e * w + j) := by
    refine loopM_induct 0 k y _ (fun K (z : Lg n s) => (s = false → y.Clean → z.Clean) ∧
      ∀ e j, e < k → j < w → z.at (e * w + j) = if e < K then x.at (p e * w + j) else y.at (e * w + j)) (Nat.zero_le _)
      ⟨fun _ h => h, fun e j _ _ => by rw [if_neg (Nat.not_lt_zero e)]⟩ ?_
    rintro i z - hi ⟨cz, rz⟩
    obtain ⟨u, hu, cu, ru⟩ := Lg.chunkStep_spec hw0 hn h1 hN x hx p i hi (hp i hi) z
    refine ⟨u, hu, fun hs hy => cu hs (cz hs hy), fun e j he hj => ?_⟩
    rw [ru e j he hj]
    by_cases h : e = i
    · subst h; rw [if_pos rfl, if_pos (by omega)]
    · rw [if_neg h, rz e j he hj]
      by_cases h' : e < i
      · rw [if_pos h', if_pos (by omega)]
      · rw [if_neg h', if_neg (by omega)]
  exact ⟨z, hz, cz, fun e j he hj => by rw [rz e j he hj, if_pos he]⟩

/-- **C163, twice.** A permutation of the chunks followed by its inverse gives the operand back, the same object; for
`p(i) = k - 1 - i` this is reversing the bytes of a word twice. Missing: chunks with an x or z from bit 64 on, for
which the loop is undefined (`C163_refuted`), and one-bit vectors (`C51_refuted`). -/
theorem C163_twice_partial (hw0 : 0 < w) {k : Nat} (hn : n = k * w) (h1 : 1 < n) (hN : n ≤ 2 ^ 31) (x : Lg n false) (cx : x.Clean)
    (hx : ∀ e j, e < k → 64 ≤ j → j < w → (x.at (e * w + j)).isKnown = true)
    (p q : Nat → Nat) (hp : ∀ i, i < k → p i < k) (hq : ∀ i, i < k → q i < k ∧ p (q i) = i) (y y' : Lg n false)
    (cy : y.Clean) (cy' : y'.Clean) :
    (x.chunks w k p y).bind (fun z => z.chunks w k q y') = .ok x := by
  obtain ⟨z, hz, cz, rz⟩ := C163_chunks_partial hw0 hn h1 hN x hx p hp y
  obtain ⟨u, hu, cu, ru⟩ := C163_chunks_partial hw0 hn h1 hN z
    (fun e j he h64 hj => by rw [rz e j he hj]; exact hx _ _ (hp e he) h64 hj) q (fun i hi => (hq i hi).1) y'
  rw [hz, res_bind_ok, hu]
  congr 1
  refine Lg.clean_ext (cu rfl cy') cx fun i hi => ?_
  have hdiv : i / w < k := (Nat.div_lt_iff_lt_mul hw0).2 (by omega)
  have hmod := Nat.mod_lt i hw0
  have e : i = i / w * w + i % w := by rw [Nat.mul_comm]; exact (Nat.div_add_mod i w).symm
  rw [e, ru _ _ hdiv hmod, rz _ _ (hq _ hdiv).1 hmod, (hq _ hdiv).2]

/-- **C163 is false for chunks wider than 64 bits**: an x or z from bit 64 of the first chunk that is read is undefined
behaviour. -/
theorem C163_refuted (hw64 : 64 < w) {k : Nat} (hk : 0 < k) (hn : n = k * w) (hN : n ≤ 2 ^ 31) (x : Lg n false)
    (p : Nat → Nat) (hp : p 0 < k) (y : Lg n s) (j : Nat) (h64 : 64 ≤ j) (hj : j < w) (hu : (x.at (p 0 * w + j)).isKnown = false) :
    x.chunks w k p y = .error .shift := by
  have e1 : ∀ i, (i + 1) * w = i * w + w := fun i => by ring
  have l2 : p 0 * w + w ≤ n := by
    have : (p 0 + 1) * w ≤ k * w := Nat.mul_le_mul_right w hp
    rw [e1] at this; omega
  have hkw : w ≤ n := by rw [hn]; exact Nat.le_mul_of_pos_left w hk
  obtain ⟨v, hv, cv, rv⟩ := C51_slice_logic_partial (by omega) (by omega) x w ((p 0 + 1) * w - 1) (p 0 * w) (by rw [e1]; omega) (by omega)
    (by rw [e1]; omega)
  rw [show min ((p 0 + 1) * w - 1) (p 0 * w) = p 0 * w by rw [e1]; omega] at rv
  have hf := C55_fault (by omega) (by omega) (by omega) (by omega) y v ((0 + 1) * w - 1) (0 * w) (by omega) (by omega) j
    (by omega) h64 hj (by rw [rv j hj]; exact hu)
  have hstep : x.chunkStep w p 0 y = .error .shift := by
    rw [Lg.chunkStep, hv, res_bind_ok, C56_update_rt, hf]
  obtain ⟨k, rfl⟩ : ∃ k', k = k' + 1 := ⟨k - 1, by omega⟩
  rw [Lg.chunks, loopM, Nat.sub_zero, List.range'_succ, List.foldlM_cons, hstep]
  rfl

/-- the bytes of a 16-bit word with x and z, reversed -/
example : (((Lg.mk (Bits.ofInt 0x1234) (Bits.ofInt 0xff00) : Lg 16 false).chunks 8 2 (fun i => 1 - i) (Lg.ofInt 0 : Lg 16 false)).map
    fun z => (z.value.bv, z.xz.bv)) = .ok (0x3412#16, 0x00ff#16) := by decide +kernel

end Verif
