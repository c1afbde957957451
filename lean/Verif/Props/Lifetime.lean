import Verif.Model.Lifetime
import Verif.Props.Refs

/-!
# C188: lifetimes of the vectors behind reference proxies
-/

namespace Verif

/-- the type of an object, `none` if it is not alive -/
def LState.shape (st : LState) (o : Nat) : Option Shape := st.mem[o]?.join.map Sigma.fst

/-- every object declared before is alive after iff it was alive before, with the same type, and the
proxies in scope are still the same -/
def LState.Le (a b : LState) : Prop :=
  a.mem.length ≤ b.mem.length ∧ (∀ o, o < a.mem.length → b.shape o = a.shape o) ∧ ∃ l, b.env = a.env ++ l

theorem LState.Le.refl (a : LState) : a.Le a := ⟨le_refl _, fun _ _ => rfl, [], by simp⟩

theorem LState.Le.trans {a b c : LState} (h : a.Le b) (k : b.Le c) : a.Le c := by
  obtain ⟨h1, h2, l, h3⟩ := h
  obtain ⟨k1, k2, l', k3⟩ := k
  exact ⟨by omega, fun o ho => (k2 o (by omega)).trans (h2 o ho), l ++ l', by rw [k3, h3, List.append_assoc]⟩

theorem LState.assign_le {st st' : LState} {p : Proxy} {f : (x : AnyObj) → Res (Obj x.1)}
    (h : st.assign p f = .ok st') : st.Le st' := by
  rw [LState.assign] at h
  split at h
  next x hx =>
    cases hf : f x with
    | error e => rw [hf] at h; cases h
    | ok y =>
      rw [hf] at h
      cases h
      refine ⟨by simp, fun o ho => ?_, [], by simp⟩
      simp only [LState.shape, List.getElem?_set]
      split
      next e =>
        subst e
        have hl : p.obj < st.mem.length := ho
        rw [hx]; simp [hl]
      next => rfl
  next => cases h
  next => cases h

theorem LState.leave_le {st a st' : LState} {ret : Bool} (hl : a.Le st)
    (h : st.leave a.mem.length a.env.length ret = .ok st') :
    a.Le st' ∧ (∀ o, a.mem.length ≤ o → st'.shape o = none) ∧ st'.mem.length = st.mem.length ∧
      if ret then ∃ p, (st.env.drop a.env.length).getLast? = some p ∧ st'.env = a.env ++ [p] else st'.env = a.env := by
  obtain ⟨h1, h2, l, h3⟩ := hl
  have he : st.env.take a.env.length = a.env := by rw [h3]; simp
  have hm : ∀ env : List Proxy, (∀ o, o < a.mem.length →
      LState.shape ⟨st.mem.take a.mem.length ++ (st.mem.drop a.mem.length).map fun _ => none, env⟩ o = a.shape o) ∧
      ∀ o, a.mem.length ≤ o →
      LState.shape ⟨st.mem.take a.mem.length ++ (st.mem.drop a.mem.length).map fun _ => none, env⟩ o = none := by
    intro env
    refine ⟨fun o ho => ?_, fun o ho => ?_⟩
    · rw [← h2 o ho]
      simp only [LState.shape]
      rw [List.getElem?_append_left (by simp; omega), List.getElem?_take_of_lt ho]
    · simp only [LState.shape]
      rw [List.getElem?_append_right (by simp; omega)]
      simp only [List.getElem?_map]
      cases (List.drop a.mem.length st.mem)[o - (List.take a.mem.length st.mem).length]? <;> rfl
  have hlen : (st.mem.take a.mem.length ++ (st.mem.drop a.mem.length).map fun _ => (none : Option AnyObj)).length =
      st.mem.length := by simp; omega
  rw [LState.leave] at h
  cases ret with
  | true =>
    rw [if_pos rfl] at h
    split at h
    next p hp =>
      cases h
      refine ⟨⟨by rw [hlen]; exact h1, (hm _).1, [p], by rw [he]⟩, (hm _).2, hlen, ?_⟩
      exact ⟨p, hp, by rw [he]⟩
    next => cases h
  | false =>
    rw [if_neg (by decide)] at h
    cases h
    exact ⟨⟨by rw [hlen]; exact h1, (hm _).1, [], by rw [he]; simp⟩, (hm _).2, hlen, he⟩

mutual
theorem LStmt.exec_le (st st' : LState) (c : LStmt) (h : c.exec st = .ok st') : st.Le st' := by
  cases c with
  | decl v =>
    rw [LStmt.exec] at h
    cases h
    refine ⟨by simp, fun o ho => ?_, [], by simp⟩
    simp only [LState.shape]
    rw [List.getElem?_append_left ho]
  | ref p =>
    rw [LStmt.exec] at h
    split at h
    · cases h
      exact ⟨le_refl _, fun _ _ => rfl, [p], rfl⟩
    · cases h
  | val k v =>
    rw [LStmt.exec] at h
    split at h
    · cases h
    · exact LState.assign_le h
  | obj k q =>
    rw [LStmt.exec] at h
    split at h
    · cases h
    · split at h
      · exact LState.assign_le h
      · cases h
  | block ret body =>
    rw [LStmt.exec] at h
    cases hb : LStmt.run st body with
    | error e => rw [hb] at h; cases h
    | ok st₁ =>
      rw [hb] at h
      exact (LState.leave_le (LStmt.run_le st st₁ body hb) h).1
theorem LStmt.run_le (st st' : LState) (cs : List LStmt) (h : LStmt.run st cs = .ok st') : st.Le st' := by
  cases cs with
  | nil => rw [LStmt.run] at h; cases h; exact LState.Le.refl _
  | cons c cs =>
    rw [LStmt.run] at h
    cases hb : c.exec st with
    | error e => rw [hb] at h; cases h
    | ok st₁ =>
      rw [hb] at h
      exact (LStmt.exec_le st st₁ c hb).trans (LStmt.run_le st₁ st' cs h)
end

/-! ### containment -/

mutual
/-- the number of declared objects and the referenced objects of the proxies in scope after a statement -/
def LStmt.scope (n : Nat) (env : List Nat) : LStmt → Nat × List Nat
  | .decl _ => (n + 1, env)
  | .ref p => (n, env ++ [p.obj])
  | .val _ _ => (n, env)
  | .obj _ _ => (n, env)
  | .block ret body =>
    let r := LStmt.scopeAll n env body
    (r.1, if ret then env ++ (r.2.drop env.length).getLast?.toList else env)
/-- the same after a list of statements -/
def LStmt.scopeAll (n : Nat) (env : List Nat) : List LStmt → Nat × List Nat
  | [] => (n, env)
  | c :: cs => LStmt.scopeAll (c.scope n env).1 (c.scope n env).2 cs
end

mutual
/-- a block returns only proxies of objects that were declared before it -/
def LStmt.Contained (n : Nat) (env : List Nat) : LStmt → Prop
  | .block ret body => LStmt.AllContained n env body ∧
    (ret = true → ∀ o ∈ ((LStmt.scopeAll n env body).2.drop env.length).getLast?, o < n)
  | _ => True
/-- all blocks of a program do -/
def LStmt.AllContained (n : Nat) (env : List Nat) : List LStmt → Prop
  | [] => True
  | c :: cs => c.Contained n env ∧ LStmt.AllContained (c.scope n env).1 (c.scope n env).2 cs
end

/-- every proxy in scope refers to an object that is alive -/
def LState.Good (st : LState) : Prop := ∀ p ∈ st.env, (st.shape p.obj).isSome = true

theorem LState.shape_some {st : LState} {o : Nat} (h : (st.shape o).isSome = true) :
    ∃ x, st.mem[o]? = some (some x) := by
  simp only [LState.shape] at h
  cases hm : st.mem[o]? with
  | none => rw [hm] at h; cases h
  | some y =>
    cases y with
    | none => rw [hm] at h; cases h
    | some x => exact ⟨x, rfl⟩

theorem LState.shape_lt {st : LState} {o : Nat} (h : (st.shape o).isSome = true) : o < st.mem.length := by
  obtain ⟨x, hx⟩ := LState.shape_some h
  exact (List.getElem?_eq_some_iff.mp hx).1

/-- not the fault of a dangling reference -/
def NoD {α : Type} (r : Res α) : Prop := r ≠ .error .dangling

theorem NoD.ok {α : Type} (a : α) : NoD (.ok a : Res α) := by rintro ⟨⟩
theorem NoD.bind {α β : Type} {r : Res α} {f : α → Res β} (h : NoD r) (k : ∀ a, NoD (f a)) : NoD (r.bind f) := by
  cases r with
  | error e => intro he; apply h; cases he; rfl
  | ok a => exact k a
theorem NoD.map {α β : Type} {r : Res α} {f : α → β} (h : NoD r) : NoD (r.map f) := by
  cases r with
  | error e => intro he; apply h; cases he; rfl
  | ok a => rintro ⟨⟩
theorem NoD.loopM {σ : Type} (b : Nat) (st : σ) (f : Nat → σ → Res σ) (h : ∀ i s, NoD (f i s)) :
    NoD (loopM 0 b st f) := by
  induction b with
  | zero => rw [loopM_zero _ _ _ _ (le_refl _)]; exact NoD.ok _
  | succ b ih =>
    have a := loopM_succ 0 b st f
    rw [Nat.zero_add, Nat.zero_add] at a
    rw [a]
    exact ih.bind fun s => h b s
theorem NoD.shl (x c : TV) : NoD (TV.shl x c) := by rw [TV.shl]; split_ifs <;> rintro ⟨⟩
theorem NoD.shr (x c : TV) : NoD (TV.shr x c) := by rw [TV.shr]; split_ifs <;> rintro ⟨⟩

section
variable {n m : Nat} {s t : Bool}

theorem NoD.get (r : Rng) (x : Bits n s) (i : Int) : NoD (x.get r i) := by
  rw [Bits.get]; split_ifs
  · exact (NoD.shr _ _).map
  · exact NoD.ok _
theorem NoD.setNat (h : n ≤ 64) (x : Bits n s) (i : TV) (v : Bool) : NoD (Bits.setNat h x i v) := by
  rw [Bits.setNat]; exact (NoD.shl _ _).map
theorem NoD.set (r : Rng) (x : Bits n s) (i : Int) (v : Bool) : NoD (x.set r i v) := by
  rw [Bits.set]; split_ifs
  · exact NoD.setNat _ _ _ _
  · exact NoD.ok _
theorem NoD.setBit (r : Rng) (x : Bits n s) (i : Int) (v : Bool) : NoD (x.setBit r i v) := by
  rw [Bits.setBit]; split_ifs
  · exact NoD.setNat _ _ _ _
  · exact NoD.ok _
theorem NoD.dflt : NoD (Lg.dflt : Res (Lg n s)) := by
  rw [Lg.dflt, Bits.mask]
  apply NoD.map
  split_ifs
  · exact NoD.ok _
  · exact (NoD.shr _ _).map
  · exact NoD.ok _
theorem NoD.getL (r : Rng) (x : Lg n s) (i : Int) : NoD (x.get r i) := by
  rw [Lg.get]
  split_ifs
  · refine NoD.dflt.bind fun res => NoD.bind ?_ fun b => ?_
    · exact (NoD.get _ _ _).bind fun _ => (NoD.get _ _ _).map
    · split_ifs
      · exact (NoD.set _ _ _ _).bind fun _ => (NoD.set _ _ _ _).map
      · refine NoD.bind ((NoD.get _ _ _).bind fun _ => (NoD.get _ _ _).map) fun b => ?_
        split_ifs
        · exact (NoD.set _ _ _ _).bind fun _ => (NoD.set _ _ _ _).map
        · exact (NoD.get _ _ _).map
  · exact NoD.dflt
theorem NoD.setL (r : Rng) (x : Lg n s) (i : Int) (l : Lg 1 t) : NoD (x.setL r i l) := by
  rw [Lg.setL]; exact (NoD.set _ _ _ _).bind fun _ => (NoD.set _ _ _ _).map
theorem NoD.updateStep (r : Rng) (start : Int) (ro : Rng) (op : Lg m t) (i : Int) (x : Lg n s) :
    NoD (Lg.updateStep r start ro op i x) := by
  rw [Lg.updateStep]; split_ifs
  · exact NoD.setL _ _ _ _
  · exact (NoD.getL _ _ _).bind fun _ => NoD.setL _ _ _ _
  · exact NoD.setL _ _ _ _
  · exact (NoD.getL _ _ _).bind fun _ => NoD.setL _ _ _ _
end

theorem NoD.assign {T V : Shape} (fixed : Bool) (a b : Int) (x : Obj T) (v : Obj V) :
    NoD (x.assign fixed a b v) := by
  cases x <;> cases v <;> simp only [Obj.assign]
  · apply NoD.map
    split_ifs
    · rw [Bits.update]; exact NoD.loopM _ _ _ fun _ _ => (NoD.get _ _ _).bind fun _ => NoD.setBit _ _ _ _
    · rw [Bits.updateRt]; exact NoD.loopM _ _ _ fun _ _ => (NoD.get _ _ _).bind fun _ => NoD.setBit _ _ _ _
  · rintro ⟨⟩
  · rintro ⟨⟩
  · apply NoD.map
    split_ifs
    · rw [Lg.update]; exact NoD.loopM _ _ _ fun _ _ => NoD.updateStep _ _ _ _ _ _
    · rw [Lg.updateRt]; exact NoD.loopM _ _ _ fun _ _ => NoD.updateStep _ _ _ _ _ _

theorem NoD.assignSelf {T : Shape} (fixed : Bool) (a b : Int) (x : Obj T) : NoD (x.assignSelf fixed a b) := by
  cases x <;> simp only [Obj.assignSelf]
  · apply NoD.map
    split_ifs
    · rw [Bits.updateSelf]; exact NoD.loopM _ _ _ fun _ _ => (NoD.get _ _ _).bind fun _ => NoD.setBit _ _ _ _
    · rw [Bits.updateRtSelf]; exact NoD.loopM _ _ _ fun _ _ => (NoD.get _ _ _).bind fun _ => NoD.setBit _ _ _ _
  · apply NoD.map
    rw [Lg.updateSelf]
    exact NoD.loopM _ _ _ fun _ _ => NoD.updateStep _ _ _ _ _ _

theorem LState.assign_len {st st' : LState} {p : Proxy} {f : (x : AnyObj) → Res (Obj x.1)}
    (h : st.assign p f = .ok st') : st'.mem.length = st.mem.length ∧ st'.env = st.env := by
  rw [LState.assign] at h
  split at h
  next x hx =>
    cases hf : f x with
    | error e => rw [hf] at h; cases h
    | ok y => rw [hf] at h; cases h; simp
  next => cases h
  next => cases h

mutual
theorem LStmt.exec_scope (st st' : LState) (c : LStmt) (h : c.exec st = .ok st') :
    (st'.mem.length, st'.env.map Proxy.obj) = c.scope st.mem.length (st.env.map Proxy.obj) := by
  cases c with
  | decl v =>
    rw [LStmt.exec] at h
    cases h
    simp [LStmt.scope]
  | ref p =>
    rw [LStmt.exec] at h
    split at h
    · cases h
      simp [LStmt.scope]
    · cases h
  | val k v =>
    rw [LStmt.exec] at h
    split at h
    · cases h
    · obtain ⟨e1, e2⟩ := LState.assign_len h
      rw [e1, e2, LStmt.scope]
  | obj k q =>
    rw [LStmt.exec] at h
    split at h
    · cases h
    · split at h
      · obtain ⟨e1, e2⟩ := LState.assign_len h
        rw [e1, e2, LStmt.scope]
      · cases h
  | block ret body =>
    rw [LStmt.exec] at h
    cases hb : LStmt.run st body with
    | error e => rw [hb] at h; cases h
    | ok st₁ =>
      rw [hb] at h
      have hs := LStmt.run_scope st st₁ body hb
      obtain ⟨-, -, h3, h4⟩ := LState.leave_le (LStmt.run_le st st₁ body hb) h
      rw [LStmt.scope]
      rw [← hs, h3]
      cases ret with
      | true =>
        rw [if_pos rfl] at h4 ⊢
        obtain ⟨p, hp, he⟩ := h4
        rw [he, List.length_map, ← List.map_drop, List.getLast?_map, hp]
        simp
      | false =>
        rw [if_neg (by decide)] at h4 ⊢
        rw [h4]
theorem LStmt.run_scope (st st' : LState) (cs : List LStmt) (h : LStmt.run st cs = .ok st') :
    (st'.mem.length, st'.env.map Proxy.obj) = LStmt.scopeAll st.mem.length (st.env.map Proxy.obj) cs := by
  cases cs with
  | nil => rw [LStmt.run] at h; cases h; rfl
  | cons c cs =>
    rw [LStmt.run] at h
    cases hb : c.exec st with
    | error e => rw [hb] at h; cases h
    | ok st₁ =>
      rw [hb] at h
      rw [LStmt.run_scope st₁ st' cs h, LStmt.scopeAll, ← LStmt.exec_scope st st₁ c hb]
end

theorem LState.assign_safe {st : LState} {p : Proxy} {f : (x : AnyObj) → Res (Obj x.1)}
    (hl : (st.shape p.obj).isSome = true) (hf : ∀ x, NoD (f x)) : NoD (st.assign p f) := by
  obtain ⟨x, hx⟩ := LState.shape_some hl
  rw [LState.assign, hx]
  exact (hf x).map

theorem LState.Good.le {a b : LState} (h : a.Good) (hl : a.Le b) (he : b.env = a.env) : b.Good := by
  intro p hp
  rw [he] at hp
  rw [hl.2.1 _ (LState.shape_lt (h p hp))]
  exact h p hp

mutual
theorem LStmt.exec_safe (st : LState) (c : LStmt) (hg : st.Good)
    (hc : c.Contained st.mem.length (st.env.map Proxy.obj)) :
    NoD (c.exec st) ∧ ∀ st', c.exec st = .ok st' → st'.Good := by
  cases c with
  | decl v =>
    refine ⟨by rw [LStmt.exec]; exact NoD.ok _, fun st' h => hg.le (LStmt.exec_le st st' _ h) ?_⟩
    rw [LStmt.exec] at h
    cases h; rfl
  | ref p =>
    rw [LStmt.exec]
    split
    next x hx =>
      refine ⟨NoD.ok _, ?_⟩
      rintro st' ⟨⟩
      intro q hq
      rcases List.mem_append.mp hq with hq | hq
      · exact hg q hq
      · cases List.mem_singleton.mp hq
        simp only [LState.shape, hx]; rfl
    next => exact ⟨by rintro ⟨⟩, by rintro st' ⟨⟩⟩
  | val k v =>
    have key : ∀ st', LStmt.exec st (.val k v) = .ok st' → st'.Good := fun st' h => by
      have hl := LStmt.exec_le st st' _ h
      refine hg.le hl ?_
      rw [LStmt.exec] at h
      split at h
      · cases h
      · exact (LState.assign_len h).2
    refine ⟨?_, key⟩
    rw [LStmt.exec]
    split
    · rintro ⟨⟩
    next p hp => exact LState.assign_safe (hg p (List.mem_of_getElem? hp)) fun x => NoD.assign _ _ _ _ _
  | obj k q =>
    have key : ∀ st', LStmt.exec st (.obj k q) = .ok st' → st'.Good := fun st' h => by
      have hl := LStmt.exec_le st st' _ h
      refine hg.le hl ?_
      rw [LStmt.exec] at h
      split at h
      · cases h
      · split at h
        · exact (LState.assign_len h).2
        · cases h
    refine ⟨?_, key⟩
    rw [LStmt.exec]
    split
    · rintro ⟨⟩
    next p hp =>
      split
      · refine LState.assign_safe (hg p (List.mem_of_getElem? hp)) fun x => ?_
        split_ifs
        · exact NoD.assignSelf _ _ _ _
        · exact NoD.assign _ _ _ _ _
      · rintro ⟨⟩
  | block ret body =>
    rw [LStmt.Contained] at hc
    obtain ⟨hb, hret⟩ := hc
    obtain ⟨h1, h2⟩ := LStmt.run_safe st body hg hb
    rw [LStmt.exec]
    refine ⟨h1.bind fun st₁ => ?_, fun st' h => ?_⟩
    · rw [LState.leave]
      split_ifs
      · split <;> rintro ⟨⟩
      · rintro ⟨⟩
    · cases hr : LStmt.run st body with
      | error e => rw [hr] at h; cases h
      | ok st₁ =>
        rw [hr] at h
        have hle := LStmt.run_le st st₁ body hr
        obtain ⟨k1, -, -, k4⟩ := LState.leave_le hle h
        cases ret with
        | false => exact hg.le k1 (by simpa using k4)
        | true =>
          rw [if_pos rfl] at k4
          obtain ⟨p, hp, he⟩ := k4
          have hs := LStmt.run_scope st st₁ body hr
          have hlt := hret rfl p.obj (by
            rw [← hs]; dsimp only
            rw [List.length_map, ← List.map_drop, List.getLast?_map, hp]; rfl)
          intro q hq
          rw [he] at hq
          rcases List.mem_append.mp hq with hq | hq
          · rw [k1.2.1 _ (LState.shape_lt (hg q hq))]; exact hg q hq
          · cases List.mem_singleton.mp hq
            rw [k1.2.1 _ hlt, ← hle.2.1 _ hlt]
            exact h2 st₁ hr p (List.mem_of_mem_drop (List.mem_of_getLast? hp))
theorem LStmt.run_safe (st : LState) (cs : List LStmt) (hg : st.Good)
    (hc : LStmt.AllContained st.mem.length (st.env.map Proxy.obj) cs) :
    NoD (LStmt.run st cs) ∧ ∀ st', LStmt.run st cs = .ok st' → st'.Good := by
  cases cs with
  | nil =>
    rw [LStmt.run]
    exact ⟨NoD.ok _, by rintro st' ⟨⟩; exact hg⟩
  | cons c cs =>
    rw [LStmt.AllContained] at hc
    obtain ⟨h1, h2⟩ := LStmt.exec_safe st c hg hc.1
    rw [LStmt.run]
    cases hb : c.exec st with
    | error e => rw [hb] at h1; exact ⟨fun he => h1 (by cases he; rfl), by rintro st' ⟨⟩⟩
    | ok st₁ =>
      have hs := LStmt.exec_scope st st₁ c hb
      have hc2 := hc.2
      rw [← hs] at hc2
      exact LStmt.run_safe st₁ cs (h2 st₁ hb) hc2
end

/-- **C188, sufficient condition.** If every block (function, full expression) returns only proxies
of vectors that were declared before it, then no assignment of the program goes through a dangling
reference, whatever the nesting, the bounds and the values, and also if another assignment is undefined. In
particular no program without returned proxies has one. -/
theorem C188_contained (cs : List LStmt) (hc : LStmt.AllContained 0 [] cs) :
    LStmt.run ⟨[], []⟩ cs ≠ .error .dangling :=
  (LStmt.run_safe ⟨[], []⟩ cs (fun p hp => by cases hp) hc).1

/-- **C188 is false for returned proxies.** A block that returns a proxy of a vector declared
inside it, or a statement that keeps a proxy of a temporary, leaves a proxy that dangles for
ever: after any further statements, any assignment through it is undefined behaviour, also if the
vector is assigned nothing outside its bounds. -/
theorem C188_refuted (st st₁ st₂ : LState) (body cs : List LStmt) (p : Proxy)
    (hb : LStmt.run st body = .ok st₁) (hp : (st₁.env.drop st.env.length).getLast? = some p)
    (hlocal : st.mem.length ≤ p.obj) (hin : p.obj < st₁.mem.length)
    (hcs : LStmt.run st (.block true body :: cs) = .ok st₂) (v : AnyObj) :
    LStmt.run st (.block true body :: cs ++ [.val st.env.length v]) = .error .dangling := by
  have app : ∀ (cs : List LStmt) (a b : LState) (d : LStmt), LStmt.run a cs = .ok b →
      LStmt.run a (cs ++ [d]) = d.exec b := by
    intro cs
    induction cs with
    | nil =>
      intro a b d h
      rw [LStmt.run] at h
      cases h
      rw [List.nil_append, LStmt.run]
      cases d.exec a <;> rfl
    | cons c cs ih =>
      intro a b d h
      rw [LStmt.run] at h
      rw [List.cons_append, LStmt.run]
      cases hc : c.exec a with
      | error e => rw [hc] at h; cases h
      | ok a₁ => rw [hc] at h; exact ih a₁ b d h
  rw [app _ _ _ _ hcs]
  rw [LStmt.run] at hcs
  cases he : LStmt.exec st (.block true body) with
  | error e => rw [he] at hcs; cases hcs
  | ok st₃ =>
    rw [he] at hcs
    have h32 := LStmt.run_le st₃ st₂ cs hcs
    rw [LStmt.exec, hb, res_bind_ok] at he
    obtain ⟨k1, k2, k3, k4⟩ := LState.leave_le (LStmt.run_le st st₁ body hb) he
    rw [if_pos rfl] at k4
    obtain ⟨q, hq, henv⟩ := k4
    rw [hp] at hq
    cases hq
    have hdead : st₂.shape p.obj = none := by
      rw [h32.2.1 _ (by omega)]; exact k2 _ hlocal
    obtain ⟨l, hl⟩ := h32.2.2
    have hk : st₂.env[st.env.length]? = some p := by
      rw [hl, henv]; simp
    have hlen : p.obj < st₂.mem.length := by have := h32.1; omega
    rw [LStmt.exec, hk]
    simp only [LState.assign]
    have hx : st₂.mem[p.obj]? = some st₂.mem[p.obj] := List.getElem?_eq_getElem hlen
    simp only [LState.shape, hx] at hdead
    rw [hx]
    cases hm : st₂.mem[p.obj] with
    | none => rfl
    | some x => rw [hm] at hdead; cases hdead

/-! ### meaning -/

/-- what a program means, without the library: the declared objects with their types and bits, those that are
alive, and the proxies in scope -/
structure LSem where
  n : Nat
  sh : Nat → Shape
  live : Nat → Bool
  env : List Proxy
  σ : Store

mutual
/-- the meaning of a statement -/
def LStmt.means (s : LSem) : LStmt → LSem
  | .decl v => { s with
      n := s.n + 1
      sh := Function.update s.sh s.n v.1
      live := Function.update s.live s.n true
      σ := Function.update s.σ s.n v.2.at }
  | .ref p => { s with env := s.env ++ [p] }
  | .val k v => match s.env[k]? with
    | none => s
    | some p => { s with σ := s.σ.put p.obj p.a p.b v.1.n v.2.at }
  | .obj k q => match s.env[k]? with
    | none => s
    | some p => { s with σ := s.σ.put p.obj p.a p.b (s.sh q).n (s.σ q) }
  | .block ret body =>
    let r := LStmt.meansAll s body
    { r with
      live := fun o => decide (o < s.n) && r.live o
      env := if ret then s.env ++ (r.env.drop s.env.length).getLast?.toList else s.env }
/-- the meaning of a list of statements -/
def LStmt.meansAll (s : LSem) : List LStmt → LSem
  | [] => s
  | c :: cs => LStmt.meansAll (c.means s) cs
end

mutual
/-- what a statement needs: named objects and assigned objects are alive, a returning block has a proxy to
return, assignments are of the kind of C162 -/
def LStmt.Ok (s : LSem) : LStmt → Prop
  | .decl _ => True
  | .ref p => p.obj < s.n ∧ s.live p.obj = true
  | .val k v => ∃ p, s.env[k]? = some p ∧ p.obj < s.n ∧ s.live p.obj = true ∧
    RStmt.Ok (s.sh p.obj) v.1 p v.2.at False
  | .obj k q => ∃ p, s.env[k]? = some p ∧ p.obj < s.n ∧ s.live p.obj = true ∧ q < s.n ∧ s.live q = true ∧
    RStmt.Ok (s.sh p.obj) (s.sh q) p (s.σ q) (q = p.obj)
  | .block ret body => LStmt.AllOk s body ∧
    (ret = true → (LStmt.meansAll s body).env.drop s.env.length ≠ [])
/-- all statements of a program have it where they stand -/
def LStmt.AllOk (s : LSem) : List LStmt → Prop
  | [] => True
  | c :: cs => c.Ok s ∧ LStmt.AllOk (c.means s) cs
end

/-- the state of the program is the meaning -/
def LState.Is (st : LState) (s : LSem) : Prop :=
  st.mem.length = s.n ∧ st.env = s.env ∧ ∀ o, o < s.n →
    (s.live o = true → ∃ x : Obj (s.sh o), st.mem[o]? = some (some ⟨s.sh o, x⟩) ∧
      ∀ i, i < (s.sh o).n → x.at i = s.σ o i) ∧
    (s.live o = false → st.mem[o]? = some none)

theorem LState.assign_is {st : LState} {s : LSem} (hs : st.Is s) (p : Proxy) (hp : p.obj < s.n)
    (hl : s.live p.obj = true) (m : Nat) (g : Nat → V4) (f : (x : AnyObj) → Res (Obj x.1))
    (hf : ∀ x : Obj (s.sh p.obj), st.mem[p.obj]? = some (some ⟨s.sh p.obj, x⟩) →
      (∀ i, i < (s.sh p.obj).n → x.at i = s.σ p.obj i) → ∃ y, f ⟨s.sh p.obj, x⟩ = .ok y ∧
      ∀ i, i < (s.sh p.obj).n → y.at i = if min p.a p.b ≤ i ∧ (i : Int) ≤ max p.a p.b then
        (if i - (min p.a p.b).toNat < m then g (i - (min p.a p.b).toNat) else .b0) else x.at i) :
    ∃ st', st.assign p f = .ok st' ∧ st'.Is { s with σ := s.σ.put p.obj p.a p.b m g } := by
  obtain ⟨h1, h2, h3⟩ := hs
  obtain ⟨x, hx, hxs⟩ := (h3 p.obj hp).1 hl
  obtain ⟨y, hy, hys⟩ := hf x hx hxs
  refine ⟨{ st with mem := st.mem.set p.obj (some ⟨s.sh p.obj, y⟩) }, ?_, by simpa using h1, h2, fun o ho => ?_⟩
  · rw [LState.assign, hx]
    dsimp only
    rw [hy]; rfl
  · have h3o := h3 o ho
    dsimp only at ho h3o ⊢
    by_cases e : o = p.obj
    · subst e
      refine ⟨fun _ => ⟨y, by rw [List.getElem?_set]; simp [h1, hp], fun i hi => ?_⟩, fun h => by
        rw [hl] at h; cases h⟩
      rw [hys i hi, Store.put, ← hxs i hi]
      simp
    · have hm : (st.mem.set p.obj (some ⟨s.sh p.obj, y⟩))[o]? = st.mem[o]? := by
        rw [List.getElem?_set]; simp [Ne.symm e]
      rw [hm]
      refine ⟨fun h => ?_, h3o.2⟩
      obtain ⟨z, hz, hzs⟩ := h3o.1 h
      exact ⟨z, hz, fun i hi => by rw [hzs i hi, Store.put, if_neg fun h => e h.1]⟩

mutual
theorem LStmt.exec_is (st : LState) (s : LSem) (c : LStmt) (hs : st.Is s) (hc : c.Ok s) :
    ∃ st', c.exec st = .ok st' ∧ st'.Is (c.means s) := by
  cases c with
  | decl v =>
    obtain ⟨h1, h2, h3⟩ := hs
    refine ⟨_, by rw [LStmt.exec], by simp [LStmt.means, h1], by rw [LStmt.means]; exact h2, ?_⟩
    rw [LStmt.means]
    intro o ho
    dsimp only at ho ⊢
    by_cases e : o = s.n
    · subst e
      refine ⟨fun _ => ?_, fun h => by simp at h⟩
      have : ∀ (T : Shape) (hT : T = v.1), ∃ x : Obj T, (st.mem ++ [some v])[s.n]? = some (some ⟨T, x⟩) ∧
          ∀ i, i < T.n → x.at i = Function.update s.σ s.n v.2.at s.n i := by
        rintro T rfl
        exact ⟨v.2, by rw [List.getElem?_append_right (by omega)]; simp [h1], fun _ _ => by
          rw [Function.update_self]⟩
      exact this (Function.update s.sh s.n v.1 s.n) (Function.update_self _ _ _)
    · have hlt : o < s.n := by omega
      have h3o := h3 o hlt
      rw [Function.update_of_ne e, List.getElem?_append_left (by omega)]
      refine ⟨fun h => ?_, h3o.2⟩
      have : ∀ (T : Shape) (hT : T = s.sh o), ∃ x : Obj T, st.mem[o]? = some (some ⟨T, x⟩) ∧
          ∀ i, i < T.n → x.at i = Function.update s.σ s.n v.2.at o i := by
        rintro T rfl
        rw [Function.update_of_ne e]
        exact h3o.1 h
      exact this (Function.update s.sh s.n v.1 o) (Function.update_of_ne e _ _)
  | ref p =>
    obtain ⟨h1, h2, h3⟩ := hs
    rw [LStmt.Ok] at hc
    obtain ⟨x, hx, -⟩ := (h3 p.obj hc.1).1 hc.2
    rw [LStmt.exec, hx]
    refine ⟨_, rfl, ?_⟩
    rw [LStmt.means]
    exact ⟨h1, by simp [h2], h3⟩
  | val k v =>
    rw [LStmt.Ok] at hc
    obtain ⟨p, hp, hlt, hl, hok⟩ := hc
    have hp' := hp
    rw [← hs.2.1] at hp'
    rw [LStmt.exec, hp', LStmt.means, hp]
    exact LState.assign_is hs p hlt hl _ _ _ fun x _ _ => x.assign_spec v.2 p (fun _ _ => rfl) hok
  | obj k q =>
    rw [LStmt.Ok] at hc
    obtain ⟨p, hp, hlt, hl, hql, hqv, hok⟩ := hc
    have hp' := hp
    rw [← hs.2.1] at hp'
    obtain ⟨y, hy, hys⟩ := (hs.2.2 q hql).1 hqv
    rw [LStmt.exec, hp', LStmt.means, hp]
    dsimp only
    rw [hy]
    refine LState.assign_is hs p hlt hl _ _ _ fun x hx hxs => ?_
    by_cases e : q = p.obj
    · subst e
      rw [if_pos rfl]
      exact x.assignSelf_spec p hxs (by simpa using hok)
    · rw [if_neg e]
      exact x.assign_spec y p hys (by simpa [e] using hok)
  | block ret body =>
    rw [LStmt.Ok] at hc
    obtain ⟨st₁, hr, h1, h2, h3⟩ := LStmt.run_is st s body hs hc.1
    have hle := LStmt.run_le st st₁ body hr
    have hmem : ∀ o, o < (LStmt.meansAll s body).n →
        (st₁.mem.take st.mem.length ++ (st₁.mem.drop st.mem.length).map fun _ => (none : Option AnyObj))[o]? =
        if o < s.n then st₁.mem[o]? else some none := by
      intro o ho
      have hl := hle.1
      rw [← hs.1]
      split_ifs with c
      · rw [List.getElem?_append_left (by simp; omega), List.getElem?_take_of_lt c]
      · rw [List.getElem?_append_right (by simp; omega)]
        have : o - min st.mem.length st₁.mem.length < st₁.mem.length - st.mem.length := by omega
        simp [this]
    have hfin : ∀ env, LState.Is ⟨st₁.mem.take st.mem.length ++ (st₁.mem.drop st.mem.length).map fun _ => none, env⟩
        { LStmt.meansAll s body with
          live := fun o => decide (o < s.n) && (LStmt.meansAll s body).live o
          env := env } := by
      intro env
      refine ⟨by have := hle.1; simp; omega, rfl, fun o ho => ?_⟩
      dsimp only at ho ⊢
      rw [hmem o ho]
      by_cases c : o < s.n
      · have := h3 o ho
        simpa [c] using this
      · simp [c]
    have he : st₁.env.take st.env.length = s.env := by
      obtain ⟨l, hl⟩ := hle.2.2
      rw [hl, ← hs.2.1]; simp
    rw [LStmt.exec, hr, LStmt.means]
    change ∃ st', st₁.leave _ _ _ = _ ∧ _
    rw [LState.leave]
    cases ret with
    | false =>
      refine ⟨_, rfl, ?_⟩
      have := hfin (st₁.env.take st.env.length)
      rw [he] at this ⊢
      exact this
    | true =>
      rw [if_pos rfl]
      have hne := hc.2 rfl
      rw [← h2, ← hs.2.1] at hne
      rw [List.getLast?_eq_some_getLast hne]
      refine ⟨_, rfl, ?_⟩
      have := hfin (s.env ++ [(st₁.env.drop st.env.length).getLast hne])
      rw [he]
      rw [if_pos rfl, ← h2, ← hs.2.1, List.getLast?_eq_some_getLast hne]
      rw [← hs.2.1] at this
      exact this
theorem LStmt.run_is (st : LState) (s : LSem) (cs : List LStmt) (hs : st.Is s) (hc : LStmt.AllOk s cs) :
    ∃ st', LStmt.run st cs = .ok st' ∧ st'.Is (LStmt.meansAll s cs) := by
  cases cs with
  | nil => exact ⟨st, by rw [LStmt.run], by rw [LStmt.meansAll]; exact hs⟩
  | cons c cs =>
    rw [LStmt.AllOk] at hc
    obtain ⟨st₁, h1, h2⟩ := LStmt.exec_is st s c hs hc.1
    obtain ⟨st₂, h3, h4⟩ := LStmt.run_is st₁ _ cs h2 hc.2
    exact ⟨st₂, by rw [LStmt.run, h1]; exact h3, by rw [LStmt.meansAll]; exact h4⟩
end

/-- **C188, meaning, partial.** A program of declarations, proxies, assignments and nested blocks
whose assignments go through proxies of live vectors ends, and every vector that is alive at the
end holds what the program means. Missing: the assignments that C162 excludes. -/
theorem C188_meaning_partial (st : LState) (s : LSem) (cs : List LStmt) (hs : st.Is s) (hc : LStmt.AllOk s cs) :
    ∃ st', LStmt.run st cs = .ok st' ∧ st'.mem.length = (LStmt.meansAll s cs).n ∧
      ∀ o, o < (LStmt.meansAll s cs).n → (LStmt.meansAll s cs).live o = true →
        ∃ x : Obj ((LStmt.meansAll s cs).sh o), st'.mem[o]? = some (some ⟨_, x⟩) ∧
          ∀ i, i < ((LStmt.meansAll s cs).sh o).n → x.at i = (LStmt.meansAll s cs).σ o i := by
  obtain ⟨st', h1, h2, h3, h4⟩ := LStmt.run_is st s cs hs hc
  refine ⟨st', h1, h2, fun o ho hl => ?_⟩
  exact (h4 o ho).1 hl

/-- the 8-bit vector with the given value -/
private def v8 (a : Int) : AnyObj := ⟨⟨true, 8, false⟩, .logic (.ofInt a)⟩

/-- what a run shows of an object -/
private def objBits (r : Res LState) (o : Nat) : Res (Option (List V4)) :=
  r.map fun st => (st.mem[o]?.join).map fun x => (List.range x.1.n).map x.2.at

-- a proxy of an outer vector returned from a block that has a vector of its own, then used
example : LStmt.AllContained 0 [] [.decl (v8 0), .block true [.decl (v8 1), .ref ⟨0, false, 7, 4⟩], .val 0 (v8 0xf)] := by
  simp [LStmt.AllContained, LStmt.Contained, LStmt.scopeAll, LStmt.scope]
example : objBits (LStmt.run ⟨[], []⟩
      [.decl (v8 0), .block true [.decl (v8 1), .ref ⟨0, false, 7, 4⟩], .val 0 (v8 0xf)]) 0 =
    .ok (some [.b0, .b0, .b0, .b0, .b1, .b1, .b1, .b1]) := by decide +kernel
-- a proxy of the inner vector dangles
example : (LStmt.run ⟨[], []⟩
      [.decl (v8 0), .block true [.decl (v8 1), .ref ⟨1, false, 7, 4⟩], .val 0 (v8 0xf)]).toOption.isNone = true ∧
    objBits (LStmt.run ⟨[], []⟩
      [.decl (v8 0), .block true [.decl (v8 1), .ref ⟨1, false, 7, 4⟩], .val 0 (v8 0xf)]) 0 = .error .dangling ∧
    objBits (LStmt.run ⟨[], []⟩
      [.decl (v8 0), .block false [.decl (v8 1), .ref ⟨1, false, 7, 4⟩, .val 0 (v8 0xf)]]) 1 = .ok none := by
  decide +kernel
-- the hypotheses of the meaning hold for the first program
example : LStmt.AllOk ⟨0, fun _ => ⟨true, 8, false⟩, fun _ => false, [], fun _ _ => .b0⟩
    [.decl (v8 0), .block true [.decl (v8 1), .ref ⟨0, false, 7, 4⟩], .val 0 (v8 0xf)] := by
  simp [LStmt.AllOk, LStmt.Ok, LStmt.meansAll, LStmt.means, RStmt.Ok, v8, Function.update]
  omega

end Verif
