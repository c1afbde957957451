import Verif.Model.Alias
import Mathlib.Logic.Function.Basic

/-!
# Reference proxies as objects (`bit.hh` 1202-1231)

`x.slice_ref<a, b>()` (`bit.hh` 182-184, `logic.hh` 185-187) and `x.slice_ref(a, b)`
(`bit.hh` 191, `logic.hh` 198) return an object that holds a reference to `x`. It can be kept,
assigned to several times, and exist beside other proxies of the same object. An assignment
calls `update` of the referenced object, with the state that object has at that time, and returns
the proxy itself, so that `(p = v) = w` is `p = v; p = w`.

Objects are declared `[n-1:0]` and live as long as the program. A proxy has no way of being read, and
cannot be assigned to another proxy (the reference member deletes the copy assignment, which
overload resolution prefers to the template).
-/

namespace Verif

/-- the type of an object: `logic<n-1, 0, s>` or `bit<n-1, 0, s>` -/
structure Shape where
  four : Bool
  n : Nat
  s : Bool

/-- an object of a type -/
inductive Obj : Shape → Type
  | bit {n : Nat} {s : Bool} (x : Bits n s) : Obj ⟨false, n, s⟩
  | logic {n : Nat} {s : Bool} (x : Lg n s) : Obj ⟨true, n, s⟩

/-- `slice_ref_fixed` (the bounds are template arguments) and `slice_ref_runtime` (the bounds are
members `a_`, `b_`): the referenced object and the bounds, `bit.hh` 1202-1231 -/
structure Proxy where
  obj : Nat
  fixed : Bool
  a : Int
  b : Int

/-- `self_.update<a, b>(value)` or `self_.update(a_, b_, value)`, lines 1208-1211 and 1223-1226,
where `value` is not the referenced object. `update` of `bit` takes a `bit`, that of `logic` a
`logic` (`bit.hh` 933-956, `logic.hh` 923-934): the mixed forms do not compile. -/
def Obj.assign {T V : Shape} (fixed : Bool) (a b : Int) : Obj T → Obj V → Res (Obj T)
  | @Obj.bit n _ x, @Obj.bit m _ v =>
    (if fixed then x.update (Rng.down n) a b (Rng.down m) v
      else x.updateRt (Rng.down n) a b (Rng.down m) v).map .bit
  | @Obj.logic n _ x, @Obj.logic m _ v =>
    (if fixed then x.update (Rng.down n) a b (Rng.down m) v
      else x.updateRt (Rng.down n) a b (Rng.down m) v).map .logic
  | .bit _, .logic _ => .error .illFormed
  | .logic _, .bit _ => .error .illFormed

/-- the same, where `value` is the referenced object (`Model/Alias.lean`) -/
def Obj.assignSelf {T : Shape} (fixed : Bool) (a b : Int) : Obj T → Res (Obj T)
  | @Obj.bit n _ x =>
    (if fixed then x.updateSelf (Rng.down n) a b else x.updateRtSelf (Rng.down n) a b).map .bit
  | @Obj.logic n _ x => (x.updateSelf (Rng.down n) a b).map .logic

/-- the memory: every object has a type and a state -/
abbrev Mem (sh : Nat → Shape) := (o : Nat) → Obj (sh o)

/-- statements of a program with proxies -/
inductive RStmt : Type
  /-- `auto p = x.slice_ref<a, b>();` or `auto p = x.slice_ref(a, b);`: the next proxy -/
  | ref (p : Proxy)
  /-- `p = v;` with a temporary `v` -/
  | val (k : Nat) (V : Shape) (v : Obj V)
  /-- `p = y;` with an object `y` -/
  | obj (k : Nat) (q : Nat)

/-- one statement; the proxies are numbered in the order of their declarations -/
def RStmt.exec {sh : Nat → Shape} (M : Mem sh) (env : List Proxy) : RStmt → Res (Mem sh × List Proxy)
  | .ref p => .ok (M, env ++ [p])
  | .val k _ v =>
    match env[k]? with
    | none => .error .illFormed
    | some p => ((M p.obj).assign p.fixed p.a p.b v).map fun y => (Function.update M p.obj y, env)
  | .obj k q =>
    match env[k]? with
    | none => .error .illFormed
    | some p =>
      (if q = p.obj then (M p.obj).assignSelf p.fixed p.a p.b
        else (M p.obj).assign p.fixed p.a p.b (M q)).map fun y => (Function.update M p.obj y, env)

/-- a program -/
def RStmt.run {sh : Nat → Shape} (M : Mem sh) (env : List Proxy) : List RStmt → Res (Mem sh × List Proxy)
  | [] => .ok (M, env)
  | c :: cs => (RStmt.exec M env c).bind fun r => RStmt.run r.1 r.2 cs

end Verif
