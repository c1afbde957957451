import Verif.Model.Ref

/-!
# Lifetimes of the vectors behind reference proxies (`bit.hh` 1202-1231)

`slice_ref_fixed` and `slice_ref_runtime` hold a C++ reference `T &self_`. The library does
nothing to keep the referenced vector alive: an assignment through a proxy whose vector has been
destroyed is undefined behaviour (`Fault.dangling`). `slice_ref` (`bit.hh` 182-184, 191,
`logic.hh` 185-187, 198) has no reference qualifier, so it can also be called on a temporary.

A program is a list of statements with nested blocks. An object lives from its declaration to the
end of the block that declares it; objects are numbered in the order in which they are declared, and a number is never
used again. A block may return the last proxy declared in it: this is a function that returns
`x.slice_ref(a, b)`, and, with a single declaration, the statement `auto p = f(x).slice_ref(a, b);` whose
temporary dies at the end of the statement. Loops and branches are not represented: the statements are those of one execution.
-/

namespace Verif

/-- an object of some type -/
abbrev AnyObj := Σ T : Shape, Obj T

/-- the state: the objects declared so far, `none` once destroyed, and the proxies in scope -/
structure LState where
  mem : List (Option AnyObj)
  env : List Proxy

/-- statements of a program with lifetimes -/
inductive LStmt : Type
  /-- `logic<n-1, 0, s> x = v;` or `bit<n-1, 0, s> x = v;` -/
  | decl (v : AnyObj)
  /-- `auto p = x.slice_ref<a, b>();` or `auto p = x.slice_ref(a, b);` -/
  | ref (p : Proxy)
  /-- `p = v;` with a temporary `v` -/
  | val (k : Nat) (v : AnyObj)
  /-- `p = y;` with an object `y` -/
  | obj (k : Nat) (q : Nat)
  /-- `{ ... }`; with `ret`, the last proxy of the body is returned and becomes the next proxy -/
  | block (ret : Bool) (body : List LStmt)

/-- assignment through the proxy `p`, `bit.hh` 1208-1211 and 1223-1226: `self_.update(...)` on the
referenced object -/
def LState.assign (st : LState) (p : Proxy) (f : (x : AnyObj) → Res (Obj x.1)) : Res LState :=
  match st.mem[p.obj]? with
  | some (some x) => (f x).map fun y => { st with mem := st.mem.set p.obj (some ⟨x.1, y⟩) }
  | some none => .error .dangling
  | none => .error .illFormed

/-- the end of a block: the objects from number `n` on are destroyed, `[stmt.dcl]`; the proxies of the block
go out of scope, except a returned one -/
def LState.leave (st : LState) (n k : Nat) (ret : Bool) : Res LState :=
  let mem := st.mem.take n ++ (st.mem.drop n).map fun _ => none
  let env := st.env.take k
  if ret then
    match (st.env.drop k).getLast? with
    | some p => .ok ⟨mem, env ++ [p]⟩
    | none => .error .illFormed
  else .ok ⟨mem, env⟩

mutual
/-- one statement. Naming an object or a proxy that is not in scope does not compile. -/
def LStmt.exec (st : LState) : LStmt → Res LState
  | .decl v => .ok { st with mem := st.mem ++ [some v] }
  | .ref p => match st.mem[p.obj]? with
    | some (some _) => .ok { st with env := st.env ++ [p] }
    | _ => .error .illFormed
  | .val k v => match st.env[k]? with
    | none => .error .illFormed
    | some p => st.assign p fun x => x.2.assign p.fixed p.a p.b v.2
  | .obj k q => match st.env[k]? with
    | none => .error .illFormed
    | some p => match st.mem[q]? with
      | some (some y) =>
        st.assign p fun x => if q = p.obj then x.2.assignSelf p.fixed p.a p.b else x.2.assign p.fixed p.a p.b y.2
      | _ => .error .illFormed
  | .block ret body =>
    (LStmt.run st body).bind fun st' => st'.leave st.mem.length st.env.length ret
/-- a list of statements -/
def LStmt.run (st : LState) : List LStmt → Res LState
  | [] => .ok st
  | c :: cs => (LStmt.exec st c).bind fun st' => LStmt.run st' cs
end

end Verif
