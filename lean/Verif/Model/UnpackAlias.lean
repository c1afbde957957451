import Verif.Model.Logic
import Mathlib.Logic.Function.Basic

/-!
# `unpack` into variables, with aliasing (`logic.hh` 267-276 and 1091-1109)

The arguments of `unpack` are references. The same variable may be named several times, and an
argument may be the unpacked vector itself: `x.unpack(x, a)`. `Lg.unpack` gives the new values of
distinct variables; the definitions of this file run the same steps on a memory of variables. `unpack` is a
`const` member, which does not keep its argument references from referring to `*this`.
-/

namespace Verif

/-- the variables: a width, a signedness and a value for each number -/
abbrev Vars (sh : Nat → Nat × Bool) := (o : Nat) → Lg (sh o).1 (sh o).2

namespace Vars

variable {sh : Nat → Nat × Bool}

/-- one step of `unpack_`, lines 1091-1097: the value plane of the argument is assigned before
the x/z plane of `*this` is read -/
def unpackOne (r : Rng) (src base v : Nat) (M : Vars sh) : Res (Vars sh) :=
  if base < (sh src).1 then
    let ub := min ((sh src).1 - 1) ((sh v).1 + base - 1)
    ((M src).value.slice r base ub).bind fun a => (Lg.assignPlane a).bind fun a =>
    let M := Function.update M v ⟨a, (M v).xz⟩
    ((M src).xz.slice r base ub).bind fun k => (Lg.assignPlane k).map fun k =>
    Function.update M v ⟨(M v).value, k⟩
  else .error .illFormed

/-- `unpack_`, lines 1099-1109 -/
def unpackFrom (r : Rng) (src : Nat) : Nat → List Nat → Vars sh → Res (Vars sh)
  | _, [], M => .ok M
  | base, v :: vs, M => (unpackOne r src base v M).bind fun M => unpackFrom r src (base + (sh v).1) vs M

/-- `src.unpack(vs...)`, lines 267-276 -/
def unpack (r : Rng) (src : Nat) (vs : List Nat) (M : Vars sh) : Res (Vars sh) :=
  if r.bigEndian then unpackFrom r src r.lsb.toNat vs.reverse M else unpackFrom r src r.lsb.toNat vs M

end Vars
end Verif
