import Verif.Props.Programs
import Verif.Props.Bitwise
import Verif.Props.Convert
import Verif.Show

/-!
# A program: block cipher made of rounds (C224)

A round replaces the halves `(l, r)` of a block by `(r, l ^ f(r))`, with any function `f` written against the library. Going
back through the rounds undoes them, whatever the functions are: the last `^` meets the object it was made with.
-/

namespace Verif

variable {n : Nat}

/-- `t = l ^ f(r); l = r; r = t;` for the functions in order -/
def Bits.encipher : List (Bits n false → Res (Bits n false)) → Bits n false × Bits n false → Res (Bits n false × Bits n false)
  | [], p => .ok p
  | f :: fs, (l, r) => (f r).bind fun k => encipher fs (r, l.xor k)

/-- `t = r ^ f(l); r = l; l = t;` for the functions in the reverse order -/
def Bits.decipher : List (Bits n false → Res (Bits n false)) → Bits n false × Bits n false → Res (Bits n false × Bits n false)
  | [], p => .ok p
  | f :: fs, p => (decipher fs p).bind fun (l, r) => (f l).bind fun k => .ok (r.xor k, l)

/-- the same on 4-state halves -/
def Lg.encipher : List (Lg n false → Res (Lg n false)) → Lg n false × Lg n false → Res (Lg n false × Lg n false)
  | [], p => .ok p
  | f :: fs, (l, r) => (f r).bind fun k => (l.xor k).bind fun t => encipher fs (r, t)

/-- the same on 4-state halves -/
def Lg.decipher : List (Lg n false → Res (Lg n false)) → Lg n false × Lg n false → Res (Lg n false × Lg n false)
  | [], p => .ok p
  | f :: fs, p => (decipher fs p).bind fun (l, r) => (f l).bind fun k => (r.xor k).bind fun t => .ok (t, l)

theorem Bits.xor_twice (a b : Bits n false) : ((a.xor b : Bits n false).xor b : Bits n false) = a := by
  refine Bits.ext_raw fun i => ?_
  have e1 : ((a.xor b : Bits n false).xor b : Bits n false).raw i = ((a.xor b).raw i ^^ b.raw i) := Bits.raw_xor (s := false) (t := false) _ _ i
  rw [e1, Bits.raw_xor]
  cases a.raw i <;> cases b.raw i <;> rfl

/-- **C224, deciphering undoes enciphering**, at every width, for every number of rounds, all functions, and all objects
with their whole storage; it is undefined nowhere if enciphering was not. -/
theorem C224_inverse (fs : List (Bits n false → Res (Bits n false))) (p q : Bits n false × Bits n false)
    (h : Bits.encipher fs p = .ok q) : Bits.decipher fs q = .ok p := by
  induction fs generalizing p with
  | nil => injection h with h; subst h; rfl
  | cons f fs ih =>
    obtain ⟨l, r⟩ := p
    rw [Bits.encipher] at h
    cases e : f r with
    | error g => rw [e] at h; cases h
    | ok k =>
      rw [e, res_bind_ok] at h
      rw [Bits.decipher, ih _ h, res_bind_ok]
      show (f r).bind _ = _
      rw [e, res_bind_ok]
      exact congrArg (fun a => Except.ok (a, r)) (Bits.xor_twice l k)

/-- **C224, enciphering undoes deciphering**: so every block is the cipher of exactly one block, if the functions are defined everywhere. -/
theorem C224_onto (fs : List (Bits n false → Res (Bits n false))) (p q : Bits n false × Bits n false)
    (h : Bits.decipher fs q = .ok p) : Bits.encipher fs p = .ok q := by
  induction fs generalizing p with
  | nil => injection h with h; subst h; rfl
  | cons f fs ih =>
    rw [Bits.decipher] at h
    cases e : Bits.decipher fs q with
    | error g => rw [e] at h; cases h
    | ok w =>
      obtain ⟨l, r⟩ := w
      rw [e, res_bind_ok] at h
      cases e2 : f l with
      | error g =>
        change (f l).bind _ = _ at h
        rw [e2] at h; cases h
      | ok k =>
        have h' : (Except.ok ((r.xor k : Bits n false), l) : Res (Bits n false × Bits n false)) = .ok p := by
          rw [← h]; show _ = (f l).bind _; rw [e2]; rfl
        injection h' with h'
        subst h'
        rw [Bits.encipher, e2, res_bind_ok]
        refine ih _ ?_
        rw [e]
        exact congrArg (fun a => Except.ok (l, a)) (Bits.xor_twice r k).symm

theorem V4.xor_back (a b : V4) : a.isKnown = true → b.isKnown = true → (a.xor b).isKnown = true ∧ (a.xor b).xor b = a := by
  cases a <;> cases b <;> decide

theorem V4.xor_below (b m l k : V4) : (b.isKnown = true → b = l.xor k) → (m.isKnown = true → m = k) →
    (b.xor m).isKnown = true → b.xor m = l := by
  cases b <;> cases m <;> cases l <;> cases k <;> decide

/-- every known bit of `a` is that bit of `b` -/
def Lg.Below (a b : Lg n false) : Prop := ∀ i, i < n → (a.at i).isKnown = true → a.at i = b.at i

/-- **C224, 4-state halves: what comes back is right.** Let the functions be defined everywhere and such that an unknown bit of the argument
can only make bits of the result unknown. If a block reaches the other side with bits lost to x or z, deciphering it is
defined, and every bit that comes back known is that of the original block. -/
theorem C224_unknown (hn : 0 < n) (fs : List (Lg n false → Res (Lg n false)))
    (hf : ∀ f ∈ fs, ∀ a, ∃ k, f a = .ok k ∧ ∀ b m, a.Below b → f b = .ok m → k.Below m)
    (p q : Lg n false × Lg n false) (h : Lg.encipher fs p = .ok q) (q' : Lg n false × Lg n false)
    (h1 : q'.1.Below q.1) (h2 : q'.2.Below q.2) :
    ∃ p', Lg.decipher fs q' = .ok p' ∧ p'.1.Below p.1 ∧ p'.2.Below p.2 := by
  induction fs generalizing p with
  | nil => injection h with h; subst h; exact ⟨q', rfl, h1, h2⟩
  | cons f fs ih =>
    obtain ⟨l, r⟩ := p
    rw [Lg.encipher] at h
    obtain ⟨k, hk, -⟩ := hf f (by simp) r
    obtain ⟨t, ht, at'⟩ := C08_xor_table hn l k
    have ht' : (l.xor k : Res (Lg n false)) = .ok t := ht
    rw [hk, res_bind_ok, ht', res_bind_ok] at h
    obtain ⟨⟨a, b⟩, hd, b1, b2⟩ := ih (fun g hg => hf g (by simp [hg])) _ h
    obtain ⟨m, hm, mono⟩ := hf f (by simp) a
    obtain ⟨u, hu, au⟩ := C08_xor_table hn b m
    have hu' : (b.xor m : Res (Lg n false)) = .ok u := hu
    refine ⟨(u, a), ?_, ?_, b1⟩
    · rw [Lg.decipher, hd, res_bind_ok]
      show (f a).bind _ = _
      rw [hm, res_bind_ok, hu', res_bind_ok]
    · intro i hi hkn
      have km := mono r k b1 hk i hi
      have kb := b2 i hi
      have e1 := au i hi
      have e2 := at' i hi
      show Lg.at u i = l.at i
      change (Lg.at u i).isKnown = true at hkn
      change (b.at i).isKnown = true → b.at i = Lg.at t i at kb
      rw [e1] at hkn ⊢
      rw [e2] at kb
      exact V4.xor_below _ _ _ _ kb km hkn

/-- **C224, 4-state halves without x and z.** If the functions give known bits for known bits the block comes back. -/
theorem C224_known (hn : 0 < n) (fs : List (Lg n false → Res (Lg n false)))
    (hf : ∀ f ∈ fs, ∀ a : Lg n false, (∀ i, i < n → (a.at i).isKnown = true) → ∃ k, f a = .ok k ∧
      (∀ i, i < n → (k.at i).isKnown = true) ∧ ∀ b, (∀ i, i < n → b.at i = a.at i) → f b = .ok k)
    (p : Lg n false × Lg n false) (hl : ∀ i, i < n → (p.1.at i).isKnown = true) (hr : ∀ i, i < n → (p.2.at i).isKnown = true) :
    ∃ q p', Lg.encipher fs p = .ok q ∧ Lg.decipher fs q = .ok p' ∧
      ∀ i, i < n → p'.1.at i = p.1.at i ∧ p'.2.at i = p.2.at i := by
  induction fs generalizing p with
  | nil => exact ⟨p, p, rfl, rfl, fun _ _ => ⟨rfl, rfl⟩⟩
  | cons f fs ih =>
    obtain ⟨l, r⟩ := p
    obtain ⟨k, hk, kk, hb⟩ := hf f (by simp) r hr
    obtain ⟨t, ht, at'⟩ := C08_xor_table hn l k
    have ht' : (l.xor k : Res (Lg n false)) = .ok t := ht
    have kt : ∀ i, i < n → (Lg.at t i).isKnown = true := by
      intro i hi
      have h1 := hl i hi
      have h2 := kk i hi
      rw [at' i hi]
      exact (V4.xor_back _ _ h1 h2).1
    obtain ⟨q, ⟨a, b⟩, hq, hd, hab⟩ := ih (fun g hg => hf g (by simp [hg])) (r, t) hr kt
    obtain ⟨u, hu, au⟩ := C08_xor_table hn b k
    have hu' : (b.xor k : Res (Lg n false)) = .ok u := hu
    refine ⟨q, (u, a), ?_, ?_, fun i hi => ⟨?_, (hab i hi).1⟩⟩
    · rw [Lg.encipher, hk, res_bind_ok, ht', res_bind_ok]; exact hq
    · rw [Lg.decipher, hd, res_bind_ok]
      show (f a).bind _ = _
      rw [hb a (fun i hi => (hab i hi).1), res_bind_ok, hu', res_bind_ok]
    · have h1 := hl i hi
      have h2 := kk i hi
      have h3 := (hab i hi).2
      have h4 := au i hi
      have h5 := at' i hi
      show Lg.at u i = l.at i
      change b.at i = Lg.at t i at h3
      rw [h4, h3, h5]
      exact (V4.xor_back _ _ h1 h2).2

/-- **C224, a known bit need not come back** if the block has an x: with `f(r) = ~r`, an x in one half takes the bit of the other with it. -/
theorem C224_x_spreads : ∃ l r : Lg 8 false, (∀ i, i < 8 → (l.at i).isKnown = true) ∧ l.at 3 = .b0 ∧
    ((Lg.encipher [fun a => a.not] (l, r)).bind (Lg.decipher [fun a => a.not])).map (fun p => p.1.at 3) = .ok .x :=
  ⟨⟨Bits.ofInt 5, Bits.ofInt 0⟩, ⟨Bits.ofInt 0, Bits.ofInt 8⟩, by decide +kernel⟩

/-- `f(r) = ~r` meets the hypotheses of `C224_unknown` and `C224_known` at every width -/
example (hn : 0 < n) (a : Lg n false) : (∃ k, a.not = .ok k ∧ ∀ b m, a.Below b → b.not = .ok m → k.Below m) ∧
    ((∀ i, i < n → (a.at i).isKnown = true) → ∃ k, a.not = .ok k ∧ ∀ i, i < n → (k.at i).isKnown = true) := by
  obtain ⟨k, hk, at'⟩ := C09_not_table hn a
  refine ⟨⟨k, hk, fun b m h hm i hi hkn => ?_⟩, fun h => ⟨k, hk, fun i hi => ?_⟩⟩
  · obtain ⟨m', hm', am⟩ := C09_not_table hn b
    obtain rfl : m' = m := Except.ok.inj (hm'.symm.trans hm)
    rw [at' i hi] at hkn ⊢
    rw [am i hi]
    refine congrArg V4.not (h i hi ?_)
    revert hkn; cases a.at i <;> decide
  · have := h i hi
    rw [at' i hi]; revert this; cases a.at i <;> decide

/-- two rounds on halves of 12 bits with `f(r) = r * 5 + 3` and `f(r) = r << 3`, which leave bits above the width -/
example :
    let fs : List (Bits 12 false → Res (Bits 12 false)) :=
      [fun r => (r.mul (Bits.ofInt 5 : Bits 12 false)).bind fun t => Bits.add t (Bits.ofInt 3 : Bits 12 false),
       fun r => r.shl (Bits.ofInt 3 : Bits 12 false)]
    ((Bits.encipher fs (Bits.ofInt 1234, Bits.ofInt 4000)).map fun q => (q.1.bv.toNat, q.2.bv.toNat)) = .ok (2801, 2088) ∧
    (((Bits.encipher fs (Bits.ofInt 1234, Bits.ofInt 4000)).bind (Bits.decipher fs)).map fun q => (q.1.bv.toNat, q.2.bv.toNat)) =
      .ok (1234, 4000) := by decide +kernel

end Verif
