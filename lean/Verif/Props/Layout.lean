import Verif.Model.Layout
import Verif.Props.Convert
import Verif.Props.UpdateOut
import Verif.Props.RoundTrip
import Verif.Lemmas.OfBV
import Verif.Show

/-!
# Objects in memory (C190)
-/

namespace Verif

variable {n m w : Nat} {s t : Bool}

/-! ### sizes -/

theorem roundUp_self {a k : Nat} (ha : 0 < a) : roundUp (k * a) a = k * a := by
  rw [roundUp]
  congr 1
  rw [show k * a + a - 1 = (a - 1) + k * a by omega, Nat.add_mul_div_right _ _ ha, Nat.div_eq_of_lt (by omega)]
  omega

/-- bytes of the holder -/
def bytesOf (n : Nat) : Nat := if n ≤ 64 then sizeofBits n / 8 else 8 * limbs n

theorem sizeofBits_cases (n : Nat) : sizeofBits n = 8 ∨ sizeofBits n = 16 ∨ sizeofBits n = 32 ∨ sizeofBits n = 64 := by
  rw [sizeofBits, hw]; split_ifs <;> simp

theorem bitL_size (n : Nat) : (bitL n).size = bytesOf n ∧ (bitL n).align = (if n ≤ 64 then sizeofBits n / 8 else 8) := by
  rw [bitL, bytesOf, holderL]
  split_ifs with h
  · rcases sizeofBits_cases n with e | e | e | e <;> simp [e, Ty.size, Ty.align, roundUp]
  · have e : ∀ k, roundUp (k * 8) 8 = k * 8 := fun k => roundUp_self (by omega)
    simp only [Ty.size, Ty.align, e]
    exact ⟨Nat.mul_comm _ _, trivial⟩

theorem bytesOf_dvd (n : Nat) : ∃ k, bytesOf n = k * (bitL n).align ∧ 0 < (bitL n).align := by
  rw [(bitL_size n).2, bytesOf]
  split_ifs
  · rcases sizeofBits_cases n with e | e | e | e <;> rw [e] <;> exact ⟨1, by simp, by norm_num⟩
  · exact ⟨limbs n, by omega, by omega⟩

theorem bit_roundUp (n : Nat) : roundUp (bitL n).size (bitL n).align = (bitL n).size := by
  obtain ⟨k, hk, ha⟩ := bytesOf_dvd n
  rw [(bitL_size n).1, hk, roundUp_self ha]

theorem logicL_size (n : Nat) : (logicL n).size = 2 * bytesOf n ∧ (logicL n).align = (bitL n).align := by
  obtain ⟨k, hk, ha⟩ := bytesOf_dvd n
  refine ⟨?_, by simp [logicL, Ty.align]⟩
  rw [logicL, Ty.size, bit_roundUp, (bitL_size n).1, max_self, hk, show k * (bitL n).align + k * (bitL n).align = (2 * k) * (bitL n).align by ring,
    roundUp_self ha]
  ring

/-! ### bytes -/

theorem Rep.ofInt_length {k : Nat} (b : Nat) (v : BitVec k) : (Rep.ofInt b v).length = b := by simp [Rep.ofInt]

theorem Rep.pad_self {r : Rep} {k : Nat} (h : r.length = k) : r.pad k = r := by simp [Rep.pad, h]

/-- `r` holds the bits `f`, without padding, in `k` bytes -/
def Rep.Holds (r : Rep) (k : Nat) (f : Nat → Bool) : Prop :=
  r.length = k ∧ ∀ p, p < k → ∃ b : BitVec 8, r[p]? = some (some b) ∧ ∀ j, j < 8 → b.getLsbD j = f (8 * p + j)

theorem Rep.Holds.ofInt {k : Nat} (b : Nat) (v : BitVec k) : (Rep.ofInt b v).Holds b v.getLsbD := by
  refine ⟨Rep.ofInt_length b v, fun p hp => ⟨v.extractLsb' (8 * p) 8, by simp [Rep.ofInt, hp], fun j hj => ?_⟩⟩
  simp [hj]

theorem Rep.holds_flat : ∀ (l : List (BitVec 64)), Rep.Holds (l.flatMap (Rep.ofInt 8)) (8 * l.length)
    fun i => (l.getD (i / 64) 0).getLsbD (i % 64)
  | [] => ⟨by simp, by simp⟩
  | v :: l => by
    obtain ⟨h1, h2⟩ := Rep.holds_flat l
    refine ⟨by simp only [List.flatMap_cons, List.length_append, Rep.ofInt_length, h1, List.length_cons]; omega, fun p hp => ?_⟩
    rw [List.flatMap_cons]
    by_cases h : p < 8
    · obtain ⟨b, hb, hf⟩ := (Rep.Holds.ofInt 8 v).2 p h
      refine ⟨b, by rw [List.getElem?_append_left (by rw [Rep.ofInt_length]; exact h), hb], fun j hj => ?_⟩
      rw [hf j hj]
      show _ = ((v :: l).getD ((8 * p + j) / 64) 0).getLsbD ((8 * p + j) % 64)
      rw [show (8 * p + j) / 64 = 0 by omega, show (8 * p + j) % 64 = 8 * p + j by omega]
      rfl
    · obtain ⟨b, hb, hf⟩ := h2 (p - 8) (by simp only [List.length_cons] at hp; omega)
      refine ⟨b, by rw [List.getElem?_append_right (by rw [Rep.ofInt_length]; omega), Rep.ofInt_length, hb], fun j hj => ?_⟩
      rw [hf j hj]
      show (l.getD ((8 * (p - 8) + j) / 64) 0).getLsbD ((8 * (p - 8) + j) % 64) = ((v :: l).getD ((8 * p + j) / 64) 0).getLsbD ((8 * p + j) % 64)
      rw [show (8 * p + j) / 64 = (8 * (p - 8) + j) / 64 + 1 by omega, show (8 * p + j) % 64 = (8 * (p - 8) + j) % 64 by omega]
      rfl

theorem Bits.rep_holds (x : Bits n s) : x.rep.Holds (bytesOf n) x.raw := by
  have hs := (bitL_size n).1
  cases x with
  | nat h r =>
    rw [Bits.rep, Rep.wrap, Rep.pad_self]
    · have := Rep.Holds.ofInt (sizeofBits n / 8) r
      rw [bytesOf, if_pos h]; exact this
    · rw [Rep.ofInt_length]
      rw [bitL, bytesOf, if_pos h] at hs
      exact hs.symm
  | big h b =>
    have key := Rep.holds_flat b.vals
    rw [b.len] at key
    have e : ∀ k, roundUp (k * 8) 8 = k * 8 := fun k => roundUp_self (by omega)
    have e1 : (Ty.wrap (.arr (limbs n) (.int 8))).size = 8 * limbs n := by simp only [Ty.size, Ty.align, e]; omega
    have e2 : (Ty.wrap (.wrap (.arr (limbs n) (.int 8)))).size = 8 * limbs n := by simp only [Ty.size, Ty.align, e]; omega
    rw [bitL, bytesOf, if_neg h] at hs
    rw [Bits.rep, Rep.wrap, Rep.wrap, Rep.wrap, e1, e2, hs, Rep.pad_self key.1, Rep.pad_self key.1, Rep.pad_self key.1, bytesOf, if_neg h]
    exact key

theorem Lg.rep_eq (x : Lg n s) : x.rep = x.value.rep ++ x.xz.rep := by
  have h1 := (Bits.rep_holds x.value).1
  have h2 := (Bits.rep_holds x.xz).1
  have hs := (bitL_size n).1
  have hl := (logicL_size n).1
  have e1 : x.value.rep.pad (bitL n).size = x.value.rep := Rep.pad_self (by rw [h1, hs])
  rw [Lg.rep, Rep.pair, bit_roundUp, e1, Rep.pad_self]
  rw [List.length_append, h1, h2, ← logicL, hl]; omega

/-- **C190, sizes.** A `bit` of `n` bits takes a power of two of bytes, the least that has `n` bits, up to 64 bits; above, the least
multiple of 8 bytes. A `logic` takes twice as much. -/
theorem C190_sizeof (h0 : 0 < n) :
    (n ≤ 64 → ∃ k, k ≤ 3 ∧ (bitL n).size = 2 ^ k ∧ n ≤ 8 * 2 ^ k ∧ ∀ j, n ≤ 8 * 2 ^ j → k ≤ j) ∧
    (64 < n → ∃ k, (bitL n).size = 8 * k ∧ n ≤ 64 * k ∧ 64 * k < n + 64) ∧
    (logicL n).size = 2 * (bitL n).size ∧ (∀ ra : Rng, (packedL true w ra).size = (logicL (ra.size * w)).size ∧
      (packedL false w ra).size = (bitL (ra.size * w)).size ∧ (unpackedL (logicL n) ra).size = ra.size * (logicL n).size ∧
      (unpackedL (bitL n) ra).size = ra.size * (bitL n).size) := by
  obtain ⟨k, hk, ha⟩ := bytesOf_dvd n
  refine ⟨fun h => ?_, fun h => ⟨limbs n, ?_, ?_, ?_⟩, ?_, fun ra => ⟨?_, ?_, ?_, ?_⟩⟩
  · have key : ∀ k b : Nat, (bitL n).size = 2 ^ k → n ≤ 8 * 2 ^ k → (k = 0 ∨ 8 * 2 ^ (k - 1) < n) →
        ∀ j, n ≤ 8 * 2 ^ j → k ≤ j := fun k b _ _ hl j hj => by
      by_contra hc
      have : 2 ^ j ≤ 2 ^ (k - 1) := Nat.pow_le_pow_right (by omega) (by omega)
      omega
    have hsz : (bitL n).size = (if n ≤ 8 then 1 else if n ≤ 16 then 2 else if n ≤ 32 then 4 else 8) := by
      rw [(bitL_size n).1, bytesOf, if_pos h, sizeofBits, hw]; split_ifs <;> omega
    by_cases h1 : n ≤ 8
    · exact ⟨0, by omega, by rw [hsz, if_pos h1]; rfl, by omega, fun j _ => by omega⟩
    by_cases h2 : n ≤ 16
    · have e : (bitL n).size = 2 ^ 1 := by rw [hsz, if_neg h1, if_pos h2]; rfl
      exact ⟨1, by omega, e, by omega, key 1 0 e (by omega) (Or.inr (by simp only [Nat.sub_self, pow_zero]; omega))⟩
    by_cases h3 : n ≤ 32
    · have e : (bitL n).size = 2 ^ 2 := by rw [hsz, if_neg h1, if_neg h2, if_pos h3]; rfl
      exact ⟨2, by omega, e, by omega, key 2 0 e (by omega) (Or.inr (by norm_num; omega))⟩
    · have e : (bitL n).size = 2 ^ 3 := by rw [hsz, if_neg h1, if_neg h2, if_neg h3]; rfl
      exact ⟨3, by omega, e, by omega, key 3 0 e (by omega) (Or.inr (by norm_num; omega))⟩
  · rw [(bitL_size n).1, bytesOf, if_neg (by omega)]
  · rw [limbs]; split_ifs <;> omega
  · rw [limbs]; split_ifs <;> omega
  · rw [(logicL_size n).1, (bitL_size n).1]
  · obtain ⟨k, hk, ha⟩ := bytesOf_dvd (ra.size * w)
    rw [packedL, if_pos rfl, Ty.size, (logicL_size _).1, (logicL_size _).2, hk, ← Nat.mul_assoc, roundUp_self ha]
  · rw [packedL, if_neg (by simp), Ty.size, bit_roundUp]
  · simp only [unpackedL, Ty.size, Ty.align]
    rw [(logicL_size n).1, (logicL_size n).2, hk, ← Nat.mul_assoc, ← Nat.mul_assoc, roundUp_self ha, roundUp_self ha]
  · simp only [unpackedL, Ty.size, Ty.align]
    rw [(bitL_size n).1, hk, ← Nat.mul_assoc, roundUp_self ha, roundUp_self ha]

/-- **C190, places.** The bytes of an object fill it without padding; bit `i` of the value is bit `i mod 8` of byte `i / 8`,
and bit `i` of the mask lies `sizeof(bit)` bytes later. -/
theorem C190_places (x : Lg n s) :
    x.rep.length = (logicL n).size ∧ (∀ p, p < (logicL n).size → ∃ b, x.rep[p]? = some (some b)) ∧
    ∀ i, i < n → ∃ v k : BitVec 8, x.rep[i / 8]? = some (some v) ∧ x.rep[(bitL n).size + i / 8]? = some (some k) ∧
      V4.mk (v.getLsbD (i % 8)) (k.getLsbD (i % 8)) = x.at i := by
  obtain ⟨h1, f1⟩ := Bits.rep_holds x.value
  obtain ⟨h2, f2⟩ := Bits.rep_holds x.xz
  have hs := (bitL_size n).1
  have hl := (logicL_size n).1
  rw [Lg.rep_eq, List.length_append, h1, h2, hl, hs]
  have hget : ∀ p, p < bytesOf n → (x.value.rep ++ x.xz.rep)[p]? = x.value.rep[p]? := fun p hp =>
    List.getElem?_append_left (by omega)
  have hget' : ∀ p, (x.value.rep ++ x.xz.rep)[bytesOf n + p]? = x.xz.rep[p]? := fun p => by
    rw [List.getElem?_append_right (by omega), h1, Nat.add_sub_cancel_left]
  refine ⟨by omega, fun p hp => ?_, fun i hi => ?_⟩
  · by_cases h : p < bytesOf n
    · obtain ⟨b, hb, -⟩ := f1 p h
      exact ⟨b, by rw [hget p h, hb]⟩
    · obtain ⟨b, hb, -⟩ := f2 (p - bytesOf n) (by omega)
      exact ⟨b, by rw [show p = bytesOf n + (p - bytesOf n) by omega, hget', hb]⟩
  · have hin : i / 8 < bytesOf n := by
      rw [bytesOf]
      split_ifs with h
      · have := le_hw h
        rw [sizeofBits]; rw [hw] at *; split_ifs at * <;> omega
      · rw [limbs]; split_ifs <;> omega
    obtain ⟨v, hv, fv⟩ := f1 (i / 8) hin
    obtain ⟨k, hk, fk⟩ := f2 (i / 8) hin
    refine ⟨v, k, by rw [hget _ hin, hv], by rw [hget', hk], ?_⟩
    rw [fv _ (by omega), fk _ (by omega), show 8 * (i / 8) + i % 8 = i by omega, Lg.at_of_raw hi]

theorem Rep.Holds.eq {r q : Rep} {k : Nat} {f g : Nat → Bool} (hr : r.Holds k f) (hq : q.Holds k g) :
    r = q ↔ ∀ i, i < 8 * k → f i = g i := by
  constructor
  · rintro rfl i hi
    obtain ⟨b, hb, hf⟩ := hr.2 (i / 8) (by omega)
    obtain ⟨c, hc, hg⟩ := hq.2 (i / 8) (by omega)
    rw [hb, Option.some.injEq, Option.some.injEq] at hc
    subst hc
    rw [show i = 8 * (i / 8) + i % 8 by omega, ← hf _ (by omega), ← hg _ (by omega)]
  · intro h
    apply List.ext_getElem?
    intro p
    by_cases hp : p < k
    · obtain ⟨b, hb, hf⟩ := hr.2 p hp
      obtain ⟨c, hc, hg⟩ := hq.2 p hp
      rw [hb, hc]
      congr 2
      exact BitVec.eq_of_getLsbD_eq fun j hj => by rw [hf j hj, hg j hj, h _ (by omega)]
    · rw [List.getElem?_eq_none (by rw [hr.1]; omega), List.getElem?_eq_none (by rw [hq.1]; omega)]

/-- stored bits end with the object -/
theorem Bits.raw_beyond (x : Bits n s) {i : Nat} (h : 8 * bytesOf n ≤ i) : x.raw i = false := by
  rw [bytesOf] at h
  cases x with
  | nat h' r =>
    rw [if_pos h'] at h
    exact BitVec.getLsbD_of_ge r i (by rw [sizeofBits] at h; rw [hw] at *; split_ifs at * <;> omega)
  | big h' b =>
    rw [if_neg h'] at h
    exact Big.raw_of_ge b (by omega)

theorem Bits.rep_inj (x y : Bits n s) : x.rep = y.rep ↔ x = y := by
  refine ⟨fun h => ?_, fun h => by rw [h]⟩
  have := ((Bits.rep_holds x).eq (Bits.rep_holds y)).1 h
  refine Bits.ext_raw fun i => ?_
  by_cases hi : i < 8 * bytesOf n
  · exact this i hi
  · rw [Bits.raw_beyond x (by omega), Bits.raw_beyond y (by omega)]

theorem Lg.rep_inj (x y : Lg n s) : x.rep = y.rep ↔ x = y := by
  refine ⟨fun h => ?_, fun h => by rw [h]⟩
  rw [Lg.rep_eq, Lg.rep_eq] at h
  obtain ⟨h1, h2⟩ := List.append_inj h (by rw [(Bits.rep_holds x.value).1, (Bits.rep_holds y.value).1])
  have a := (Bits.rep_inj _ _).1 h1
  have b := (Bits.rep_inj _ _).1 h2
  cases x; cases y
  simp only at a b
  rw [a, b]

/-- **C190, bytes.** Objects with the same bytes are the same, so copying the bytes copies the object; canonical objects have the same
bytes exactly if they have the same bits. -/
theorem C190_bytes :
    (∀ x y : Lg n s, x.rep = y.rep ↔ x = y) ∧ (∀ x y : Bits n s, x.rep = y.rep ↔ x = y) ∧
    (∀ x y : Lg n s, x.Clean → y.Clean → (x.rep = y.rep ↔ ∀ i, i < n → x.at i = y.at i)) ∧
    ∀ x y : Bits n s, x.Clean → y.Clean → (x.rep = y.rep ↔ x.bv = y.bv) :=
  ⟨Lg.rep_inj, Bits.rep_inj,
    fun x y hx hy => (Lg.rep_inj x y).trans ⟨fun h i _ => by rw [h], Lg.clean_ext hx hy⟩,
    fun x y hx hy => (Bits.rep_inj x y).trans ⟨fun h => by rw [h], Bits.Clean.ext hx hy⟩⟩

/-- **C190 is false of values that are not canonical**: `~x` of a vector that does not fill its holder never has the bytes of
the canonical object with its bits, at any such width. -/
theorem C190_bytes_refuted (h : n ≤ 64) (h1 : 1 < n) (hlt : n < hw n) (x : Bits n false) (hx : x.Clean) :
    ∃ y : Bits n false, y.Clean ∧ y.bv = x.not.bv ∧ y.rep ≠ x.not.rep := by
  obtain ⟨y, hy, e⟩ := Bits.exists_clean (s := false) x.not.bv
  refine ⟨y, hy, e, fun hc => ?_⟩
  have he := (Bits.rep_inj y _).1 hc
  have a := (Bits.clean_unsigned_iff y).1 hy n le_rfl
  rw [he, Bits.raw_not_native h (by omega) x hlt, (Bits.clean_unsigned_iff x).1 hx n le_rfl] at a
  simp at a

/-- **C190, packed and unpacked arrays.** A packed array of 2-state elements never takes more than 7 bytes above the unpacked array of the
same elements, of 4-state elements 14. -/
theorem C190_packed (hw0 : 0 < w) (ra : Rng) :
    (packedL false w ra).size ≤ (unpackedL (bitL w) ra).size + 7 ∧
    (packedL true w ra).size ≤ (unpackedL (logicL w) ra).size + 14 := by
  have hr : 0 < ra.size := by rw [Rng.size]; omega
  have hN : 0 < ra.size * w := Nat.mul_pos hr hw0
  obtain ⟨-, -, -, ha⟩ := C190_sizeof (n := w) (w := w) hw0
  obtain ⟨e1, e2, e3, e4⟩ := ha ra
  have key : (bitL (ra.size * w)).size ≤ ra.size * (bitL w).size + 7 := by
    obtain ⟨c1, c2, -, -⟩ := C190_sizeof (n := ra.size * w) (w := w) hN
    obtain ⟨d1, d2, -, -⟩ := C190_sizeof (n := w) (w := w) hw0
    have hw8 : w ≤ 8 * (bitL w).size := by
      by_cases h : w ≤ 64
      · obtain ⟨k, -, e, hk, -⟩ := d1 h; omega
      · obtain ⟨k, e, hk, -⟩ := d2 (by omega); omega
    have hm : ra.size * w ≤ ra.size * (8 * (bitL w).size) := Nat.mul_le_mul_left _ hw8
    rw [show ra.size * (8 * (bitL w).size) = 8 * (ra.size * (bitL w).size) by ring] at hm
    by_cases h : ra.size * w ≤ 64
    · obtain ⟨k, hk3, e, -, -⟩ := c1 h
      have : 2 ^ k ≤ 2 ^ 3 := Nat.pow_le_pow_right (by omega) hk3
      omega
    · obtain ⟨k, e, -, hk⟩ := c2 (by omega); omega
  rw [e1, e2, e3, e4, (logicL_size _).1, (logicL_size _).1, ← (bitL_size _).1, ← (bitL_size w).1]
  refine ⟨key, ?_⟩
  rw [show ra.size * (2 * (bitL w).size) = 2 * (ra.size * (bitL w).size) by ring]
  omega

/-- **C190, packed arrays can be larger**: of `N` one-byte 2-state elements, exactly if `N` is not a power of two below 8 and not a multiple of 8. -/
theorem C190_packed_refuted (ra : Rng) :
    (unpackedL (bitL 8) ra).size < (packedL false 8 ra).size ↔
      ¬ (ra.size = 1 ∨ ra.size = 2 ∨ ra.size = 4 ∨ ra.size % 8 = 0) := by
  have hr : 0 < ra.size := by rw [Rng.size]; omega
  obtain ⟨-, -, -, ha⟩ := C190_sizeof (n := 8) (w := 8) (by omega)
  obtain ⟨e1, e2, e3, e4⟩ := ha ra
  rw [e2, e4, (bitL_size _).1, (bitL_size _).1, show bytesOf 8 = 1 by decide, bytesOf]
  split_ifs with h
  · rw [sizeofBits, hw]; split_ifs <;> omega
  · rw [limbs]; split_ifs <;> omega

-- `tests/test_logic.cc` 7-11 and `tests/test_array.cc` 9-20, and the bytes of the 12-bit value 4'bx_z01 followed by 8'h2c
example :
    (logicL 4).size = 2 ∧ (logicL 8).size = 2 ∧ (logicL 64).size = 16 ∧ (logicL 100).size = 32 ∧ (logicL 128).size = 32 ∧
    (packedL false 16 ⟨3, 0⟩).size = 8 ∧ (packedL true 16 ⟨3, 0⟩).size = 16 ∧ (packedL true 64 ⟨1, 0⟩).size = 32 ∧
    (⟨Bits.ofInt 0x52c, Bits.ofInt 0xc00⟩ : Lg 12 false).rep = [some 0x2c, some 0x05, some 0x00, some 0x0c] ∧
    (packedL false 8 ⟨2, 0⟩).size = 4 ∧ (unpackedL (bitL 8) ⟨2, 0⟩).size = 3 ∧
    (Bits.not (Bits.ofInt 0 : Bits 4 false)).rep = [some 0xff] ∧ (Bits.ofInt 15 : Bits 4 false).rep = [some 0x0f] := by
  decide +kernel

end Verif
