import Verif.Props.FormatTwin

/-!
# Which hexadecimal texts of wide 2-state vectors are right (C101)

The converse of `C101_hex_partial`: the 2-state text agrees with the 4-state text exactly when every printed
limb is zero or fills its digit positions.
-/

namespace Verif

variable {n : Nat}

theorem appendAll_ok {α : Type} {f : α → Res (List Char)} {g : α → List Char} :
    (l : List α) → (∀ a ∈ l, f a = .ok (g a)) → appendAll f l = .ok (l.flatMap g)
  | [], _ => rfl
  | a :: l, h => by
    rw [appendAll, h a (by simp), res_bind_ok, appendAll_ok l (fun b hb => h b (by simp [hb])), res_map_ok,
      List.flatMap_cons]

theorem flatMap_inj_of_length {α : Type} {f g : α → List Char} : (l : List α) →
    (∀ a ∈ l, (f a).length = (g a).length) → l.flatMap f = l.flatMap g → ∀ a ∈ l, f a = g a
  | [], _, _ => by simp
  | a :: l, hl, h => by
    rw [List.flatMap_cons, List.flatMap_cons] at h
    obtain ⟨h1, h2⟩ := List.append_inj h (hl a (by simp))
    intro b hb
    rcases List.mem_cons.1 hb with rfl | hb
    · exact h1
    · exact flatMap_inj_of_length l (fun c hc => hl c (by simp [hc])) h2 b hb

/-- the characters of one limb of a 2-state text, last digit first -/
def hexPart (D : Nat) (v : BitVec 64) : List Char :=
  List.replicate (D - (streamNum 16 v.toNat).length) '0' ++ (streamNum 16 v.toNat).reverse

theorem hexPart_digits {v : BitVec 64} (h0 : v.toNat ≠ 0) :
    (streamNum 16 v.toNat).reverse = (Nat.digits 16 v.toNat).map digitChar := by
  rw [streamNum, if_neg h0, lsDigits_eq (by decide) _ _ (lt_trans v.isLt (by decide)), List.reverse_reverse]

theorem hexPart_length {D : Nat} (hD : 0 < D) {v : BitVec 64} (hlt : v.toNat < 16 ^ D) : (hexPart D v).length = D := by
  by_cases h0 : v.toNat = 0
  · rw [hexPart, h0]
    simp [streamNum]; omega
  · have hl : (Nat.digits 16 v.toNat).length ≤ D := (Nat.digits_length_le_iff (by decide) _).2 hlt
    have : (streamNum 16 v.toNat).length = (Nat.digits 16 v.toNat).length := by
      rw [← List.length_reverse, hexPart_digits h0, List.length_map]
    rw [hexPart, List.length_append, List.length_replicate, List.length_reverse, this]
    omega

/-- a limb is printed right exactly when it is zero or its top digit position is not empty -/
theorem hexPart_iff {D : Nat} (hD : 0 < D) (v : BitVec 64) (hlt : v.toNat < 16 ^ D) :
    hexPart D v = (List.range D).map (wordDigit 4 v 0) → v = 0 ∨ 16 ^ (D - 1) ≤ v.toNat := by
  intro he
  by_contra hno
  rw [not_or, not_le] at hno
  obtain ⟨hv, hlow⟩ := hno
  have h0 : v.toNat ≠ 0 := fun e => hv (BitVec.eq_of_toNat_eq (by simpa using e))
  have hlast := congrArg List.getLast? he
  obtain ⟨k, rfl⟩ : ∃ k, D = k + 1 := ⟨D - 1, by omega⟩
  have hne : Nat.digits 16 v.toNat ≠ [] := Nat.digits_ne_nil_iff_ne_zero.2 h0
  have hmap : (Nat.digits 16 v.toNat).map digitChar ≠ [] := by simpa using hne
  rw [List.range_succ, List.map_append, List.map_singleton, List.getLast?_concat, hexPart, hexPart_digits h0,
    List.getLast?_append, List.getLast?_eq_getLast_of_ne_nil hmap, Option.some_or, Option.some.injEq, List.getLast_map,
    wordDigit_known (by decide)] at hlast
  have e : v.toNat / (2 ^ 4) ^ k = 0 := Nat.div_eq_of_lt (by simpa using hlow)
  rw [e] at hlast
  have hd := Nat.getLast_digit_ne_zero 16 h0
  have hd16 : (Nat.digits 16 v.toNat).getLast hne < 16 := Nat.digits_lt_base (by decide) (List.getLast_mem _)
  generalize (Nat.digits 16 v.toNat).getLast hne = d at hlast hd hd16
  have key : ∀ d, d < 16 → digitChar d = digitChar (0 % 2 ^ 4) → d = 0 := by decide
  exact hd (key d hd16 hlast)

/-- **C101, hexadecimal, exactly.** The hexadecimal text of a wide signed 2-state vector is that of the 4-state
vector with the same bits if and only if each printed 64-bit limb is zero or its top hexadecimal digit is not
zero; the last limb, when it is not full, in the digit positions it has. -/
theorem C101_hex_iff (hn : ¬ n ≤ 64) (x : Bits n true) (hc : x.Clean) {b : Char} (h : OutBase b 4) :
    x.str [b] = Lg.str ⟨x, Bits.zero⟩ [b] ↔
      (∀ i, i < (n - 1) / 64 → (∀ j, j < 64 → x.bv.getLsbD (64 * i + j) = false) ∨
        (∃ j, j < 4 ∧ x.bv.getLsbD (64 * i + 60 + j) = true)) ∧
      (n % 64 ≠ 0 → (∀ j, x.bv.getLsbD (64 * (n / 64) + j) = false) ∨
        ∃ j, j < 4 ∧ x.bv.getLsbD (64 * (n / 64) + 4 * ((n % 64 + 3) / 4 - 1) + j) = true) := by
  have hd : decimalFmt [b] = false := by
    rw [show [b] = [] ++ b :: [] from rfl, decimalFmt_letter h.notDigit (by simp), h.notDec]
  have hno : ¬ (b = 'o' ∨ b = 'O') := by cases h <;> decide
  have hcl := (Big.clean_iff _).1 ((Bits.clean_big hn _).1 hc)
  have hbit : ∀ i j, j < 64 → ((x.bg hn).limb i).getLsbD j = x.bv.getLsbD (64 * i + j) := by
    intro i j hj
    have : (x.bg hn).raw (64 * i + j) = ((x.bg hn).limb i).getLsbD j := by
      rw [Big.raw, show (64 * i + j) / 64 = i by omega, show (64 * i + j) % 64 = j by omega]
    rw [← this, Bits.getLsbD_bv, Bits.raw_big hn]
    by_cases hlt : 64 * i + j < n
    · simp [hlt]
    · rw [hcl _ (by omega)]; simp
  have hll := limbs_ge_two hn
  have hlimb : limbs n - 1 = (n - 1) / 64 := by unfold limbs; split <;> omega
  -- what the two conditions on a limb mean
  have cond : ∀ (v : BitVec 64) (D : Nat), 0 < D → D ≤ 16 → v.toNat < 16 ^ D →
      ((v = 0 ∨ 16 ^ (D - 1) ≤ v.toNat) ↔
        ((∀ j, j < 64 → v.getLsbD j = false) ∨ ∃ j, j < 4 ∧ v.getLsbD (4 * (D - 1) + j) = true)) := by
    intro v D hD hD16 hlt
    have e16 : (16 : Nat) ^ (D - 1) = 2 ^ (4 * (D - 1)) := by rw [show (16 : Nat) = 2 ^ 4 from rfl, ← pow_mul]
    have e16' : (16 : Nat) ^ D = 2 ^ (4 * D) := by rw [show (16 : Nat) = 2 ^ 4 from rfl, ← pow_mul]
    have hz : v = 0 ↔ ∀ j, j < 64 → v.getLsbD j = false := by
      constructor
      · rintro rfl j _; simp
      · intro hv
        apply BitVec.eq_of_getLsbD_eq
        intro j hj
        rw [hv j hj]; simp
    have hg : 16 ^ (D - 1) ≤ v.toNat ↔ ∃ j, j < 4 ∧ v.getLsbD (4 * (D - 1) + j) = true := by
      rw [e16]
      constructor
      · intro hle
        obtain ⟨p, hp, hb⟩ := Nat.exists_ge_and_testBit_of_ge_two_pow hle
        have hpd : p < 4 * D := by
          by_contra hcon
          rw [Nat.testBit_lt_two_pow (lt_of_lt_of_le hlt (by rw [e16']; exact Nat.pow_le_pow_right (by decide) (by omega)))] at hb
          cases hb
        exact ⟨p - 4 * (D - 1), by omega, by rw [show 4 * (D - 1) + (p - 4 * (D - 1)) = p by omega]; exact hb⟩
      · rintro ⟨j, -, hj⟩
        exact le_trans (Nat.pow_le_pow_right (by decide) (by omega)) (Nat.ge_two_pow_of_testBit hj)
    rw [hz, hg]
  have chunk2 : ∀ {size : Nat}, size ≤ 64 → ∀ v, toString2 [b] size v false = .ok (hexPart ((size + 3) / 4) v) :=
    fun hs v => hexChunk2 h hs v
  have chunk4 : ∀ {size : Nat}, size ≤ 64 → ∀ v, toString4_ [b] size v 0 false false =
      .ok ((List.range ((size + 3) / 4)).map (wordDigit 4 v 0)) := by
    intro size hs v
    rw [toString4_, parseFmt_letter h.notDigit, possibleSize_out h, res_map_ok, res_bind_ok, if_neg (by simp),
      body4_eq h hs, show size + 4 - 1 = size + 3 from rfl]
  have htop : ((x.bg hn).limb (n / 64)).toNat < 2 ^ (n % 64) := by
    apply Nat.lt_pow_two_of_testBit
    intro i hi
    by_cases hi64 : i < 64
    · have := hbit (n / 64) i hi64
      rw [BitVec.getLsbD_of_ge _ (64 * (n / 64) + i) (by omega)] at this
      exact this
    · exact BitVec.getLsbD_of_ge _ i (by omega)
  have htop' : n % 64 ≠ 0 → ((x.bg hn).limb (n / 64)).toNat < 16 ^ ((n % 64 + 3) / 4) := fun h0 =>
    lt_of_lt_of_le htop (by
      rw [show (16 : Nat) = 2 ^ 4 from rfl, ← pow_mul]
      exact Nat.pow_le_pow_right (by decide) (by omega))
  have h16 : ∀ v : BitVec 64, v.toNat < 16 ^ 16 := fun v => lt_of_lt_of_le v.isLt (by decide)
  constructor
  · intro he
    rw [Bits.str, dif_neg hn, if_neg (by decide), Lg.str, dif_neg hn, hd, Bool.and_false, if_neg (by decide),
      if_neg (by decide), toStringBig2, toStringBig4, parseFmt_letter h.notDigit, possibleSize_out h, res_map_ok, res_bind_ok,
      res_bind_ok] at he
    simp only at he
    rw [h.notDec, if_pos (c := (!false) = true) rfl, if_pos (c := (!false) = true) rfl, if_neg hno, if_neg hno, Bits.bg_zero,
      appendAll_ok (g := fun i => hexPart 16 ((x.bg hn).limb i)) (List.range (limbs n - 1)) (fun i hi => by
        have hi := List.mem_range.1 hi
        rw [ptrGet_limb _ (by omega), res_bind_ok, chunk2 (by decide)]),
      appendAll_ok (g := fun i => (List.range 16).map (wordDigit 4 ((x.bg hn).limb i) 0)) (List.range (limbs n - 1)) (fun i hi => by
        have hi := List.mem_range.1 hi
        rw [ptrGet_limb _ (by omega), res_bind_ok, ptrGet_zero _ _ (by omega), res_bind_ok, chunk4 (by decide)]),
      res_bind_ok, res_bind_ok] at he
    generalize hA : (List.range (limbs n - 1)).flatMap (fun i => hexPart 16 ((x.bg hn).limb i)) = A at he
    generalize hB : (List.range (limbs n - 1)).flatMap (fun i => (List.range 16).map (wordDigit 4 ((x.bg hn).limb i) 0)) = B at he
    have hlenAB : A.length = B.length := by
      rw [← hA, ← hB, List.length_flatMap, List.length_flatMap]
      congr 1
      apply List.map_congr_left
      intro i _
      rw [hexPart_length (by decide) (h16 _)]; simp
    -- the padding at the end adds the same characters to texts of the same length
    have hpad : ∀ (f : Fmt) (P Q : List Char), isDec f.base = false → P.length = Q.length → f.actualSize < P.length + 2 ^ 32 →
        padResult false f P = padResult false f Q → P = Q := by
      intro f P Q hdec hl hs hpq
      rw [padResult_eq (fun _ => hs) (by simp), padResult_eq (fun _ => by omega) (by simp), Except.ok.injEq, padText, padText,
        minusText, minusText] at hpq
      simp only [Bool.false_and, Bool.false_eq_true, if_false, List.length_reverse, hl] at hpq
      exact List.reverse_injective (List.append_inj_right' hpq (by simp [hl]))
    have fromA : A = B → ∀ i, i < (n - 1) / 64 → (∀ j, j < 64 → x.bv.getLsbD (64 * i + j) = false) ∨
        (∃ j, j < 4 ∧ x.bv.getLsbD (64 * i + 60 + j) = true) := by
      intro hAB i hi
      have := flatMap_inj_of_length (List.range (limbs n - 1)) (fun i _ => by
        rw [hexPart_length (by decide) (h16 _)]; simp) (hA.trans (hAB.trans hB.symm)) i (List.mem_range.2 (by omega))
      have := (cond _ 16 (by decide) (by decide) (h16 _)).1 (hexPart_iff (by decide) _ (h16 _) this)
      rcases this with hz | ⟨j, hj, ho⟩
      · exact Or.inl fun j hj => by rw [← hbit i j hj]; exact hz j hj
      · exact Or.inr ⟨j, hj, by rw [Nat.add_assoc, ← hbit i (60 + j) (by omega)]; exact ho⟩
    have hAlen : A.length = 16 * ((n - 1) / 64) := by
      rw [← hA, List.length_flatMap, List.map_congr_left (g := fun _ => 16) (fun i _ => hexPart_length (by decide) (h16 _))]
      simp [hlimb, Nat.mul_comm]
    by_cases h0 : n % 64 = 0
    · rw [if_neg (by simpa using h0), if_neg (by simpa using h0), res_bind_ok, res_bind_ok] at he
      exact ⟨fromA (hpad _ _ _ h.notDec hlenAB (by simp only; omega) he), fun hc => absurd h0 hc⟩
    · have hlast : limbs n - 1 = n / 64 := by unfold limbs; rw [if_neg h0]; omega
      rw [if_pos h0, if_pos h0, ptrGet_limb _ (by omega), res_bind_ok, ptrGet_zero _ _ (by omega), res_bind_ok, res_bind_ok, hlast,
        chunk2 (by omega), chunk4 (by omega), res_map_ok, res_map_ok, res_bind_ok, res_bind_ok] at he
      have hl2 := hexPart_length (D := (n % 64 + 3) / 4) (by omega) (htop' h0)
      have he' := hpad _ _ _ h.notDec (by simp [hlenAB, hl2]) (by simp only [List.length_append]; omega) he
      obtain ⟨e1, e2⟩ := List.append_inj he' hlenAB
      refine ⟨fromA e1, fun _ => ?_⟩
      have := (cond _ ((n % 64 + 3) / 4) (by omega) (by omega) (htop' h0)).1 (hexPart_iff (by omega) _ (htop' h0) e2)
      rcases this with hz | ⟨j, hj, ho⟩
      · refine Or.inl fun j => ?_
        by_cases hj : j < 64
        · rw [← hbit _ j hj]; exact hz j hj
        · exact BitVec.getLsbD_of_ge _ _ (by omega)
      · exact Or.inr ⟨j, hj, by rw [Nat.add_assoc, ← hbit _ _ (by omega)]; exact ho⟩
  · rintro ⟨c1, c2⟩
    rw [Bits.str, dif_neg hn, if_neg (by decide), Lg.str, dif_neg hn, hd, Bool.and_false, if_neg (by decide),
      if_neg (by decide), toStringBig2, toStringBig4, parseFmt_letter h.notDigit, possibleSize_out h, res_map_ok, res_bind_ok,
      res_bind_ok]
    simp only
    rw [h.notDec, if_pos (c := (!false) = true) rfl, if_pos (c := (!false) = true) rfl, if_neg hno, if_neg hno, Bits.bg_zero]
    have e1 : appendAll (fun i => (ptrGet (x.bg hn).vals i).bind fun v => toString2 [b] 64 v false) (List.range (limbs n - 1)) =
        appendAll (fun i => (ptrGet (x.bg hn).vals i).bind fun v => (ptrGet (Big.zero : Big n false).vals i).bind fun k =>
              toString4_ [b] 64 v k false false) (List.range (limbs n - 1)) := by
      apply appendAll_congr
      intro i hi
      have hi := List.mem_range.1 hi
      rw [ptrGet_limb _ (by omega), res_bind_ok, res_bind_ok, ptrGet_zero _ _ (by omega), res_bind_ok]
      apply full_chunk h (by decide) (by decide) _ (h16 _)
      apply (cond _ 16 (by decide) (by decide) (h16 _)).2
      rcases c1 i (by omega) with hz | ⟨j, hj, ho⟩
      · exact Or.inl fun j hj => by rw [hbit i j hj]; exact hz j hj
      · exact Or.inr ⟨j, hj, by rw [hbit i _ (by omega), ← Nat.add_assoc]; exact ho⟩
    rw [e1]
    congr 2
    funext a
    by_cases h0 : n % 64 = 0
    · rw [if_neg (by simpa using h0), if_neg (by simpa using h0)]
    · have hlast : limbs n - 1 = n / 64 := by unfold limbs; rw [if_neg h0]; omega
      rw [if_pos h0, if_pos h0, ptrGet_limb _ (by omega), res_bind_ok, res_bind_ok, ptrGet_zero _ _ (by omega), res_bind_ok]
      congr 1
      rw [hlast]
      apply full_chunk h (by omega) (by omega) _ (htop' h0)
      apply (cond _ ((n % 64 + 3) / 4) (by omega) (by omega) (htop' h0)).2
      rcases c2 h0 with hz | ⟨j, hj, ho⟩
      · exact Or.inl fun j hj => by rw [hbit _ j hj]; exact hz j
      · exact Or.inr ⟨j, hj, by rw [hbit _ _ (by omega), ← Nat.add_assoc]; exact ho⟩

-- 128 bits: the upper limb is not printed, so it does not matter; a lower limb of 0x10 does
example : ((((Bits.zero : Bits 128 true).set (Rng.down 128) 70 true).toOption.get!.str ['x'])
      = Lg.str ⟨((Bits.zero : Bits 128 true).set (Rng.down 128) 70 true).toOption.get!, Bits.zero⟩ ['x']) ∧
    ((Bits.ofInt 16 : Bits 128 true).str ['x'] ≠ Lg.str ⟨(Bits.ofInt 16 : Bits 128 true), Bits.zero⟩ ['x']) := by
  decide +kernel

end Verif
