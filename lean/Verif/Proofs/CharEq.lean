import Verif.Proofs.Normalize
import Verif.Model.Candidate

/-! The character comparison functions meet the specification; the byte-level needle agrees with
them on ASCII. -/

namespace Norm
open Spec

theorem lower_eq (c : Char) : Spec.lower c = toAsciiLowercase c := by
  cases h : isAscii c with
  | true =>
    have key : ∀ n : Fin 128, Spec.lower (Char.ofNat n.val) = toAsciiLowercase (Char.ofNat n.val) := by
      decide +kernel
    have h' : c.toNat < 128 := of_decide_eq_true h
    have := key ⟨c.toNat, h'⟩
    simpa using this
  | false =>
    have h' : ¬ c.toNat < 128 := of_decide_eq_false h
    have h1 : toAsciiLowercase c = c := by
      unfold toAsciiLowercase isAsciiUpper
      rw [if_neg]
      simp; omega
    rw [h1]
    unfold Spec.lower
    have h2 : ("ABCDEFGHIJKLMNOPQRSTUVWXYZ".toList.zip
        "abcdefghijklmnopqrstuvwxyz".toList).lookup c = none := by
      rw [List.lookup_eq_none_iff]
      intro p hp
      have hall : ∀ p ∈ "ABCDEFGHIJKLMNOPQRSTUVWXYZ".toList.zip "abcdefghijklmnopqrstuvwxyz".toList,
          p.1.toNat < 128 := by decide +kernel
      have := hall p hp
      simp only [bne_iff_ne, ne_eq]
      rintro rfl
      exact h' this
    rw [h2]

theorem toAsciiLowercase_isAscii (c : Char) : isAscii (toAsciiLowercase c) = isAscii c := by
  unfold toAsciiLowercase isAsciiUpper
  split
  · rename_i h
    simp at h
    have hv : (c.toNat + 32).isValidChar := Or.inl (by omega)
    have : (Char.ofNat (c.toNat + 32)).toNat = c.toNat + 32 := by
      simp only [Char.ofNat, hv, dif_pos]; rfl
    simp [isAscii, this]; omega
  · rfl

theorem toAsciiLowercase_nonAscii {c : Char} (h : isAscii c = false) : toAsciiLowercase c = c := by
  have h' : ¬ c.toNat < 128 := of_decide_eq_false h
  unfold toAsciiLowercase isAsciiUpper
  rw [if_neg]
  simp; omega

theorem fold_false (c : Char) : fold false c = toAsciiLowercase c := by simp [fold, lower_eq]
theorem fold_true (c : Char) : fold true c = c := rfl

theorem fold_isAscii (s : Bool) (c : Char) : isAscii (fold s c) = isAscii c := by
  cases s
  · rw [fold_false, toAsciiLowercase_isAscii]
  · rw [fold_true]

theorem fold_nonAscii (s : Bool) {c : Char} (h : isAscii c = false) : fold s c = c := by
  cases s
  · rw [fold_false, toAsciiLowercase_nonAscii h]
  · rw [fold_true]

theorem charEq_eq (s n : Bool) (q c : Char) :
    charEq s n q c = (fold s q == fold s (if n then normalizeCandidateChar q c else c)) := by
  cases s <;> cases n <;>
    simp [charEq, caseInsensitiveEq, caseSensitiveEq, caseInsensitiveNormalizedEq,
      caseSensitiveNormalizedEq, eqIgnoreAsciiCase, fold_false, fold_true]

/-- The comparison function selected by `char_eq` is the specified relation. -/
theorem charEq_iff (s n : Bool) (q c : Char) : charEq s n q c = true ↔ CharMatches s n q c := by
  rw [charEq_eq, beq_iff_eq]
  unfold CharMatches
  cases n with
  | false => simp
  | true =>
    simp only [if_true, true_and]
    by_cases hq : isNormalized q = true
    · simp only [normalizeCandidateChar, hq, if_true]
      by_cases hl : ∃ t, Listed c t
      · obtain ⟨t, ht⟩ := hl
        rw [normalize_listed ht]
        constructor
        · intro h; exact Or.inr ⟨t, ht, h⟩
        · rintro (h | ⟨t', ht', h⟩)
          · -- q outside the blocks, c inside
            exfalso
            have hc := ht.range
            have hca : isAscii c = false := by
              by_contra hcon
              have := isNormalized_ascii (c := c) (by simpa using hcon)
              rw [this] at hc; simp at hc
            have hqa : isAscii q = false := by
              rw [← fold_isAscii s, h, fold_isAscii, hca]
            rw [fold_nonAscii s hqa, fold_nonAscii s hca] at h
            subst h; rw [hq] at hc; simp at hc
          · have : t = t' := by rw [← normalize_listed ht, normalize_listed ht']
            rw [this, h]
      · have hl' : ∀ t, ¬ Listed c t := fun t ht => hl ⟨t, ht⟩
        rw [normalize_not_listed hl']
        constructor
        · exact Or.inl
        · rintro (h | ⟨t, ht, _⟩)
          · exact h
          · exact absurd ht (hl' t)
    · simp only [normalizeCandidateChar, hq]
      constructor
      · exact Or.inl
      · rintro (h | ⟨t, ht, h⟩)
        · exact h
        · exfalso
          have hta := ht.ascii
          have : isAscii q = true := by rw [← fold_isAscii s, h, fold_isAscii, hta]
          exact hq (isNormalized_ascii this)

/-- On ASCII characters normalization is irrelevant. -/
theorem charEq_ascii_right (s n : Bool) (q : Char) {c : Char} (hc : isAscii c = true) :
    charEq s n q c = charEq s false q c := by
  rw [charEq_eq, charEq_eq]
  cases n with
  | false => rfl
  | true =>
    simp only [if_true, Bool.false_eq_true, if_false, normalizeCandidateChar]
    rw [normalize_ascii hc]; simp

theorem charEq_nonAscii_left (s n : Bool) {q c : Char} (hq : isAscii q = false) (hc : isAscii c = true) :
    charEq s n q c = false := by
  rw [charEq_ascii_right s n q hc, charEq_eq]
  simp only [Bool.false_eq_true, if_false, beq_eq_false_iff_ne]
  intro h
  have := congrArg isAscii h
  rw [fold_isAscii, fold_isAscii, hq, hc] at this
  simp at this

/-- `memchr`/`memchr2` needles agree with the character comparison on ASCII. -/
theorem asciiNeedle_eq (s n : Bool) {q : Char} (hq : isAscii q = true) {b : UInt8} (hb : b.toNat < 128) :
    asciiNeedle (charToByte q) s b = charEq s n q (byteToChar b) := by
  rw [charEq_ascii_right s n q (isAscii_byteToChar.mpr hb), charEq_eq]
  simp only [Bool.false_eq_true, if_false]
  cases s with
  | true =>
    simp only [fold_true, asciiNeedle, Bool.true_or, if_true]
    rw [Bool.eq_iff_iff, beq_iff_eq, beq_iff_eq]
    constructor
    · rintro rfl; exact (byteToChar_charToByte hq).symm
    · rintro rfl; exact charToByte_byteToChar.symm
  | false =>
    simp only [fold_false]
    have key : ∀ x : Fin 128, ∀ y : Fin 128,
        asciiNeedle (UInt8.ofNat x.val) false (UInt8.ofNat y.val) =
          (toAsciiLowercase (Char.ofNat x.val) == toAsciiLowercase (Char.ofNat y.val)) := by
      decide +kernel
    have hq' : q.toNat < 128 := of_decide_eq_true hq
    have := key ⟨q.toNat, hq'⟩ ⟨b.toNat, hb⟩
    simpa [charToByte, byteToChar] using this

theorem CharMatches.refl (s n : Bool) (c : Char) : CharMatches s n c c := Or.inl rfl

end Norm
