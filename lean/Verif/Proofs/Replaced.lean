import Verif.Proofs.Folding
import Verif.SpecCase

/-!
# Normalizing the candidate beforehand -/

namespace Norm

open Spec

theorem mem_consHead {c : Char} {w : List Char} {ps : List (List Char)} (h : w ∈ consHead c ps) :
    ∀ x ∈ w, x = c ∨ ∃ v ∈ ps, x ∈ v := by
  cases ps with
  | nil =>
    simp only [consHead, List.mem_singleton] at h
    subst h
    simp
  | cons v vs =>
    simp only [consHead, List.mem_cons] at h
    rcases h with rfl | h
    · intro x hx
      rcases List.mem_cons.mp hx with rfl | hx
      · exact .inl rfl
      · exact .inr ⟨v, List.mem_cons_self, hx⟩
    · exact fun x hx => .inr ⟨w, List.mem_cons_of_mem _ h, hx⟩

/-- The characters of the pieces are characters of the string. -/
theorem pieces_mem {t w : List Char} (h : w ∈ pieces t) : ∀ c ∈ w, c ∈ t := by
  induction t using pieces.induct generalizing w with
  | case1 =>
    simp only [pieces, List.mem_singleton] at h
    subst h; simp
  | case2 s ih =>
    rw [pieces] at h
    intro x hx
    rcases mem_consHead h x hx with rfl | ⟨v, hv, hx⟩
    · simp
    · simp [ih hv x hx]
  | case3 s ih =>
    rw [pieces] at h
    intro x hx
    rcases List.mem_cons.mp h with rfl | h
    · cases hx
    · simp [ih h x hx]
  | case4 c s h1 h2 ih =>
    rw [pieces.eq_4 c s h1 h2] at h
    intro x hx
    rcases mem_consHead h x hx with rfl | ⟨v, hv, hx⟩
    · simp
    · simp [ih hv x hx]

theorem wordPattern_mem {U : Unicode} {w : List Char} {p : Pattern} (h : wordPattern U w = some p) :
    ∀ c ∈ p.text, c ∈ w := by
  have hd := decorates_exists w
  rw [wordPattern_of_decorates hd] at h
  split at h
  · cases h
  · cases h
    intro c hc
    rw [hd.word, List.mem_append, List.mem_append, List.mem_append]
    exact .inl (.inr (.inr hc))

/-- The characters of the patterns are characters of the query string. -/
theorem query_text_mem {U : Unicode} {t : List Char} {p : Pattern} (h : p ∈ patterns (query U t)) :
    ∀ c ∈ p.text, c ∈ t := by
  have h1 : p ∈ (groups (tokens U (words t))).flatten := by
    unfold query collapse at h
    split at h
    · rename_i e
      rw [e]
      split at h <;> simpa [patterns] using h
    · simpa [patterns] using h
  obtain ⟨g, hg, hp⟩ := List.mem_flatten.mp h1
  have h2 := (groups_mem g hg).2 p hp
  obtain ⟨w, hw, hwp⟩ := List.mem_filterMap.mp h2
  split at hwp
  · cases hwp
  · obtain ⟨p', hp', e⟩ := Option.map_eq_some_iff.mp hwp
    cases e
    intro c hc
    exact pieces_mem (List.mem_filter.mp hw).1 c (wordPattern_mem hp' c hc)

theorem rawQuery_text_mem {U : Unicode} {t : List Char} {p : Pattern} (h : p ∈ patterns (rawQuery U t)) :
    ∀ c ∈ p.text, c ∈ t := by
  simp only [rawQuery, patterns, List.mem_singleton] at h
  subst h
  exact fun c hc => hc

/-- For a query character that is not listed, comparing with normalization is comparing with the normalized candidate
character. -/
theorem charMatches_normalize {s : Bool} {q : Char} (hq : ∀ l, ¬ Listed q l) (c : Char) :
    CharMatches s false q (normalize c) ↔ CharMatches s true q c := by
  simp only [CharMatches, Bool.false_eq_true, false_and, or_false, true_and]
  by_cases h : ∃ l, Listed c l
  · obtain ⟨l, hl⟩ := h
    rw [normalize_listed hl]
    constructor
    · exact fun h => .inr ⟨l, hl, h⟩
    · rintro (h | ⟨l', hl', h⟩)
      · exfalso
        have hc : isAscii c = false := by
          cases hc : isAscii c with
          | false => rfl
          | true => have := hl.range; rw [isNormalized_ascii hc] at this; cases this
        have hqa : isAscii q = false := by rw [← fold_isAscii s, h, fold_isAscii, hc]
        rw [fold_nonAscii s hqa, fold_nonAscii s hc] at h
        exact hq l (h ▸ hl)
      · rw [← normalize_listed hl, normalize_listed hl']; exact h
  · have h' : ∀ l, ¬ Listed c l := fun l hl => h ⟨l, hl⟩
    rw [normalize_not_listed h']
    exact ⟨.inl, fun h => h.elim id fun ⟨l, hl, _⟩ => absurd hl (h' l)⟩

theorem normalize_space (c : Char) : normalize c = ' ' ↔ c = ' ' := by
  by_cases h : ∃ l, Listed c l
  · obtain ⟨l, hl⟩ := h
    rw [normalize_listed hl]
    constructor
    · rintro rfl
      have := normTable_targets _ (listed_iff.mp hl)
      rw [show isAsciiLower ' ' = false by decide, show isAsciiUpper ' ' = false by decide] at this
      cases this
    · rintro rfl
      have := hl.range; rw [isNormalized_ascii (by decide)] at this; cases this
  · rw [normalize_not_listed fun l hl => h ⟨l, hl⟩]

/-- A query without listed characters matches with normalization what it matches without it after replacing the listed
characters of the candidate. -/
theorem queryMatches_normalize {U : Unicode} {cs : CaseSensitivity} {S : FzfScheme} {q : FzfQuery}
    (hq : ∀ p ∈ patterns q, ∀ c ∈ p.text, ∀ l, ¬ Listed c l) (s : List Char) :
    QueryMatches U ⟨cs, false, S⟩ q (s.map normalize) ↔ QueryMatches U ⟨cs, true, S⟩ q s := by
  have hraw : ∀ p ∈ patterns q, (RawMatches U ⟨cs, false, S⟩ p (s.map normalize) ↔ RawMatches U ⟨cs, true, S⟩ p s) := by
    intro p hp
    unfold RawMatches Cmp
    rw [textMatches_map (R' := fun x c => CharMatches (sensitive U cs p.text) false x (normalize c))
      (fun _ _ => Iff.rfl) normalize_space]
    exact TextMatches.congr_mem fun x hx c => charMatches_normalize (hq p hp x hx) c
  cases q with
  | notExtended p => simp only [QueryMatches, hraw p (by simp [patterns])]
  | extended cs =>
    simp only [QueryMatches]
    refine forall₂_congr fun c hc => exists_congr fun p => and_congr_right fun hp => ?_
    simp only [PatternMatches, hraw p (List.mem_flatten.mpr ⟨c, hc, hp⟩)]

/-! ### Case of accented letters -/

theorem casePairs_check : (casePairs.all fun e => normTable.all fun x => !(Nat.beq x.1 e.1.toNat) ||
    normTable.all fun y => !(Nat.beq y.1 e.2.toNat) || decide (lower x.2 = lower y.2)) = true := by decide +kernel

/-- If both cases of a letter are listed, their replacements differ at most in case. -/
theorem casePairs_listed {c d l l' : Char} (h : (c, d) ∈ casePairs) (h1 : Listed c l) (h2 : Listed d l') :
    lower l = lower l' := by
  have := List.all_eq_true.mp (List.all_eq_true.mp casePairs_check _ h) _ (listed_iff.mp h1)
  simp only [Nat.beq_refl, Bool.not_true, Bool.false_or] at this
  have := List.all_eq_true.mp this _ (listed_iff.mp h2)
  simp only [Nat.beq_refl, Bool.not_true, Bool.false_or, decide_eq_true_eq] at this
  exact this

theorem lower_normalize_congr {c d : Char} (h : lower c = lower d) : lower (normalize c) = lower (normalize d) := by
  cases hc : isAscii c with
  | true =>
    have hd : isAscii d = true := by rw [← toAsciiLowercase_isAscii, ← lower_eq, ← h, lower_eq, toAsciiLowercase_isAscii, hc]
    rw [normalize_ascii hc, normalize_ascii hd, h]
  | false =>
    have hd : isAscii d = false := by rw [← toAsciiLowercase_isAscii, ← lower_eq, ← h, lower_eq, toAsciiLowercase_isAscii, hc]
    rw [lower_eq, lower_eq, toAsciiLowercase_nonAscii hc, toAsciiLowercase_nonAscii hd] at h
    rw [h]

theorem Spec.SameListed.plain {s s' : List Char} (h : SameListed s s') :
    (s.map normalize).map lower = (s'.map normalize).map lower := by
  induction h with
  | nil => rfl
  | cons h _ ih =>
    simp only [List.map_cons, ih]
    congr 1
    rcases h with h | ⟨h, ⟨l, hl⟩, l', hl'⟩
    · exact lower_normalize_congr h
    · rw [normalize_listed hl, normalize_listed hl']
      rcases h with h | h
      · exact casePairs_listed h hl hl'
      · exact (casePairs_listed h hl' hl).symm

end Norm
