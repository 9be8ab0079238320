import Verif.Proofs.Conditions
import Verif.Props.Concrete

/-!
# The query language

Properties C30–C33 and C38. The statements are about what `parse` returns for a string, on any parser that API calls
can produce (`Parsed`). -/

namespace Norm.Props

open Spec

variable {U : Unicode} {q : FzfQuery} {t : List Char}

/-- **C30.** `parse` sees the query as its pieces between unescaped spaces, `\ ` standing for a space of the piece; the
pieces are determined by the string, the empty ones (between adjacent spaces) do not count, the others are the words.
Nothing is lost: the string can be recovered from the pieces. -/
theorem C30_words (hq : Parsed U t q) :
    ∃ ps, Pieces t ps ∧ (∀ ps', Pieces t ps' → ps' = ps) ∧
      ∃ ts, Tokenizes U (ps.filter (· ≠ [])) ts ∧ Grouped ts (conditions q) := by
  refine ⟨pieces t, ⟨pieces_ne_nil t, pieces_render t, pieces_dropLast t⟩, ?_, tokens U (words t), ?_, ?_⟩
  · intro ps' h
    have := pieces_of_render ps' h.nonempty h.separated
    rw [h.render] at this
    exact this.symm
  · have : (pieces t).filter (· ≠ []) = words t := by
      unfold words
      congr 1
      funext w
      cases w <;> simp
    rw [this]
    exact tokenizes _
  · rw [hq.eq, query, conditions_collapse]
    exact grouped _

example : Pieces "a\\ b  c\\\\d ".toList ["a b".toList, [], "c\\\\d".toList, []] :=
  ⟨by decide, by decide +kernel, by decide +kernel⟩
example : ∃ ps, Pieces "a\\ b  'c\\d ".toList ps ∧ (∀ ps', Pieces "a\\ b  'c\\d ".toList ps' → ps' = ps) ∧
    ∃ ts, Tokenizes Concrete.U (ps.filter (· ≠ [])) ts ∧ Grouped ts (conditions (Concrete.parse "a\\ b  'c\\d ")) :=
  C30_words (Concrete.parsed _)
example : Concrete.parse "a\\ b  'c\\d " =
    .extended [[mkPattern Concrete.U false .fuzzy "a b".toList], [mkPattern Concrete.U false .exact "c\\d".toList]] := by
  decide +kernel

/-! ### Conditions -/

/-- **C31.** The conditions of the parsed query are the patterns in order, two successive patterns being in the same
condition exactly when there is a `|` between them; no condition and no pattern is empty. This determines the
conditions. -/
theorem C31_conditions (hq : Parsed U t q) :
    ∃ ts, Tokenizes U (words t) ts ∧ Grouped ts (conditions q) ∧ (∀ cs, Grouped ts cs → cs = conditions q) ∧
      ∀ c ∈ conditions q, c ≠ [] ∧ ∀ p ∈ c, p.text ≠ [] := by
  have hg : Grouped (tokens U (words t)) (conditions q) := by
    rw [hq.eq, query, conditions_collapse]
    exact grouped _
  refine ⟨_, tokenizes _, hg, fun cs h => h.unique hg, ?_⟩
  intro c hc
  refine ⟨hg.nonempty c hc, fun p hp => ?_⟩
  have hok := hq.ok
  cases hcs : q with
  | notExtended p' =>
    subst hcs
    have h1 : p ∈ pats (tokens U (words t)) := by
      rw [← hg.order]; exact List.mem_flatten.mpr ⟨c, hc, hp⟩
    unfold pats at h1
    obtain ⟨tk, htk, h2⟩ := List.mem_filterMap.mp h1
    cases tk with
    | bar => cases h2
    | pat p'' =>
      simp only [Option.some.injEq] at h2
      subst h2
      obtain ⟨w, -, hw⟩ := List.mem_filterMap.mp htk
      split at hw
      · cases hw
      · obtain ⟨x, hx, hx'⟩ := Option.map_eq_some_iff.mp hw
        cases hx'
        exact (wordPattern_ok hx).1
  | extended cs =>
    subst hcs
    exact ((hok c hc).2 p hp).1

example : conditions (Concrete.parse "a | b | | !c ^d | 'e f") =
    [[mkPattern Concrete.U false .fuzzy ['a'], mkPattern Concrete.U false .fuzzy ['b'],
      mkPattern Concrete.U true .exact ['c']],
     [mkPattern Concrete.U false .prefixExact ['d'], mkPattern Concrete.U false .exact ['e']],
     [mkPattern Concrete.U false .fuzzy ['f']]] := by decide +kernel
example : ∃ ts, Tokenizes Concrete.U (words "a | | !b c".toList) ts ∧
    Grouped ts (conditions (Concrete.parse "a | | !b c")) ∧
    (∀ cs, Grouped ts cs → cs = conditions (Concrete.parse "a | | !b c")) ∧
      ∀ c ∈ conditions (Concrete.parse "a | | !b c"), c ≠ [] ∧ ∀ p ∈ c, p.text ≠ [] :=
  C31_conditions (Concrete.parsed _)

/-- A query is returned as a non-extended one exactly when it consists of one fuzzy pattern. -/
theorem C31_representation (hq : Parsed U t q) :
    (∃ p, q = .notExtended p) ↔ ∃ p, conditions q = [[p]] ∧ p.matchType = .fuzzy := by
  rw [hq.eq, query, conditions_collapse]
  unfold collapse
  constructor
  · rintro ⟨p, h⟩
    split at h
    · rename_i p' h1
      split at h
      · exact ⟨p', by assumption, by assumption⟩
      · cases h
    · cases h
  · rintro ⟨p, h1, h2⟩
    rw [h1]
    exact ⟨p, by simp [h2]⟩

/-! ### Sigils -/

/-- **C32.** Every word other than `|` is, in exactly one way, some text decorated with sigils; it contributes the
pattern with that text and the kind documented for its sigils, or nothing if there is no text. -/
theorem C32_sigils (hq : Parsed U t q) :
    ∃ f : List Char → Option Pattern, patterns q = ((words t).filter (· ≠ ['|'])).filterMap f ∧
      ∀ w, ∃ inv sg dol text, Decorates w inv sg dol text ∧
        (∀ inv' sg' dol' text', Decorates w inv' sg' dol' text' → inv' = inv ∧ sg' = sg ∧ dol' = dol ∧ text' = text) ∧
        f w = if text = [] then none else some (mkPattern U inv (kind inv dol sg) text) := by
  refine ⟨wordPattern U, ?_, fun w => ?_⟩
  · rw [patterns_eq, hq.eq, query, conditions_collapse, groups_pats]
    unfold pats tokens
    rw [List.filterMap_filterMap, List.filterMap_filter]
    congr 1
    funext w
    by_cases hw : w = ['|']
    · simp [hw]
    · simp only [hw, if_false]
      cases wordPattern U w <;> simp [hw]
  · exact ⟨_, _, _, _, decorates_exists w, fun _ _ _ _ h => decorates_unique h (decorates_exists w),
      wordPattern_of_decorates (decorates_exists w)⟩

example : Decorates "!^a$$".toList true .caret true "a$".toList := ⟨rfl, by decide, by decide, by decide, by decide⟩
example : Decorates "$".toList false .none false "$".toList := ⟨rfl, by decide, by decide, by decide, by decide⟩
example : patterns (Concrete.parse "!^a$$ !' ''b !'c$ ^$ d$ !e !f$ ! $ '") =
    [mkPattern Concrete.U true .equalExact "a$".toList, mkPattern Concrete.U false .exact "'b".toList,
     mkPattern Concrete.U true .fuzzy "c".toList, mkPattern Concrete.U false .suffixExact "d".toList,
     mkPattern Concrete.U true .exact "e".toList, mkPattern Concrete.U true .suffixExact "f".toList,
     mkPattern Concrete.U false .fuzzy "$".toList] := by decide +kernel
example : ∃ f : List Char → Option Pattern,
    patterns (Concrete.parse "!^a$ ' b") = ((words "!^a$ ' b".toList).filter (· ≠ ['|'])).filterMap f ∧
      ∀ w, ∃ inv sg dol text, Decorates w inv sg dol text ∧
        (∀ inv' sg' dol' text', Decorates w inv' sg' dol' text' → inv' = inv ∧ sg' = sg ∧ dol' = dol ∧ text' = text) ∧
        f w = if text = [] then none else some (mkPattern Concrete.U inv (kind inv dol sg) text) :=
  C32_sigils (Concrete.parsed _)

/-- **C33.** Any non-empty text can be searched for: `'`, the text with its spaces escaped, and its final `$` doubled,
parse to the exact pattern of that text. -/
theorem C33_literally (ht : t ≠ []) (hq : Parsed U (literally t) q) :
    q = .extended [[mkPattern U false .exact t]] := by
  have hw : words (literally t) = ['\'' :: (t ++ if t.getLast? = some '$' then ['$'] else [])] := by
    have h : literally t = escape ('\'' :: (t ++ if t.getLast? = some '$' then ['$'] else [])) := by
      rw [escape_cons, escape_append, literally]
      split <;> simp [escape]
    rw [h, words_escape (by simp)]
  have hd : Decorates ('\'' :: (t ++ if t.getLast? = some '$' then ['$'] else [])) false .quote
      (decide (t.getLast? = some '$')) t := by
    refine ⟨?_, by simp, by simp [Sigil.chars], ?_, by simp⟩
    · by_cases h : t.getLast? = some '$' <;> simp [h, Sigil.chars]
    · intro h1 h2
      have h1 := of_decide_eq_false h1
      simp only [Sigil.chars, List.singleton_append, List.getLast?_cons] at h2
      cases hl : t.getLast? with
      | none => rw [List.getLast?_eq_none_iff] at hl; exact absurd hl ht
      | some x => rw [hl] at h2 h1; simp at h2; exact absurd (by rw [h2]) h1
  have hp : wordPattern U ('\'' :: (t ++ if t.getLast? = some '$' then ['$'] else [])) =
      some (mkPattern U false .exact t) := by
    rw [wordPattern_of_decorates hd, if_neg ht]; rfl
  rw [hq.eq, query_one hw hp (by simp [mkPattern])]
  rfl

example : literally "a b!| $".toList = "'a\\ b!|\\ $$".toList := by decide +kernel
example : Concrete.parse "'a\\ b!|\\ $$" = .extended [[mkPattern Concrete.U false .exact "a b!| $".toList]] :=
  C33_literally (t := "a b!| $".toList) (by decide) (Concrete.parsed "'a\\ b!|\\ $$")

/-! ### Normalization -/

/-- **C38.** `normalize` does not panic; it replaces a listed character by the listed letter and no other character;
what it returns is an ASCII letter or its argument, and normalizing again changes nothing. -/
theorem C38_normalize (c : Char) :
    ∃ r, normalizeR c = .ok r ∧ (∀ l, Listed c l → r = l) ∧ ((∀ l, ¬ Listed c l) → r = c) ∧
      (r = c ∨ ('a' ≤ r ∧ r ≤ 'z') ∨ ('A' ≤ r ∧ r ≤ 'Z')) ∧ normalizeR r = .ok r := by
  refine ⟨_, normalizeR_ok c, fun l => lookupD_listed, lookupD_not_listed, ?_⟩
  by_cases h : ∃ l, Listed c l
  · obtain ⟨l, hl⟩ := h
    rw [lookupD_listed hl]
    refine ⟨Or.inr ?_, ?_⟩
    · have := normTable_targets _ (listed_iff.mp hl)
      simp only [isAsciiLower, isAsciiUpper, Bool.or_eq_true, Bool.and_eq_true, decide_eq_true_eq] at this
      simp only [Char.le_def, UInt32.le_iff_toNat_le]
      exact this
    · rw [normalizeR_ok, lookupD_of_outside (isNormalized_ascii hl.ascii)]
  · have h : ∀ l, ¬ Listed c l := fun l hl => h ⟨l, hl⟩
    rw [lookupD_not_listed h]
    exact ⟨Or.inl rfl, by rw [normalizeR_ok, lookupD_not_listed h]⟩

example : normalizeR 'é' = .ok 'e' ∧ normalizeR 'ß' = .ok 's' ∧ normalizeR 'ø' = .ok 'o' ∧ normalizeR '×' = .ok '×' ∧
    normalizeR '語' = .ok '語' := by decide +kernel

end Norm.Props
