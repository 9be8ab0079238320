import Verif.Proofs.Replaced
import Verif.Props.Concrete

/-!
# Letter case and normalization

Properties C34, C37, C54 and C55. -/

namespace Norm.Props

open Spec

variable {U : Unicode} {a : Algo} {m : Metric} {st : Settings} {q : FzfQuery} {t : List Char}

/-- Equal up to the case of ASCII letters. -/
def SameButCase (x y : List Char) : Prop := List.Forall₂ (fun c d => lower c = lower d) x y

theorem SameButCase.map_eq {x y : List Char} (h : SameButCase x y) : x.map lower = y.map lower := by
  induction h with
  | nil => rfl
  | cons h _ ih => rw [List.map_cons, List.map_cons, h, ih]

/-- **C34** (candidate). With `CaseSensitivity::Insensitive`, candidates that differ only in the case of ASCII letters
are both accepted or both rejected. -/
theorem C34_candidate (h : Reachable U a m st) (hi : st.caseSensitivity = .insensitive)
    (hq : Parsed U t q ∨ ParsedRaw U t q) {s s' : List Char} (hs : SameButCase s s') :
    ∃ d d', Returns U m q s d ∧ Returns U m q s' d' ∧ d.isSome = d'.isSome := by
  have hok : QueryOk U q := by rcases hq with h | h; exacts [h.ok, h.ok]
  obtain ⟨d, h1, h2⟩ := decision h hok s
  obtain ⟨d', h3, h4⟩ := decision h hok s'
  refine ⟨d, d', h1, h3, Bool.eq_iff_iff.mpr ?_⟩
  rw [h2, h4, ← queryMatches_lower hi, hs.map_eq, queryMatches_lower hi]

example : ∃ d d', Returns Concrete.U (Concrete.metric .v1 .insensitive) (Concrete.parse "AB !^c") "xaYb".toList d ∧
    Returns Concrete.U (Concrete.metric .v1 .insensitive) (Concrete.parse "AB !^c") "XAyB".toList d' ∧
    d.isSome = d'.isSome :=
  C34_candidate (Concrete.reachable ..) rfl (Or.inl (Concrete.parsed _))
    (.cons (by decide) (.cons (by decide) (.cons (by decide) (.cons (by decide) .nil))))
/-- The distance itself may change. -/
example : Returns Concrete.U (Concrete.metric .v1 .insensitive) (Concrete.parse "b") "ab".toList (some ⟨16⟩) ∧
    Returns Concrete.U (Concrete.metric .v1 .insensitive) (Concrete.parse "b") "aB".toList (some ⟨30⟩) :=
  ⟨Concrete.returns (by decide +kernel), Concrete.returns (by decide +kernel)⟩

/-- **C34** (query). With `CaseSensitivity::Insensitive`, query strings that differ only in the case of ASCII letters give
the same distance and the same ranges. -/
theorem C34_query (h : Reachable U a m st) (hi : st.caseSensitivity = .insensitive) {t' : List Char} {q' : FzfQuery}
    (hq : (Parsed U t q ∧ Parsed U t' q') ∨ (ParsedRaw U t q ∧ ParsedRaw U t' q')) (ht : SameButCase t t')
    (s : List Char) (buf : List Range) :
    ∃ buf' d, (Returns U m q s d ∧ Returns U m q' s d) ∧
      (ReturnsRanges U m q s buf buf' d ∧ ReturnsRanges U m q' s buf buf' d) := by
  have hok : QueryOk U q := by rcases hq with h | h; exacts [h.1.ok, h.1.ok]
  have hok' : QueryOk U q' := by rcases hq with h | h; exacts [h.2.ok, h.2.ok]
  have hl : loweredQuery q = loweredQuery q' := by
    rcases hq with ⟨h1, h2⟩ | ⟨h1, h2⟩
    · rw [h1.eq, h2.eq, ← query_lower, ht.map_eq, query_lower]
    · rw [h1.eq, h2.eq, ← rawQuery_lower, ht.map_eq, rawQuery_lower]
  have hr : result U a st s q = result U a st s q' := by
    rw [← result_lowered hi hok, hl, result_lowered hi hok']
  exact ⟨_, _, ⟨(returns_iff h hok).mpr rfl, (returns_iff h hok').mpr (by rw [hr])⟩,
    (returnsRanges_iff h hok).mpr ⟨rfl, rfl⟩, (returnsRanges_iff h hok').mpr (by rw [hr]; exact ⟨rfl, rfl⟩)⟩

example : ∃ buf' d, (Returns Concrete.U (Concrete.metric .v2 .insensitive) (Concrete.parse "aB 'c") "xAbC".toList d ∧
      Returns Concrete.U (Concrete.metric .v2 .insensitive) (Concrete.parse "Ab 'C") "xAbC".toList d) ∧
    (ReturnsRanges Concrete.U (Concrete.metric .v2 .insensitive) (Concrete.parse "aB 'c") "xAbC".toList [] buf' d ∧
      ReturnsRanges Concrete.U (Concrete.metric .v2 .insensitive) (Concrete.parse "Ab 'C") "xAbC".toList [] buf' d) :=
  C34_query (Concrete.reachable ..) rfl (Or.inl ⟨Concrete.parsed "aB 'c", Concrete.parsed "Ab 'C"⟩)
    (.cons (by decide) (.cons (by decide) (.cons (by decide) (.cons (by decide) (.cons (by decide) .nil))))) _ _
example : ReturnsRanges Concrete.U (Concrete.metric .v2 .insensitive) (Concrete.parse "aB 'c") "xAbC".toList []
    [⟨1, 4⟩] (some ⟨83⟩) := Concrete.returnsRanges (by decide +kernel)

/-- **C37** (more matches). Without negated patterns, whatever a metric without candidate normalization accepts is
accepted with it. -/
theorem C37_more {m₁ m₂ : Metric} {cs : CaseSensitivity} {S : FzfScheme}
    (h₁ : Reachable U a m₁ ⟨cs, false, S⟩) (h₂ : Reachable U a m₂ ⟨cs, true, S⟩)
    (hq : Parsed U t q ∨ ParsedRaw U t q) (hi : ∀ p ∈ patterns q, p.isInverse = false) (s : List Char)
    {d : FzfDistance} (hd : Returns U m₁ q s (some d)) : ∃ d', Returns U m₂ q s (some d') := by
  have hok : QueryOk U q := by rcases hq with h | h; exacts [h.ok, h.ok]
  obtain ⟨d₁, h1, h2⟩ := decision h₁ hok s
  obtain ⟨d₂, h3, h4⟩ := decision h₂ hok s
  obtain ⟨_, e1⟩ := hd
  obtain ⟨_, e2⟩ := h1
  rw [e1] at e2
  cases e2
  have := h4.mpr (queryMatches_imp (st := ⟨cs, false, S⟩) (by
    rintro cs rfl c hc p hp
    exact hi p (by simp only [patterns, List.mem_flatten]; exact ⟨c, hc, hp⟩))
    (fun p _ x c hx => CharMatches.normalized true hx) (h2.mp rfl))
  obtain ⟨d', rfl⟩ := Option.isSome_iff_exists.mp this
  exact ⟨d', h3⟩

example : ∃ d', Returns Concrete.U (Concrete.metric .v1 .smart true) (Concrete.parse "é ^c") "cafée".toList (some d') :=
  C37_more (m₁ := Concrete.metric .v1) (d := ⟨68⟩) (Concrete.reachable ..) (Concrete.reachable ..)
    (Or.inl (Concrete.parsed _)) (by decide +kernel) _ (Concrete.returns (by decide +kernel))
/-- A match that needs normalization, and a negated pattern for which normalization loses a match. -/
example : Returns Concrete.U (Concrete.metric .v2) (Concrete.parse "e") "é".toList none ∧
    Returns Concrete.U (Concrete.metric .v2 .smart true) (Concrete.parse "e") "é".toList (some ⟨32⟩) ∧
    Returns Concrete.U (Concrete.metric .v2) (Concrete.parse "!e") "é".toList (some ⟨0⟩) ∧
    Returns Concrete.U (Concrete.metric .v2 .smart true) (Concrete.parse "!e") "é".toList none :=
  ⟨Concrete.returns (by decide +kernel), Concrete.returns (by decide +kernel), Concrete.returns (by decide +kernel),
    Concrete.returns (by decide +kernel)⟩

/-- **C37** (ASCII). For a candidate of ASCII characters the setting makes no difference, to any query. -/
theorem C37_ascii {m₁ m₂ : Metric} {cs : CaseSensitivity} {S : FzfScheme}
    (h₁ : Reachable U a m₁ ⟨cs, false, S⟩) (h₂ : Reachable U a m₂ ⟨cs, true, S⟩)
    (hq : Parsed U t q ∨ ParsedRaw U t q) {s : List Char} (hs : ∀ c ∈ s, c.toNat < 128) (buf : List Range) :
    ∃ buf' d, (Returns U m₁ q s d ∧ Returns U m₂ q s d) ∧
      (ReturnsRanges U m₁ q s buf buf' d ∧ ReturnsRanges U m₂ q s buf buf' d) := by
  have hok : QueryOk U q := by rcases hq with h | h; exacts [h.ok, h.ok]
  have hr : result U a ⟨cs, false, S⟩ s q = result U a ⟨cs, true, S⟩ s q := by
    refine result_agree rfl fun p _ x c hc => ?_
    exact (charEq_ascii_right _ true x (decide_eq_true (hs c hc))).symm
  exact ⟨_, _, ⟨(returns_iff h₁ hok).mpr rfl, (returns_iff h₂ hok).mpr (by rw [hr])⟩,
    (returnsRanges_iff h₁ hok).mpr ⟨rfl, rfl⟩, (returnsRanges_iff h₂ hok).mpr (by rw [hr]; exact ⟨rfl, rfl⟩)⟩

example : ∃ buf' d, (Returns Concrete.U (Concrete.metric .v2) (Concrete.parse "ae !é") "abe".toList d ∧
      Returns Concrete.U (Concrete.metric .v2 .smart true) (Concrete.parse "ae !é") "abe".toList d) ∧
    (ReturnsRanges Concrete.U (Concrete.metric .v2) (Concrete.parse "ae !é") "abe".toList [] buf' d ∧
      ReturnsRanges Concrete.U (Concrete.metric .v2 .smart true) (Concrete.parse "ae !é") "abe".toList [] buf' d) :=
  C37_ascii (Concrete.reachable ..) (Concrete.reachable ..) (Or.inl (Concrete.parsed _)) (by decide +kernel) _

/-- `s'` is `s` with every listed character replaced by its letter. -/
def Replaces (s s' : List Char) : Prop :=
  List.Forall₂ (fun c d => Listed c d ∨ ((∀ l, ¬ Listed c l) ∧ d = c)) s s'

theorem Replaces.eq {s s' : List Char} (h : Replaces s s') : s' = s.map normalize := by
  induction h with
  | nil => rfl
  | cons h _ ih =>
    rw [List.map_cons, ← ih]
    rcases h with h | ⟨h, rfl⟩
    · rw [normalize_listed h]
    · rw [normalize_not_listed h]

theorem text_unlisted (hq : Parsed U t q ∨ ParsedRaw U t q) (ht : ∀ c ∈ t, ∀ l, ¬ Listed c l) :
    ∀ p ∈ patterns q, ∀ c ∈ p.text, ∀ l, ¬ Listed c l := by
  intro p hp c hc
  refine ht c ?_
  rcases hq with h | h
  · rw [h.eq] at hp; exact query_text_mem hp c hc
  · rw [h.eq] at hp; exact rawQuery_text_mem hp c hc

/-- **C54** (unlisted). If no character of the query string is listed, candidate normalization amounts to replacing the
listed characters of the candidate beforehand: what a metric with it accepts is what one without it accepts of the
candidates with these characters replaced. -/
theorem C54_replaced {m₁ m₂ : Metric} {cs : CaseSensitivity} {S : FzfScheme}
    (h₁ : Reachable U a m₁ ⟨cs, true, S⟩) (h₂ : Reachable U a m₂ ⟨cs, false, S⟩)
    (hq : Parsed U t q ∨ ParsedRaw U t q) (ht : ∀ c ∈ t, ∀ l, ¬ Listed c l) {s s' : List Char} (hs : Replaces s s') :
    ∃ d d', Returns U m₁ q s d ∧ Returns U m₂ q s' d' ∧ d.isSome = d'.isSome := by
  have hok : QueryOk U q := by rcases hq with h | h; exacts [h.ok, h.ok]
  obtain ⟨d, h1, h2⟩ := decision h₁ hok s
  obtain ⟨d', h3, h4⟩ := decision h₂ hok s'
  refine ⟨d, d', h1, h3, Bool.eq_iff_iff.mpr ?_⟩
  rw [h2, h4, hs.eq, queryMatches_normalize (text_unlisted hq ht)]

example : ∃ d d', Returns Concrete.U (Concrete.metric .v2 .smart true) (Concrete.parse "Ec !'z le$") "Écołe".toList d ∧
    Returns Concrete.U (Concrete.metric .v2) (Concrete.parse "Ec !'z le$") "Ecole".toList d' ∧ d.isSome = d'.isSome :=
  C54_replaced (Concrete.reachable ..) (Concrete.reachable ..) (Or.inl (Concrete.parsed _)) (by decide +kernel)
    (.cons (.inl (by decide +kernel)) (.cons (.inr (by decide +kernel)) (.cons (.inr (by decide +kernel))
      (.cons (.inl (by decide +kernel)) (.cons (.inr (by decide +kernel)) .nil)))))
example : Returns Concrete.U (Concrete.metric .v2 .smart true) (Concrete.parse "Ec !'z le$") "Écołe".toList (some ⟨112⟩) :=
  Concrete.returns (by decide +kernel)
/-- A listed character of the query only matches itself. -/
example : Returns Concrete.U (Concrete.metric .v2 .smart true) (Concrete.parse "é") "e".toList none ∧
    Returns Concrete.U (Concrete.metric .v2 .smart true) (Concrete.parse "é") "ê".toList none ∧
    Returns Concrete.U (Concrete.metric .v2 .smart true) (Concrete.parse "é") "é".toList (some ⟨32⟩) :=
  ⟨Concrete.returns (by decide +kernel), Concrete.returns (by decide +kernel), Concrete.returns (by decide +kernel)⟩

/-! ### Case of accented letters -/

/-- With `CaseSensitivity::Insensitive` and candidate normalization, the case of the candidate's letters, accented ones
included, does not matter. -/
def C55 : Prop :=
  ∀ (U : Unicode) (a : Algo) (m : Metric) (st : Settings) (t : List Char) (q : FzfQuery) (s s' : List Char),
    Reachable U a m st → st.caseSensitivity = .insensitive → st.normalization = true → Parsed U t q →
    SameLetters s s' → ∃ d d', Returns U m q s d ∧ Returns U m q s' d' ∧ d.isSome = d'.isSome

/-- **C55 is false.** The query `c` matches `č` but not `Č`: of most accented letters only the lower case form is
listed. -/
theorem C55_false : ¬ C55 := by
  intro h
  obtain ⟨d, d', h1, h2, h3⟩ := h Concrete.U .v1 (Concrete.metric .v1 .insensitive true) _ _ _ "č".toList "Č".toList
    (Concrete.reachable ..) rfl rfl (Concrete.parsed "c") (.cons (.inr (.inl (by decide +kernel))) .nil)
  have e1 : Returns Concrete.U (Concrete.metric .v1 .insensitive true) (Concrete.parse "c") "č".toList (some ⟨32⟩) :=
    Concrete.returns (by decide +kernel)
  have e2 : Returns Concrete.U (Concrete.metric .v1 .insensitive true) (Concrete.parse "c") "Č".toList none :=
    Concrete.returns (by decide +kernel)
  obtain ⟨_, h1⟩ := h1
  obtain ⟨_, e1⟩ := e1
  obtain ⟨_, h2⟩ := h2
  obtain ⟨_, e2⟩ := e2
  rw [h1] at e1
  rw [h2] at e2
  cases e1
  cases e2
  cases h3

/-- **C55** for queries of ASCII characters and candidates in which the accented letters whose case differs are listed in
both cases. What is missing: letters of which only one case is listed (`C55_false`), and queries with accented letters,
which are compared as they are. -/
theorem C55_partial (h : Reachable U a m st) (hi : st.caseSensitivity = .insensitive) (hn : st.normalization = true)
    (hq : Parsed U t q ∨ ParsedRaw U t q) (ht : ∀ c ∈ t, c.toNat < 128) {s s' : List Char} (hs : SameListed s s') :
    ∃ d d', Returns U m q s d ∧ Returns U m q s' d' ∧ d.isSome = d'.isSome := by
  have hok : QueryOk U q := by rcases hq with h | h; exacts [h.ok, h.ok]
  obtain ⟨d, h1, h2⟩ := decision h hok s
  obtain ⟨d', h3, h4⟩ := decision h hok s'
  refine ⟨d, d', h1, h3, Bool.eq_iff_iff.mpr ?_⟩
  have hu := text_unlisted hq fun c hc l hl => by
    have := hl.range; rw [isNormalized_ascii (decide_eq_true (ht c hc))] at this; cases this
  obtain ⟨cs, n, S⟩ := st
  simp only at hi hn
  subst hi hn
  rw [h2, h4, ← queryMatches_normalize hu s, ← queryMatches_normalize hu s', ← queryMatches_lower rfl, hs.plain,
    queryMatches_lower rfl]

example : ∃ d d', Returns Concrete.U (Concrete.metric .v1 .insensitive true) (Concrete.parse "ec !^x") "xÉcole".toList d ∧
    Returns Concrete.U (Concrete.metric .v1 .insensitive true) (Concrete.parse "ec !^x") "xécOlE".toList d' ∧
    d.isSome = d'.isSome :=
  C55_partial (Concrete.reachable ..) rfl rfl (Or.inl (Concrete.parsed _)) (by decide +kernel)
    (.cons (.inl (by decide +kernel)) (.cons (.inr ⟨.inr (by decide +kernel), ⟨'E', by decide +kernel⟩, 'e', by decide +kernel⟩)
      (.cons (.inl (by decide +kernel)) (.cons (.inl (by decide +kernel)) (.cons (.inl (by decide +kernel))
        (.cons (.inl (by decide +kernel)) .nil))))))
example : Returns Concrete.U (Concrete.metric .v1 .insensitive true) (Concrete.parse "ec !^a") "xÉcole".toList
    (some ⟨56⟩) := Concrete.returns (by decide +kernel)

/-- **C55** fails for every accented letter of which only one case is listed: the query of its base letter matches the listed
form and not the other. -/
theorem C55_only (h : Reachable U a m st) (hi : st.caseSensitivity = .insensitive) (hn : st.normalization = true)
    {c d l : Char} (hcd : (c, d) ∈ casePairs ∨ (d, c) ∈ casePairs) (hl : Listed c l) (hd : ∀ l, ¬ Listed d l)
    (hq : ParsedRaw U [l] q) : (∃ x, Returns U m q [c] (some x)) ∧ Returns U m q [d] none := by
  have hne : lower l ≠ lower d := by
    have h1 : ∀ x ∈ casePairs, lower x.1 = x.1 ∧ lower x.2 = x.2 ∧ 128 ≤ x.1.toNat ∧ 128 ≤ x.2.toNat := by decide +kernel
    have h2 : ∀ e ∈ variants, (lower e.1).toNat < 128 := by decide +kernel
    obtain ⟨e, he, rfl, _⟩ := hl
    have h2 := h2 e he
    intro heq
    rw [heq] at h2
    rcases hcd with hx | hx
    · obtain ⟨_, h3, _, h4⟩ := h1 _ hx
      simp only at h3 h4
      rw [h3] at h2; omega
    · obtain ⟨h3, _, h4, _⟩ := h1 _ hx
      simp only at h3 h4
      rw [h3] at h2; omega
  obtain ⟨x, h1, h2⟩ := decision h hq.ok [c]
  obtain ⟨y, h3, h4⟩ := decision h hq.ok [d]
  rw [hq.eq] at h2 h4
  obtain ⟨cs, n, S⟩ := st
  simp only at hi hn
  subst hi hn
  have key : ∀ z, QueryMatches U ⟨.insensitive, true, S⟩ (rawQuery U [l]) [z] ↔ CharMatches false true l z := by
    intro z
    show (([l] : List Char) = [] ∨ Subseq (CharMatches false true) [l] [z]) ↔ _
    rw [subseq_singleton]
    simp only [List.cons_ne_nil, false_or]
    constructor
    · rintro ⟨i, c, h5, h6⟩
      cases i with
      | zero => cases h5; exact h6
      | succ i => simp at h5
    · intro h5
      exact ⟨0, z, rfl, h5⟩
  rw [key] at h2 h4
  constructor
  · have := h2.mpr (.inr ⟨rfl, l, hl, rfl⟩)
    obtain ⟨x, rfl⟩ := Option.isSome_iff_exists.mp this
    exact ⟨x, h1⟩
  · have : y = none := by
      rw [← Option.not_isSome_iff_eq_none]
      intro hy
      rcases h4.mp hy with h5 | ⟨_, t, h5, _⟩
      · exact hne h5
      · exact hd t h5
    rw [this] at h3
    exact h3

example : Returns Concrete.U (Concrete.metric .v2 .insensitive true) (rawQuery Concrete.U ['c']) ['č'] (some ⟨32⟩) ∧
    Returns Concrete.U (Concrete.metric .v2 .insensitive true) (rawQuery Concrete.U ['c']) ['Č'] none ∧
    ('č', 'Č') ∈ casePairs ∧ Listed 'č' 'c' ∧ ∀ l, ¬ Listed 'Č' l :=
  ⟨Concrete.returns (s := "č") (by decide +kernel), Concrete.returns (s := "Č") (by decide +kernel), by decide +kernel, by decide +kernel,
    by decide +kernel⟩

end Norm.Props
