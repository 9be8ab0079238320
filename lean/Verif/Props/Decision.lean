import Verif.Proofs.Relations
import Verif.Props.Concrete

/-!
# Which candidates match

Properties C01–C09, C11, C35, C36, C43–C45. `U` ranges over all Unicode classifications, `m` over all
metrics that API calls can produce and `s` over all candidates. Every statement includes that the calls return. -/

namespace Norm.Props

open Spec

variable {U : Unicode} {a : Algo} {m : Metric} {st : Settings} {q : FzfQuery} {t : List Char}

/-- **C01.** `FzfV1` accepts a non-empty non-extended query iff it is a subsequence of the candidate. -/
theorem C01_fuzzy_v1 (h : Reachable U .v1 m st) (hq : ParsedRaw U t q) (ht : t ≠ []) (s : List Char) :
    ∃ d, Returns U m q s d ∧ (d.isSome = true ↔ Subseq (Cmp U st t) t s) := by
  obtain ⟨d, h1, h2⟩ := decision h hq.ok s
  refine ⟨d, h1, ?_⟩
  rw [h2, hq.eq]
  simp [rawQuery, QueryMatches, RawMatches, TextMatches, mkPattern, ht]

example : Returns Concrete.U (Concrete.metric .v1) (rawQuery Concrete.U "ac".toList) "xAbC".toList (some ⟨50⟩) :=
  Concrete.returns (by decide +kernel)
example : Returns Concrete.U (Concrete.metric .v1) (rawQuery Concrete.U "aC".toList) "xAbC".toList none :=
  Concrete.returns (by decide +kernel)
example : ∃ d, Returns Concrete.U (Concrete.metric .v1) (rawQuery Concrete.U "ac".toList) "xAbC".toList d ∧
    (d.isSome = true ↔ Subseq (Cmp Concrete.U defaultSettings "ac".toList) "ac".toList "xAbC".toList) :=
  C01_fuzzy_v1 (Concrete.reachable ..) (Concrete.parsedRaw "ac" (by decide)) (by decide) _

/-- **C02.** `FzfV2` accepts a non-empty non-extended query iff it is a subsequence of the candidate. -/
theorem C02_fuzzy_v2 (h : Reachable U .v2 m st) (hq : ParsedRaw U t q) (ht : t ≠ []) (s : List Char) :
    ∃ d, Returns U m q s d ∧ (d.isSome = true ↔ Subseq (Cmp U st t) t s) := by
  obtain ⟨d, h1, h2⟩ := decision h hq.ok s
  refine ⟨d, h1, ?_⟩
  rw [h2, hq.eq]
  simp [rawQuery, QueryMatches, RawMatches, TextMatches, mkPattern, ht]

example : Returns Concrete.U (Concrete.metric .v2) (rawQuery Concrete.U "ac".toList) "xAbC".toList (some ⟨50⟩) :=
  Concrete.returns (by decide +kernel)
example : ∃ d, Returns Concrete.U (Concrete.metric .v2) (rawQuery Concrete.U "ac".toList) "xAbC".toList d ∧
    (d.isSome = true ↔ Subseq (Cmp Concrete.U defaultSettings "ac".toList) "ac".toList "xAbC".toList) :=
  C02_fuzzy_v2 (Concrete.reachable ..) (Concrete.parsedRaw "ac" (by decide)) (by decide) _

/-- **C03.** The two algorithms accept the same candidates, for every query of the parser. -/
theorem C03_v1_v2_same_decision {m₁ m₂ : Metric} (h₁ : Reachable U .v1 m₁ st) (h₂ : Reachable U .v2 m₂ st)
    (hq : Parsed U t q ∨ ParsedRaw U t q) (s : List Char) :
    ∃ d₁ d₂, Returns U m₁ q s d₁ ∧ Returns U m₂ q s d₂ ∧ d₁.isSome = d₂.isSome := by
  have hok : QueryOk U q := by rcases hq with h | h; exacts [h.ok, h.ok]
  obtain ⟨d₁, h1, h2⟩ := decision h₁ hok s
  obtain ⟨d₂, h3, h4⟩ := decision h₂ hok s
  exact ⟨d₁, d₂, h1, h3, Bool.eq_iff_iff.mpr (h2.trans h4.symm)⟩

example : ∃ d₁ d₂, Returns Concrete.U (Concrete.metric .v1) (Concrete.parse "b !^c | a$") "abca".toList d₁ ∧
    Returns Concrete.U (Concrete.metric .v2) (Concrete.parse "b !^c | a$") "abca".toList d₂ ∧
    d₁.isSome = d₂.isSome :=
  C03_v1_v2_same_decision (Concrete.reachable ..) (Concrete.reachable ..) (Or.inl (Concrete.parsed _)) _
example : Returns Concrete.U (Concrete.metric .v1) (Concrete.parse "b !^c | a$") "abca".toList (some ⟨16⟩) :=
  Concrete.returns (by decide +kernel)

/-! ### The kinds of patterns -/

/-- A query of one word decorated with sigils that do not make it fuzzy. -/
theorem one_pattern (h : Reachable U a m st) {str w : List Char} (hq : Parsed U str q) (hw : words str = [w])
    {inv dol : Bool} {sg : Sigil} (hd : Decorates w inv sg dol t) (ht : t ≠ []) (hk : kind inv dol sg ≠ .fuzzy)
    (s : List Char) :
    ∃ d, Returns U m q s d ∧
      (d.isSome = true ↔ PatternMatches U st (mkPattern U inv (kind inv dol sg) t) s) := by
  have hp : wordPattern U w = some (mkPattern U inv (kind inv dol sg) t) := by
    rw [wordPattern_of_decorates hd, if_neg ht]
  obtain ⟨d, h1, h2⟩ := decision h hq.ok s
  refine ⟨d, h1, ?_⟩
  rw [h2, hq.eq, query_one hw hp hk, queryMatches_single]

/-- **C04.** `'foo` accepts the candidates that contain `foo` as a block. -/
theorem C04_exact (h : Reachable U a m st) {str w : List Char} (hq : Parsed U str q) (hw : words str = [w])
    {dol : Bool} (hd : Decorates w false .quote dol t) (ht : t ≠ []) (s : List Char) :
    ∃ d, Returns U m q s d ∧ (d.isSome = true ↔ Substring (Cmp U st t) t s) :=
  one_pattern h hq hw hd ht (by simp [kind]) s

example : ∃ d, Returns Concrete.U (Concrete.metric .v1) (Concrete.parse "'a\\ b") "xxa byy".toList d ∧
    (d.isSome = true ↔ Substring (Cmp Concrete.U defaultSettings "a b".toList) "a b".toList "xxa byy".toList) :=
  C04_exact (w := "'a b".toList) (dol := false) (Concrete.reachable ..) (Concrete.parsed _) (by decide +kernel)
    ⟨rfl, by decide, by decide, by decide, by decide⟩ (by decide) _
example : Returns Concrete.U (Concrete.metric .v1) (Concrete.parse "'a\\ b") "xxa byy".toList (some ⟨68⟩) :=
  Concrete.returns (by decide +kernel)
example : Returns Concrete.U (Concrete.metric .v1) (Concrete.parse "'ab") "axb".toList none :=
  Concrete.returns (by decide +kernel)

/-- **C05.** `^foo` accepts the candidates that start with `foo`, up to surplus leading spaces. -/
theorem C05_prefix (h : Reachable U a m st) {str w : List Char} (hq : Parsed U str q) (hw : words str = [w])
    (hd : Decorates w false .caret false t) (ht : t ≠ []) (s : List Char) :
    ∃ d, Returns U m q s d ∧ (d.isSome = true ↔ PrefixMatch (Cmp U st t) t s) :=
  one_pattern h hq hw hd ht (by simp [kind]) s

example : ∃ d, Returns Concrete.U (Concrete.metric .v2) (Concrete.parse "^\\ a") "   ab".toList d ∧
    (d.isSome = true ↔ PrefixMatch (Cmp Concrete.U defaultSettings " a".toList) " a".toList "   ab".toList) :=
  C05_prefix (w := "^ a".toList) (Concrete.reachable ..) (Concrete.parsed _) (by decide +kernel)
    ⟨rfl, by decide, by decide, by decide, by decide⟩ (by decide) _
example : Returns Concrete.U (Concrete.metric .v2) (Concrete.parse "^\\ a") "   ab".toList (some ⟨62⟩) :=
  Concrete.returns (by decide +kernel)
example : Returns Concrete.U (Concrete.metric .v2) (Concrete.parse "^\\ a") "ab".toList none :=
  Concrete.returns (by decide +kernel)

/-- **C06.** `foo$` accepts the candidates that end with `foo`, up to surplus trailing spaces. -/
theorem C06_suffix (h : Reachable U a m st) {str w : List Char} (hq : Parsed U str q) (hw : words str = [w])
    (hd : Decorates w false .none true t) (ht : t ≠ []) (s : List Char) :
    ∃ d, Returns U m q s d ∧ (d.isSome = true ↔ SuffixMatch (Cmp U st t) t s) :=
  one_pattern h hq hw hd ht (by simp [kind]) s

example : ∃ d, Returns Concrete.U (Concrete.metric .v2) (Concrete.parse "b$") "ab  ".toList d ∧
    (d.isSome = true ↔ SuffixMatch (Cmp Concrete.U defaultSettings "b".toList) "b".toList "ab  ".toList) :=
  C06_suffix (w := "b$".toList) (Concrete.reachable ..) (Concrete.parsed _) (by decide +kernel)
    ⟨rfl, by decide, by decide, by decide, by decide⟩ (by decide) _
example : Returns Concrete.U (Concrete.metric .v2) (Concrete.parse "b$") "ab  ".toList (some ⟨16⟩) :=
  Concrete.returns (by decide +kernel)

/-- **C07.** `^foo$` accepts the candidates equal to `foo`, up to surplus spaces at both ends. -/
theorem C07_equal (h : Reachable U a m st) {str w : List Char} (hq : Parsed U str q) (hw : words str = [w])
    (hd : Decorates w false .caret true t) (ht : t ≠ []) (s : List Char) :
    ∃ d, Returns U m q s d ∧ (d.isSome = true ↔ EqualMatch (Cmp U st t) t s) :=
  one_pattern h hq hw hd ht (by simp [kind]) s

example : ∃ d, Returns Concrete.U (Concrete.metric .v1) (Concrete.parse "^ab$") " ab  ".toList d ∧
    (d.isSome = true ↔ EqualMatch (Cmp Concrete.U defaultSettings "ab".toList) "ab".toList " ab  ".toList) :=
  C07_equal (w := "^ab$".toList) (Concrete.reachable ..) (Concrete.parsed _) (by decide +kernel)
    ⟨rfl, by decide, by decide, by decide, by decide⟩ (by decide) _
example : Returns Concrete.U (Concrete.metric .v1) (Concrete.parse "^ab$") " ab  ".toList (some ⟨62⟩) :=
  Concrete.returns (by decide +kernel)

/-- **C08, full statement.** A query of one negated word accepts exactly the candidates that the pattern without `!` does
not match, with score 0 and without ranges. -/
def C08 : Prop :=
  ∀ (U : Unicode) (a : Algo) (m : Metric) (st : Settings) (str w t : List Char) (q : FzfQuery) (dol : Bool) (sg : Sigil),
    Reachable U a m st → Parsed U str q → words str = [w] → Decorates w true sg dol t → t ≠ [] →
    ∀ s buf, (TextMatches (Cmp U st t) (kind true dol sg) t s → ReturnsRanges U m q s buf buf none) ∧
      (¬ TextMatches (Cmp U st t) (kind true dol sg) t s → ReturnsRanges U m q s buf buf (some ⟨0⟩))

/-- **C08 is false.** `!'foo` matches `xfoo`, with score 56: a query made of one negated fuzzy pattern is evaluated as if
it were not negated. -/
theorem C08_false : ¬ C08 := by
  intro h
  have h1 := (h Concrete.U .v1 (Concrete.metric .v1) defaultSettings "!'foo".toList "!'foo".toList "foo".toList
    (Concrete.parse "!'foo") false .quote (Concrete.reachable ..) (Concrete.parsed _) (by decide +kernel)
    ⟨rfl, by decide, by decide, by decide, by decide⟩ (by decide) "xfoo".toList []).1
    ⟨"foo".toList, by decide, by
      exact .cons (CharMatches.refl _ _ _) (.cons (CharMatches.refl _ _ _) (.cons (CharMatches.refl _ _ _) .nil))⟩
  have h2 : ReturnsRanges Concrete.U (Concrete.metric .v1) (Concrete.parse "!'foo") "xfoo".toList []
      [⟨1, 4⟩] (some ⟨56⟩) := Concrete.returnsRanges (by decide +kernel)
  obtain ⟨_, h1⟩ := h1
  obtain ⟨_, h2⟩ := h2
  rw [h1] at h2
  cases h2

theorem patHit_inverse {pf : PureFuzzy} {s : List Char} {p : Pattern} (hi : p.isInverse = true) :
    patHit U pf st s p = if (rawHit U pf st s p).isSome then none else some ([], 0) := by
  unfold patHit
  rw [if_pos hi]
  cases rawHit U pf st s p <;> rfl

/-- **C08** for every kind of negated pattern that is not fuzzy. What is missing: a lone negated fuzzy pattern (`!'foo`), for
which the statement is false. -/
theorem C08_inverse_partial (h : Reachable U a m st) {str w : List Char} (hq : Parsed U str q) (hw : words str = [w])
    {dol : Bool} {sg : Sigil} (hd : Decorates w true sg dol t) (ht : t ≠ []) (hk : kind true dol sg ≠ .fuzzy)
    (s : List Char) (buf : List Range) :
    (TextMatches (Cmp U st t) (kind true dol sg) t s → ReturnsRanges U m q s buf buf none) ∧
      (¬ TextMatches (Cmp U st t) (kind true dol sg) t s → ReturnsRanges U m q s buf buf (some ⟨0⟩)) := by
  have hp : wordPattern U w = some (mkPattern U true (kind true dol sg) t) := by
    rw [wordPattern_of_decorates hd, if_neg ht]
  have hq' := hq.eq
  rw [query_one hw hp hk] at hq'
  have hr := rawHit_isSome (st := st) (s := s) (accepts a) (mkPattern_ok U true (kind true dol sg) ht)
  have hr : (rawHit U (pureOf a) st s (mkPattern U true (kind true dol sg) t)).isSome = true ↔
    TextMatches (Cmp U st t) (kind true dol sg) t s := hr
  constructor <;> intro hm <;> rw [returnsRanges_iff h hq.ok, hq', result_single, patHit_inverse rfl]
  · rw [if_pos (hr.mpr hm)]; simp
  · rw [if_neg (fun hc => hm (hr.mp hc))]; simp [FzfDistance.fromScore]

example : ReturnsRanges Concrete.U (Concrete.metric .v1) (Concrete.parse "!foo") "xfoo".toList [] [] none :=
  Concrete.returnsRanges (by decide +kernel)
example : ReturnsRanges Concrete.U (Concrete.metric .v1) (Concrete.parse "!foo$") "xfoox".toList [] [] (some ⟨0⟩) :=
  (C08_inverse_partial (w := "!foo$".toList) (dol := true) (sg := .none) (t := "foo".toList) (Concrete.reachable ..)
    (Concrete.parsed _) (by decide +kernel) ⟨rfl, by decide, by decide, by decide, by decide⟩ (by decide) (by decide) _ _).2
    (by
      rintro ⟨k, m, x, h1, h2, h3⟩
      have : k = 0 := by simpa [leading, trailing] using h2.symm
      subst this
      have hl := h3.length_eq
      simp only [List.replicate_zero, List.append_nil] at h1
      have h4 : m = "foox".toList.drop 1 := by
        have h5 := congrArg (List.drop 2) h1
        have hx : x.length = 2 := by have := congrArg List.length h1; simp at this hl; omega
        rw [List.drop_left' hx] at h5
        exact h5.symm
      subst h4
      obtain ⟨h6, _⟩ := List.forall₂_cons.mp h3
      exact absurd ((charEq_iff _ _ _ _).mpr h6) (by decide))

/-- A query of one negated fuzzy word returns what its text without `!` and `'` does, so that the candidates accepted are exactly
those that C08 says are rejected. -/
theorem C08_fuzzy (h : Reachable U a m st) {str w : List Char} {q' : FzfQuery} (hq : Parsed U str q) (hw : words str = [w])
    {dol : Bool} {sg : Sigil} (hd : Decorates w true sg dol t) (ht : t ≠ []) (hk : kind true dol sg = .fuzzy)
    (hq' : ParsedRaw U t q') (s : List Char) (buf buf' : List Range) (d : Option FzfDistance) :
    (ReturnsRanges U m q s buf buf' d ↔ ReturnsRanges U m q' s buf buf' d) ∧
      (ReturnsRanges U m q s buf buf' d → (d.isSome = true ↔ TextMatches (Cmp U st t) .fuzzy t s)) := by
  have hp : wordPattern U w = some (mkPattern U true (kind true dol sg) t) := by
    rw [wordPattern_of_decorates hd, if_neg ht]
  have hb : w ≠ ['|'] := by
    rintro rfl
    rw [show wordPattern U ['|'] = some (mkPattern U false .fuzzy ['|']) from rfl] at hp
    have := congrArg Pattern.isInverse (Option.some.inj hp)
    cases this
  have e := hq.eq
  rw [query_one_fuzzy hw hb hp hk] at e
  have hres : result U a st s q = result U a st s q' := by
    rw [e, hq'.eq]
    unfold rawQuery
    rw [result_notExtended ht, result_notExtended ht]
    rfl
  refine ⟨by rw [returnsRanges_iff h hq.ok, returnsRanges_iff h hq'.ok, hres], fun hr => ?_⟩
  obtain ⟨_, rfl⟩ := (returnsRanges_iff h hq.ok).mp hr
  rw [Option.isSome_map, result_isSome hq.ok, e]
  simp only [QueryMatches, RawMatches, mkPattern, hk, ht, false_or]

example : ReturnsRanges Concrete.U (Concrete.metric .v1) (Concrete.parse "!'foo") "xfoo".toList [] [⟨1, 4⟩] (some ⟨56⟩) ↔
    ReturnsRanges Concrete.U (Concrete.metric .v1) (rawQuery Concrete.U "foo".toList) "xfoo".toList [] [⟨1, 4⟩]
      (some ⟨56⟩) :=
  (C08_fuzzy (w := "!'foo".toList) (dol := false) (sg := .quote) (t := "foo".toList) (Concrete.reachable ..)
    (Concrete.parsed _) (by decide +kernel) ⟨rfl, by decide, by decide, by decide, by decide⟩ (by decide) (by decide)
    (Concrete.parsedRaw "foo" (by decide)) _ _ _ _).1

/-- **C09.** An extended query accepts a candidate iff every condition has an alternative that matches it. -/
theorem C09_and_of_ors (h : Reachable U a m st) {cs : List Condition} (hq : QueryOk U (.extended cs)) (s : List Char) :
    ∃ d, Returns U m (.extended cs) s d ∧ (d.isSome = true ↔ ∀ c ∈ cs, ∃ p ∈ c, PatternMatches U st p s) :=
  decision h hq s

/-- **C09** for query strings: the conditions are those of the grammar. The lone negated fuzzy pattern is the
exception described at `C08_false`. -/
theorem C09_and_of_ors_parsed (h : Reachable U a m st) (hq : Parsed U t q)
    (hne : ∀ p, groups (tokens U (words t)) = [[p]] → p.isInverse = true → p.matchType ≠ .fuzzy) (s : List Char) :
    ∃ d, Returns U m q s d ∧
      (d.isSome = true ↔ ∀ c ∈ groups (tokens U (words t)), ∃ p ∈ c, PatternMatches U st p s) := by
  obtain ⟨d, h1, h2⟩ := decision h hq.ok s
  refine ⟨d, h1, ?_⟩
  have hok := hq.ok
  rw [hq.eq] at hok h2
  rw [h2]
  clear h2
  unfold query collapse at hok ⊢
  split
  · rename_i p hp
    rw [hp] at hok
    dsimp only at hok
    split at hok
    · rename_i hk
      rw [if_pos hk, hp]
      have hpt : p.text ≠ [] := by
        have h3 := (groups_mem (ts := tokens U (words t)) [p] (by rw [hp]; simp)).2 p (by simp)
        simp only [tokens, List.mem_filterMap] at h3
        obtain ⟨w, _, h3⟩ := h3
        split at h3
        · simp at h3
        · cases hwp : wordPattern U w with
          | none => rw [hwp] at h3; simp at h3
          | some p' => rw [hwp] at h3; simp at h3; subst h3; exact (wordPattern_ok hwp).1
      have hi : p.isInverse = false := by
        cases hi : p.isInverse with
        | false => rfl
        | true => exact absurd hk (hne p hp hi)
      simp [QueryMatches, PatternMatches, hpt, hi]
    · rename_i hk
      rw [if_neg hk, hp]; rfl
  · rfl

example : ∃ d, Returns Concrete.U (Concrete.metric .v1) (Concrete.parse "a | x !z$") "abc".toList d ∧
    (d.isSome = true ↔ ∀ c ∈ groups (tokens Concrete.U (words "a | x !z$".toList)),
      ∃ p ∈ c, PatternMatches Concrete.U defaultSettings p "abc".toList) :=
  C09_and_of_ors_parsed (Concrete.reachable ..) (Concrete.parsed _)
    (by
      intro p hp
      have hl : (groups (tokens Concrete.U (words "a | x !z$".toList))).length = 2 := by decide +kernel
      rw [hp] at hl; cases hl) _
example : Returns Concrete.U (Concrete.metric .v1) (Concrete.parse "a | x !z$") "abc".toList (some ⟨36⟩) :=
  Concrete.returns (by decide +kernel)
example : Returns Concrete.U (Concrete.metric .v1) (Concrete.parse "a | x !c$") "abc".toList none :=
  Concrete.returns (by decide +kernel)

/-- **C11.** A query without patterns matches every candidate with score 0 and appends nothing. -/
theorem C11_empty (h : Reachable U a m st)
    (hq : ParsedRaw U [] q ∨ (Parsed U t q ∧ ∀ w ∈ words t, w = ['|'] ∨
      ∃ inv sg dol, Decorates w inv sg dol [])) (s : List Char) (buf : List Range) :
    Returns U m q s (some ⟨0⟩) ∧ ReturnsRanges U m q s buf buf (some ⟨0⟩) := by
  have key : QueryOk U q → q.isEmpty = true →
      Returns U m q s (some ⟨0⟩) ∧ ReturnsRanges U m q s buf buf (some ⟨0⟩) := by
    intro hok he
    rw [returns_iff h hok, returnsRanges_iff h hok]
    simp [result, queryHit, he, FzfDistance.fromScore]
  rcases hq with hq | ⟨hq, hw⟩
  · exact key hq.ok (by rw [hq.eq]; rfl)
  · refine key hq.ok ?_
    rw [hq.eq]
    have hg : ∀ p : Pattern, Token.pat p ∉ tokens U (words t) := by
      intro p hp
      simp only [tokens, List.mem_filterMap] at hp
      obtain ⟨w, h1, h2⟩ := hp
      rcases hw w h1 with rfl | ⟨inv, sg, dol, hd⟩
      · simp at h2
      · rw [wordPattern_of_decorates hd] at h2
        split at h2 <;> simp at h2
    have : groups (tokens U (words t)) = [] := by
      cases hgr : groups (tokens U (words t)) with
      | nil => rfl
      | cons c cs =>
        obtain ⟨h1, h2⟩ := groups_mem (ts := tokens U (words t)) c (by rw [hgr]; simp)
        obtain ⟨p, ps, rfl⟩ := List.exists_cons_of_ne_nil h1
        exact absurd (h2 p (by simp)) (hg p)
    unfold query
    rw [this]
    rfl

example : Returns Concrete.U (Concrete.metric .v2) (Concrete.parse " | ! ") "abc".toList (some ⟨0⟩) ∧
    ReturnsRanges Concrete.U (Concrete.metric .v2) (Concrete.parse " | ! ") "abc".toList [⟨5, 7⟩] [⟨5, 7⟩] (some ⟨0⟩) :=
  C11_empty (Concrete.reachable ..) (Or.inr ⟨Concrete.parsed _, by
    have : words " | ! ".toList = ["|".toList, "!".toList] := by decide +kernel
    rw [this]
    simp only [List.mem_cons, List.not_mem_nil, or_false, forall_eq_or_imp, forall_eq]
    exact ⟨Or.inl rfl, Or.inr ⟨true, .none, false, ⟨rfl, by decide, by decide, by decide, by decide⟩⟩⟩⟩) _ _

/-! ### Case sensitivity -/

/-- **C35.** For queries without negated patterns, a case-sensitive match is also a smart-case match and a case-insensitive
match. -/
theorem C35_sensitive_implies {m₁ m₂ : Metric} {n : Bool} {S : FzfScheme} {cs : CaseSensitivity}
    (h₁ : Reachable U a m₁ ⟨.sensitive, n, S⟩) (h₂ : Reachable U a m₂ ⟨cs, n, S⟩)
    (hq : Parsed U t q ∨ ParsedRaw U t q) (hi : ∀ p ∈ patterns q, p.isInverse = false) (s : List Char)
    {d : FzfDistance} (hd : Returns U m₁ q s (some d)) : ∃ d', Returns U m₂ q s (some d') := by
  have hok : QueryOk U q := by rcases hq with h | h; exacts [h.ok, h.ok]
  obtain ⟨d₁, h1, h2⟩ := decision h₁ hok s
  obtain ⟨d₂, h3, h4⟩ := decision h₂ hok s
  obtain ⟨_, e1⟩ := hd
  obtain ⟨_, e2⟩ := h1
  rw [e1] at e2
  cases e2
  have hm := h2.mp rfl
  have := h4.mpr (queryMatches_imp (st := ⟨.sensitive, n, S⟩) (by
    rintro cs rfl c hc p hp
    exact hi p (by simp only [patterns, List.mem_flatten]; exact ⟨c, hc, hp⟩))
    (fun p _ x c hx => CharMatches.insensitive (n := n) _ hx) hm)
  obtain ⟨d', rfl⟩ := Option.isSome_iff_exists.mp this
  exact ⟨d', h3⟩

example : ∃ d', Returns Concrete.U (Concrete.metric .v1 .insensitive) (Concrete.parse "aC | z") "abC".toList (some d') :=
  C35_sensitive_implies (m₁ := Concrete.metric .v1 .sensitive) (d := ⟨56⟩) (Concrete.reachable ..) (Concrete.reachable ..)
    (Or.inl (Concrete.parsed _)) (by decide +kernel) _ (Concrete.returns (by decide +kernel))

/-- **C36.** Under smart case, a query whose patterns all contain an upper-case character gives the result of the
case-sensitive metric; one whose patterns contain none gives the result of the case-insensitive metric. -/
theorem C36_smart {m₁ m₂ : Metric} {n : Bool} {S : FzfScheme} (b : Bool)
    (h₁ : Reachable U a m₁ ⟨.smart, n, S⟩) (h₂ : Reachable U a m₂ ⟨if b then .sensitive else .insensitive, n, S⟩)
    (hq : Parsed U t q ∨ ParsedRaw U t q) (hb : ∀ p ∈ patterns q, p.text.any U.isUppercase = b)
    (s : List Char) (buf : List Range) :
    ∃ buf' d, (Returns U m₁ q s d ∧ Returns U m₂ q s d) ∧
      (ReturnsRanges U m₁ q s buf buf' d ∧ ReturnsRanges U m₂ q s buf buf' d) := by
  have hok : QueryOk U q := by rcases hq with h | h; exacts [h.ok, h.ok]
  have hr : result U a ⟨.smart, n, S⟩ s q = result U a ⟨if b then .sensitive else .insensitive, n, S⟩ s q := by
    refine result_congr rfl fun p hp => ?_
    have hu : p.hasUppercase = p.text.any U.isUppercase := by
      cases q with
      | notExtended p' => simp only [patterns, List.mem_singleton] at hp; subst hp; exact (queryOk_upper hok).1
      | extended cs =>
        simp only [patterns, List.mem_flatten] at hp
        obtain ⟨c, hc, hp⟩ := hp
        exact ((hok c hc).2 p hp).upper
    simp only [Settings.eqOf]
    congr 1
    rw [sensitive_eq _ hu, sensitive_eq _ hu]
    unfold sensitive
    cases b <;> simp [hb p hp]
  refine ⟨_, _, ⟨(returns_iff h₁ hok).mpr rfl, (returns_iff h₂ hok).mpr (by rw [hr])⟩,
    (returnsRanges_iff h₁ hok).mpr ⟨rfl, rfl⟩, (returnsRanges_iff h₂ hok).mpr (by rw [hr]; exact ⟨rfl, rfl⟩)⟩

example : ∃ buf' d, (Returns Concrete.U (Concrete.metric .v2) (Concrete.parse "aB !Cc") "aB".toList d ∧
      Returns Concrete.U (Concrete.metric .v2 .sensitive) (Concrete.parse "aB !Cc") "aB".toList d) ∧
    (ReturnsRanges Concrete.U (Concrete.metric .v2) (Concrete.parse "aB !Cc") "aB".toList [] buf' d ∧
      ReturnsRanges Concrete.U (Concrete.metric .v2 .sensitive) (Concrete.parse "aB !Cc") "aB".toList [] buf' d) :=
  C36_smart true (Concrete.reachable ..) (Concrete.reachable ..) (Or.inl (Concrete.parsed _)) (by decide +kernel) _ _

/-! ### Monotonicity -/

/-- **C43.** Adding text around the candidate keeps a match of a fuzzy or exact pattern. -/
theorem C43_candidate_monotone (h : Reachable U a m st) (hq : ParsedRaw U t q ∨
      ∃ w dol, Parsed U t q ∧ words t = [w] ∧ ∃ t', t' ≠ [] ∧ Decorates w false .quote dol t')
    (x s y : List Char) {d : FzfDistance} (hd : Returns U m q s (some d)) :
    ∃ d', Returns U m q (x ++ s ++ y) (some d') := by
  have hok : QueryOk U q := by rcases hq with h | ⟨_, _, h, _⟩; exacts [h.ok, h.ok]
  obtain ⟨d₁, h1, h2⟩ := decision h hok s
  obtain ⟨d₂, h3, h4⟩ := decision h hok (x ++ s ++ y)
  obtain ⟨_, e1⟩ := hd
  obtain ⟨_, e2⟩ := h1
  rw [e1] at e2
  cases e2
  have hm := h2.mp rfl
  have : d₂.isSome = true := by
    rw [h4]
    rcases hq with hq | ⟨w, dol, hq, hw, t', ht', hd⟩
    · rw [hq.eq] at hm ⊢
      rcases hm with hm | hm
      · exact Or.inl hm
      · exact Or.inr (Subseq.extend x y hm)
    · have hp : wordPattern U w = some (mkPattern U false .exact t') := by
        rw [wordPattern_of_decorates hd, if_neg ht']; rfl
      rw [hq.eq, query_one hw hp (by simp [mkPattern]), queryMatches_single] at hm ⊢
      exact Substring.extend x y hm
  obtain ⟨d', rfl⟩ := Option.isSome_iff_exists.mp this
  exact ⟨d', h3⟩

example : ∃ d', Returns Concrete.U (Concrete.metric .v1) (rawQuery Concrete.U "ab".toList)
    ("x".toList ++ "a-b".toList ++ "y".toList) (some d') :=
  C43_candidate_monotone (d := ⟨57⟩) (Concrete.reachable ..) (Or.inl (Concrete.parsedRaw "ab" (by decide))) _ _ _
    (Concrete.returns (by decide +kernel))

/-- **C44, conditions.** Adding conditions never adds a match. -/
theorem C44_conditions (h : Reachable U a m st) {cs cs' : List Condition} (hq : QueryOk U (.extended cs))
    (hq' : QueryOk U (.extended cs')) (hsub : cs ⊆ cs') (s : List Char) {d : FzfDistance}
    (hd : Returns U m (.extended cs') s (some d)) : ∃ d', Returns U m (.extended cs) s (some d') := by
  obtain ⟨d₁, h1, h2⟩ := decision h hq' s
  obtain ⟨d₂, h3, h4⟩ := decision h hq s
  obtain ⟨_, e1⟩ := hd
  obtain ⟨_, e2⟩ := h1
  rw [e1] at e2
  cases e2
  obtain ⟨d', rfl⟩ := Option.isSome_iff_exists.mp (h4.mpr (fun c hc => h2.mp rfl c (hsub hc)))
  exact ⟨d', h3⟩

/-- **C44, alternatives.** Adding alternatives to conditions never removes a match. -/
theorem C44_alternatives (h : Reachable U a m st) {cs cs' : List Condition} (hq : QueryOk U (.extended cs))
    (hq' : QueryOk U (.extended cs')) (hsub : List.Forall₂ (· ⊆ ·) cs cs') (s : List Char) {d : FzfDistance}
    (hd : Returns U m (.extended cs) s (some d)) : ∃ d', Returns U m (.extended cs') s (some d') := by
  obtain ⟨d₁, h1, h2⟩ := decision h hq s
  obtain ⟨d₂, h3, h4⟩ := decision h hq' s
  obtain ⟨_, e1⟩ := hd
  obtain ⟨_, e2⟩ := h1
  rw [e1] at e2
  cases e2
  have hm := h2.mp rfl
  have : QueryMatches U st (.extended cs') s := by
    clear h2 h3 h4 hq hq' e1
    induction hsub with
    | nil => exact hm
    | cons hc _ ih =>
      intro c' hc'
      rcases List.mem_cons.mp hc' with rfl | hc'
      · obtain ⟨p, hp, hp'⟩ := hm _ (List.mem_cons_self ..)
        exact ⟨p, hc hp, hp'⟩
      · exact ih (fun c hc => hm c (List.mem_cons_of_mem _ hc)) c' hc'
  obtain ⟨d', rfl⟩ := Option.isSome_iff_exists.mp (h4.mpr this)
  exact ⟨d', h3⟩

/-- **C44, deletion.** Deleting characters from a fuzzy query never removes a match. -/
theorem C44_deletion (h : Reachable U a m st) {t' : List Char} {q' : FzfQuery} (hq : ParsedRaw U t q)
    (hq' : ParsedRaw U t' q') (hsub : t'.Sublist t) (s : List Char) {d : FzfDistance}
    (hd : Returns U m q s (some d)) : ∃ d', Returns U m q' s (some d') := by
  obtain ⟨d₁, h1, h2⟩ := decision h hq.ok s
  obtain ⟨d₂, h3, h4⟩ := decision h hq'.ok s
  obtain ⟨_, e1⟩ := hd
  obtain ⟨_, e2⟩ := h1
  rw [e1] at e2
  cases e2
  have hm := h2.mp rfl
  rw [hq.eq] at hm
  have : QueryMatches U st q' s := by
    rw [hq'.eq]
    rcases hm with hm | hm
    · left
      have hm : t = [] := hm
      subst hm
      exact List.sublist_nil.mp hsub
    · right
      have hm : Subseq (Cmp U st t) t s := hm
      show Subseq (Cmp U st t') t' s
      refine Subseq.sublist hsub (Subseq.imp ?_ hm)
      intro x c hx
      unfold Cmp at hx ⊢
      cases hs : sensitive U st.caseSensitivity t with
      | true => rw [hs] at hx; exact CharMatches.insensitive _ hx
      | false =>
        have : sensitive U st.caseSensitivity t' = false := by
          unfold sensitive at hs ⊢
          cases hcs : st.caseSensitivity with
          | sensitive => rw [hcs] at hs; cases hs
          | insensitive => rfl
          | smart =>
            rw [hcs] at hs
            simp only [List.any_eq_false] at hs ⊢
            exact fun x hx => hs x (hsub.subset hx)
        rw [this]; rw [hs] at hx; exact hx
  obtain ⟨d', rfl⟩ := Option.isSome_iff_exists.mp (h4.mpr this)
  exact ⟨d', h3⟩

example : ∃ d', Returns Concrete.U (Concrete.metric .v1)
    (.extended [[mkPattern Concrete.U false .exact "a".toList]]) "ba".toList (some d') :=
  C44_conditions (d := ⟨32⟩) (cs' := [[mkPattern Concrete.U false .exact "a".toList], [mkPattern Concrete.U true .exact "c".toList],
      [mkPattern Concrete.U false .fuzzy "a".toList]]) (Concrete.reachable ..)
    (queryOk_single (mkPattern_ok _ _ _ (by decide)))
    (Concrete.queryOk (by decide +kernel)) (by simp) _ (Concrete.returns (by decide +kernel))
example : ∃ d', Returns Concrete.U (Concrete.metric .v1)
    (.extended [[mkPattern Concrete.U false .exact "z".toList, mkPattern Concrete.U false .exact "a".toList]])
    "ba".toList (some d') :=
  C44_alternatives (d := ⟨16⟩) (cs := [[mkPattern Concrete.U false .exact "a".toList]]) (Concrete.reachable ..)
    (queryOk_single (mkPattern_ok _ _ _ (by decide)))
    (Concrete.queryOk (by decide +kernel)) (.cons (by simp) .nil) _ (Concrete.returns (by decide +kernel))
example : ∃ d', Returns Concrete.U (Concrete.metric .v1) (rawQuery Concrete.U "ac".toList) "aBc".toList (some d') :=
  C44_deletion (d := ⟨88⟩) (t := "aBc".toList) (Concrete.reachable ..) (Concrete.parsedRaw "aBc" (by decide))
    (Concrete.parsedRaw "ac" (by decide)) (by decide) _ (Concrete.returns (by decide +kernel))

/-- **C45.** Kinds of patterns are nested: equality ⊆ prefix, suffix ⊆ exact ⊆ fuzzy. -/
theorem C45_nested (h : Reachable U a m st) (ht : t ≠ []) (s : List Char) :
    ∃ de dp ds dx df,
      Returns U m (single (mkPattern U false .equalExact t)) s de ∧
      Returns U m (single (mkPattern U false .prefixExact t)) s dp ∧
      Returns U m (single (mkPattern U false .suffixExact t)) s ds ∧
      Returns U m (single (mkPattern U false .exact t)) s dx ∧
      Returns U m (rawQuery U t) s df ∧
      (de.isSome = true → dp.isSome = true ∧ ds.isSome = true) ∧ (dp.isSome = true → dx.isSome = true) ∧
      (ds.isSome = true → dx.isSome = true) ∧ (dx.isSome = true → df.isSome = true) := by
  have ok := fun k => queryOk_single (mkPattern_ok U false k ht)
  obtain ⟨de, he, he'⟩ := decision h (ok .equalExact) s
  obtain ⟨dp, hp, hp'⟩ := decision h (ok .prefixExact) s
  obtain ⟨ds, hs, hs'⟩ := decision h (ok .suffixExact) s
  obtain ⟨dx, hx, hx'⟩ := decision h (ok .exact) s
  obtain ⟨df, hf, hf'⟩ := decision h (queryOk_raw t) s
  rw [queryMatches_single] at he' hp' hs' hx'
  refine ⟨de, dp, ds, dx, df, he, hp, hs, hx, hf, ?_, ?_, ?_, ?_⟩
  · rw [he', hp', hs']; exact fun h => ⟨EqualMatch.toPrefix h, EqualMatch.toSuffix h⟩
  · rw [hp', hx']; exact PrefixMatch.toSubstring
  · rw [hs', hx']; exact SuffixMatch.toSubstring
  · rw [hx', hf']; exact fun h => Or.inr (Substring.toSubseq h)

example : Returns Concrete.U (Concrete.metric .v1) (single (mkPattern Concrete.U false .equalExact "ab".toList))
    "ab ".toList (some ⟨62⟩) := Concrete.returns (by decide +kernel)
example : Returns Concrete.U (Concrete.metric .v1) (single (mkPattern Concrete.U false .equalExact "ab".toList))
    "abc".toList none := Concrete.returns (by decide +kernel)

end Norm.Props
