import Verif.Proofs.Schemes
import Verif.Props.Concrete

/-!
# The schemes Default and History

Property C89: the scheme History, which "doesn't assign any additional bonus points", never scores a candidate higher than the scheme
Default. -/

namespace Norm.Props

open Spec

variable {U : Unicode} {a : Algo} {m m' : Metric} {st : Settings} {q : FzfQuery} {s : List Char} {p : Pattern}
  {buf b b' : List Range} {d d' : Option FzfDistance} {x y : FzfDistance}

/-- **C89, full statement.** The scheme History scores no candidate higher than the scheme Default. -/
def C89 : Prop :=
  ∀ (U : Unicode) (a : Algo) (m m' : Metric) (st : Settings) (q : FzfQuery) (s : List Char) (x y : FzfDistance),
    Reachable U a m { st with scheme := .history } → Reachable U a m' { st with scheme := .default } → QueryOk U q →
    Returns U m q s (some x) → Returns U m' q s (some y) → x.score ≤ y.score

/-- **C89 is false.** FzfV2 scores `abb` in `ab_abb_` 80 with the scheme History and 74 with the scheme Default: the larger bonus of the first
`ab` makes it give up the run of the second. -/
theorem C89_false : ¬ C89 := by
  intro h
  have := h Concrete.U .v2 (Concrete.metric .v2 .smart false .history) (Concrete.metric .v2) defaultSettings
    (Concrete.parse "abb") "ab_abb_".toList ⟨80⟩ ⟨74⟩ (Concrete.reachable ..) (Concrete.reachable ..) (Concrete.parsed _).ok
    (Concrete.returns (by decide +kernel)) (Concrete.returns (by decide +kernel))
  exact absurd this (by decide)

/-- **C89**, the decision: both schemes accept the same candidates. -/
theorem C89_decision {S S' : FzfScheme} (h : Reachable U a m { st with scheme := S }) (h' : Reachable U a m' { st with scheme := S' })
    (hq : QueryOk U q) (hd : Returns U m q s d) (hd' : Returns U m' q s d') : d.isSome = d'.isSome := by
  obtain ⟨e, h1, h2⟩ := decision h hq s
  obtain ⟨e', h3, h4⟩ := decision h' hq s
  obtain ⟨_, hd⟩ := hd
  obtain ⟨_, hd'⟩ := hd'
  obtain ⟨_, h1⟩ := h1
  obtain ⟨_, h3⟩ := h3
  rw [hd] at h1
  rw [hd'] at h3
  cases h1
  cases h3
  exact Bool.eq_iff_iff.mpr (h2.trans h4.symm)

private theorem scores {x y : Option Int} (h : (x = none ∧ y = none) ∨ ∃ u v, x = some u ∧ y = some v ∧ u ≤ v) {e e' : FzfDistance}
    (hx : some e = x.map FzfDistance.fromScore) (hy : some e' = y.map FzfDistance.fromScore) : e.score ≤ e'.score := by
  rcases h with ⟨rfl, rfl⟩ | ⟨u, v, rfl, rfl, huv⟩
  · cases hx
  · cases hx
    cases hy
    exact huv

/-- A non-extended query gives what its pattern gives as an extended query. -/
private theorem raw (hq : QueryOk U (.notExtended p)) (hp : p.text ≠ []) :
    PatternOk U { p with isInverse := false } ∧
      result U a st s (.notExtended p) = condsHit U (pureOf a) st s [[{ p with isInverse := false }]] := by
  have hq : p = mkPattern U p.isInverse .fuzzy p.text := hq
  have hk : p.matchType = .fuzzy := by rw [hq]; rfl
  refine ⟨⟨hp, by
    have h := congrArg (fun x : Pattern => { x with isInverse := false }) hq
    simp only [hk] at h ⊢
    exact h⟩, ?_⟩
  rw [← result_extended, result_fuzzy (.inl rfl) hp,
    result_fuzzy (q := .extended [[{ p with isInverse := false }]]) (.inr ⟨rfl, hk, rfl⟩) hp]
  rfl

/-- **C89** for FzfV1, and for FzfV2 if the query has no fuzzy pattern of three or more characters. What is missing: the longer fuzzy patterns
in FzfV2, for which it is false. -/
theorem C89_score_partial (h : Reachable U a m { st with scheme := .history }) (h' : Reachable U a m' { st with scheme := .default })
    (hq : QueryOk U q)
    (ha : a = .v1 ∨ (∀ p, q = .notExtended p → p.text.length ≤ 2) ∧
      ∀ cs, q = .extended cs → ∀ c ∈ cs, ∀ p ∈ c, p.matchType = .fuzzy → p.text.length ≤ 2)
    (hx : Returns U m q s (some x)) (hy : Returns U m' q s (some y)) : x.score ≤ y.score := by
  refine scores ?_ ((returns_iff h hq).mp hx) ((returns_iff h' hq).mp hy)
  cases q with
  | extended cs =>
    rw [result_extended, result_extended]
    refine condsHit_below fun c hc p hp => patHit_below ((hq c hc).2 p hp) ?_
    rcases ha with ha | ha
    · exact .inl ha
    · by_cases hk : p.matchType = .fuzzy
      · exact .inr (.inr (ha.2 cs rfl c hc p hp hk))
      · exact .inr (.inl hk)
  | notExtended p =>
    by_cases hp : p.text = []
    · exact .inr ⟨0, 0, by simp [result, queryHit, FzfQuery.isEmpty, Pattern.isEmpty, hp],
        by simp [result, queryHit, FzfQuery.isEmpty, Pattern.isEmpty, hp], Int.le_refl _⟩
    rw [(raw hq hp).2, (raw hq hp).2]
    refine condsHit_below fun c hc p' hp' => ?_
    obtain rfl := List.mem_singleton.mp hc
    obtain rfl := List.mem_singleton.mp hp'
    exact patHit_below (raw (st := st) (s := s) (a := a) hq hp).1 (ha.imp id fun h => .inr (h.1 p rfl))

/-- Two characters in FzfV2, and in FzfV1 the query of `C89_false`. -/
example :
    Returns Concrete.U (Concrete.metric .v2 .smart false .history) (Concrete.parse "ab | x 'bb") "ab_abb_".toList (some ⟨92⟩) ∧
    Returns Concrete.U (Concrete.metric .v2) (Concrete.parse "ab | x 'bb") "ab_abb_".toList (some ⟨98⟩) ∧
    Returns Concrete.U (Concrete.metric .v1 .smart false .history) (Concrete.parse "abb") "ab_abb_".toList (some ⟨68⟩) ∧
    Returns Concrete.U (Concrete.metric .v1) (Concrete.parse "abb") "ab_abb_".toList (some ⟨74⟩) :=
  ⟨Concrete.returns (by decide +kernel), Concrete.returns (by decide +kernel), Concrete.returns (by decide +kernel),
    Concrete.returns (by decide +kernel)⟩

/-- **C89**, the highlights: for FzfV1, and for FzfV2 if the query has no fuzzy patterns, both schemes highlight the same bytes. -/
theorem C89_ranges_partial (h : Reachable U a m { st with scheme := .history }) (h' : Reachable U a m' { st with scheme := .default })
    (hq : QueryOk U q)
    (ha : a = .v1 ∨ ∃ cs, q = .extended cs ∧ ∀ c ∈ cs, ∀ p ∈ c, p.matchType ≠ .fuzzy)
    (hd : ReturnsRanges U m q s buf b d) (hd' : ReturnsRanges U m' q s buf b' d') : b = b' := by
  obtain ⟨rfl, -⟩ := (returnsRanges_iff h hq).mp hd
  obtain ⟨rfl, -⟩ := (returnsRanges_iff h' hq).mp hd'
  congr 2
  cases q with
  | extended cs =>
    rw [result_extended, result_extended]
    refine (condsHit_history (ha.imp id ?_) fun c hc => (hq c hc).2).1
    rintro ⟨cs', he, h⟩
    cases he
    exact h
  | notExtended p =>
    by_cases hp : p.text = []
    · simp [result, queryHit, FzfQuery.isEmpty, Pattern.isEmpty, hp]
    rw [(raw hq hp).2, (raw hq hp).2]
    refine (condsHit_history (ha.imp id ?_) fun c hc p' hp' => ?_).1
    · rintro ⟨_, he, _⟩
      cases he
    · obtain rfl := List.mem_singleton.mp hc
      obtain rfl := List.mem_singleton.mp hp'
      exact (raw (st := st) (s := s) (a := a) hq hp).1

/-- FzfV1 highlights the same, FzfV2 does not. -/
example :
    ReturnsRanges Concrete.U (Concrete.metric .v1 .smart false .history) (Concrete.parse "abb") "ab_abb_".toList []
      [⟨0, 2⟩, ⟨4, 5⟩] (some ⟨68⟩) ∧
    ReturnsRanges Concrete.U (Concrete.metric .v1) (Concrete.parse "abb") "ab_abb_".toList [] [⟨0, 2⟩, ⟨4, 5⟩] (some ⟨74⟩) ∧
    ReturnsRanges Concrete.U (Concrete.metric .v2 .smart false .history) (Concrete.parse "abb") "ab_abb_".toList [] [⟨3, 6⟩]
      (some ⟨80⟩) ∧
    ReturnsRanges Concrete.U (Concrete.metric .v2) (Concrete.parse "abb") "ab_abb_".toList [] [⟨0, 2⟩, ⟨4, 5⟩] (some ⟨74⟩) :=
  ⟨Concrete.returnsRanges (by decide +kernel), Concrete.returnsRanges (by decide +kernel),
    Concrete.returnsRanges (by decide +kernel), Concrete.returnsRanges (by decide +kernel)⟩

/-- **C89** for fuzzy queries of two or more characters in FzfV2: the scheme History scores a candidate at most 7 higher than the scheme
Default for every character but the first two. -/
theorem C89_margin_partial (h : Reachable U .v2 m { st with scheme := .history })
    (h' : Reachable U .v2 m' { st with scheme := .default }) (hf : FuzzyFor q p) (hq : QueryOk U q) (hp : 2 ≤ p.text.length)
    (hx : Returns U m q s (some x)) (hy : Returns U m' q s (some y)) : x.score ≤ y.score + 7 * ((p.text.length : Int) - 2) := by
  have hne : p.text ≠ [] := by intro h; simp [h] at hp
  obtain ⟨u, hu, rfl⟩ := fuzzy_returns h hf hq hne hx
  obtain ⟨v, hv, rfl⟩ := fuzzy_returns h' hf hq hne hy
  have := v2Result_above (e := 0) (K := 8) (posBonus_nonneg U .history s) (posBonus_nonneg U .default s)
    (fun c => by have := (posBonus_history (U := U) (s := s) c).1; omega) (by omega)
    (posBonus_le_top U .history s) (by omega) (by omega) hp hu hv
  show u.2 ≤ v.2 + _
  omega

/-- The margin is the least for 3, 4 and 5 characters. -/
example :
    Returns Concrete.U (Concrete.metric .v2 .smart false .history) (Concrete.parse "bac") "b abbBdd_Acc".toList (some ⟨66 + 7⟩) ∧
    Returns Concrete.U (Concrete.metric .v2) (Concrete.parse "bac") "b abbBdd_Acc".toList (some ⟨66⟩) ∧
    Returns Concrete.U (Concrete.metric .v2 .smart false .history) (Concrete.parse "ccbd") "aca cBcacc_Cbd".toList
      (some ⟨71 + 7 * 2⟩) ∧
    Returns Concrete.U (Concrete.metric .v2) (Concrete.parse "ccbd") "aca cBcacc_Cbd".toList (some ⟨71⟩) ∧
    Returns Concrete.U (Concrete.metric .v2 .smart false .history) (Concrete.parse "babbd")
      "cAd C ,Aa bBC_BacaBa aabcB,1bb_ABBd".toList (some ⟨88 + 7 * 3⟩) ∧
    Returns Concrete.U (Concrete.metric .v2) (Concrete.parse "babbd") "cAd C ,Aa bBC_BacaBa aabcB,1bb_ABBd".toList (some ⟨88⟩) :=
  ⟨Concrete.returns (by decide +kernel), Concrete.returns (by decide +kernel), Concrete.returns (by decide +kernel),
    Concrete.returns (by decide +kernel), Concrete.returns (by decide +kernel), Concrete.returns (by decide +kernel)⟩

/-- **C89**, how many points the scheme Default adds: to one pattern in FzfV1, or one that is not fuzzy, at most 2 for every character and 2
more. -/
theorem C89_added (h : Reachable U a m { st with scheme := .history }) (h' : Reachable U a m' { st with scheme := .default })
    (hq : PatternOk U p) (ha : a = .v1 ∨ p.matchType ≠ .fuzzy)
    (hx : Returns U m (single p) s (some x)) (hy : Returns U m' (single p) s (some y)) :
    x.score ≤ y.score ∧ y.score ≤ x.score + 2 * ((p.text.length : Int) + 1) := by
  have hx := (returns_iff h (queryOk_single hq)).mp hx
  have hy := (returns_iff h' (queryOk_single hq)).mp hy
  rw [result_single] at hx hy
  rcases patHit_history (st := st) (s := s) ha hq with ⟨h1, h2⟩ | ⟨u, v, h1, h2, h3⟩
  · unfold Settings.under at h1
    rw [h1] at hx
    cases hx
  · unfold Settings.under at h1 h2
    rw [h1] at hx
    rw [h2] at hy
    cases hx
    cases hy
    exact ⟨h3.2.1, h3.2.2⟩

/-- The margin is the least: a word at the start of the candidate, and after a space. -/
example :
    Returns Concrete.U (Concrete.metric .v1 .smart false .history) (Concrete.parse "^ab") "ab".toList (some ⟨56⟩) ∧
    Returns Concrete.U (Concrete.metric .v1) (Concrete.parse "^ab") "ab".toList (some ⟨56 + 2 * (2 + 1)⟩) ∧
    Returns Concrete.U (Concrete.metric .v2 .smart false .history) (Concrete.parse "'abc") "x abc".toList (some ⟨80⟩) ∧
    Returns Concrete.U (Concrete.metric .v2) (Concrete.parse "'abc") "x abc".toList (some ⟨80 + 2 * (3 + 1)⟩) :=
  ⟨Concrete.returns (by decide +kernel), Concrete.returns (by decide +kernel), Concrete.returns (by decide +kernel),
    Concrete.returns (by decide +kernel)⟩

/-- **C89**, how many points the scheme Default adds in FzfV2 to a fuzzy query of two or more characters: at most 6, and 9 for every
character but the first two. -/
theorem C89_added_v2 (h : Reachable U .v2 m { st with scheme := .history })
    (h' : Reachable U .v2 m' { st with scheme := .default }) (hf : FuzzyFor q p) (hq : QueryOk U q) (hp : 2 ≤ p.text.length)
    (hx : Returns U m q s (some x)) (hy : Returns U m' q s (some y)) : y.score ≤ x.score + 6 + 9 * ((p.text.length : Int) - 2) := by
  have hne : p.text ≠ [] := by intro h; simp [h] at hp
  obtain ⟨u, hu, rfl⟩ := fuzzy_returns h hf hq hne hx
  obtain ⟨v, hv, rfl⟩ := fuzzy_returns h' hf hq hne hy
  have := v2Result_above (e := 2) (K := 10) (posBonus_nonneg U .default s) (posBonus_nonneg U .history s)
    (fun c => (posBonus_history (U := U) (s := s) c).2.1) (by omega) (posBonus_le U .default s) (by omega) (by omega) hp hv hu
  show v.2 ≤ u.2 + 6 + _
  omega

/-- The margin is the least for two characters, and a plain run does not reach it for more: giving up a run does. -/
example :
    Returns Concrete.U (Concrete.metric .v2 .smart false .history) (Concrete.parse "ab") "ab_abb_".toList (some ⟨56⟩) ∧
    Returns Concrete.U (Concrete.metric .v2) (Concrete.parse "ab") "ab_abb_".toList (some ⟨56 + 6⟩) ∧
    Returns Concrete.U (Concrete.metric .v2 .smart false .history) (Concrete.parse "abcad") "_AdbacaCcc, BCAddb, bab_b".toList
      (some ⟨84⟩) ∧
    Returns Concrete.U (Concrete.metric .v2) (Concrete.parse "abcad") "_AdbacaCcc, BCAddb, bab_b".toList (some ⟨84 + 29⟩) :=
  ⟨Concrete.returns (by decide +kernel), Concrete.returns (by decide +kernel), Concrete.returns (by decide +kernel),
    Concrete.returns (by decide +kernel)⟩

end Norm.Props
