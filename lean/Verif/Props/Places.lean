import Verif.Proofs.Places
import Verif.Props.Concrete

/-!
# What a fuzzy match depends on, and slashes and spaces

Property C90: a fuzzy match depends only on where the query's characters match and on the bonuses there.

Property C91: for queries without slashes and spaces, the scheme Default prefers a space to a slash, the scheme Path prefers the slash, and
to the scheme History they are the same; the example in the documentation of `set_scoring_scheme`. -/

namespace Norm.Props

open Spec

variable {U : Unicode} {a : Algo} {m : Metric} {st : Settings} {q : FzfQuery} {s s' : List Char} {p : Pattern}
  {buf b b' : List Range} {d d' : Option FzfDistance} {x y : FzfDistance}

/-- The empty query gives all candidates the same. -/
private theorem empty (hf : FuzzyFor q p) (hq : QueryOk U q) (hp : p.text = []) : result U a st s q = result U a st s' q := by
  rcases hf with rfl | ⟨rfl, _, _⟩
  · simp [result, queryHit, FzfQuery.isEmpty, Pattern.isEmpty, hp]
  · exact absurd hp ((hq [p] (by simp)).2 p (by simp)).1

/-- The search of two candidates with the same matching positions and the same bonuses there. -/
private theorem search (hf : FuzzyFor q p) (hq : QueryOk U q) (hp : p.text ≠ []) (h1 : SamePlaces (Cmp U st p.text) p.text s s')
    (h2 : ∀ i, Place (Cmp U st p.text) p.text s i → posBonus U st.scheme s i = posBonus U st.scheme s' i) :
    pureOf a (posBonus U st.scheme s) (st.eqOf p) p.text s = pureOf a (posBonus U st.scheme s') (st.eqOf p) p.text s' := by
  rw [← fuzzyFor_rel hf hq] at h1 h2
  rw [pureOf_bonuses (posBonus_nonneg _ _ _) (posBonus_nonneg U st.scheme s') hp fun i hi => (h2 i hi).symm]
  exact pureOf_places (posBonus_nonneg _ _ _) hp h1

/-- **C90.** A fuzzy query gives two candidates the same distance if its characters match at the same positions of both, with the same
positional bonuses: no other characters of a candidate matter, nor how many there are. -/
theorem C90_distance (h : Reachable U a m st) (hf : FuzzyFor q p) (hq : QueryOk U q) (h1 : SamePlaces (Cmp U st p.text) p.text s s')
    (h2 : ∀ i, Place (Cmp U st p.text) p.text s i → posBonus U st.scheme s i = posBonus U st.scheme s' i) :
    Returns U m q s d ↔ Returns U m q s' d := by
  rw [returns_iff h hq, returns_iff h hq]
  by_cases hp : p.text = []
  · rw [empty (s := s) (s' := s') hf hq hp]
  rw [result_fuzzy hf hp, result_fuzzy hf hp, search hf hq hp h1 h2]
  cases pureOf a (posBonus U st.scheme s') (st.eqOf p) p.text s' <;> rfl

/-- **C90**, the highlights: if the characters at each position also have the same bytes, the same bytes are highlighted. -/
theorem C90_ranges (h : Reachable U a m st) (hf : FuzzyFor q p) (hq : QueryOk U q) (h1 : SamePlaces (Cmp U st p.text) p.text s s')
    (h2 : ∀ i, Place (Cmp U st p.text) p.text s i → posBonus U st.scheme s i = posBonus U st.scheme s' i)
    (h3 : ∀ i < s.length, charRange s i = charRange s' i) :
    ReturnsRanges U m q s buf b d ↔ ReturnsRanges U m q s' buf b d := by
  rw [returnsRanges_iff h hq, returnsRanges_iff h hq]
  by_cases hp : p.text = []
  · rw [empty (s := s) (s' := s') hf hq hp]
  rw [result_fuzzy hf hp, result_fuzzy hf hp, ← search hf hq hp h1 h2]
  cases hx : pureOf a (posBonus U st.scheme s) (st.eqOf p) p.text s with
  | none => rfl
  | some x =>
    have : x.1.map (charRange s) = x.1.map (charRange s') := List.map_congr_left fun i hi => h3 i (pos_lt a hp hx i hi)
    simp only [this]

/-- The pattern of a fuzzy word. -/
private abbrev word (t : String) : Pattern := mkPattern Concrete.U false .fuzzy t.toList

private theorem word_ok (t : String) (h : Concrete.parse t = .notExtended (word t)) : FuzzyFor (Concrete.parse t) (word t) := .inl h

/-- `f-xb o` and `f+zb oyyy` have their `f`, `b` and `o` at the same places, with the same bonuses. -/
example (d : Option FzfDistance) : Returns Concrete.U (Concrete.metric .v2) (Concrete.parse "fbo") "f-xb o".toList d ↔
    Returns Concrete.U (Concrete.metric .v2) (Concrete.parse "fbo") "f+zb oyyy".toList d := by
  have hf : FuzzyFor (Concrete.parse "fbo") (word "fbo") := word_ok _ (by decide +kernel)
  refine C90_distance (Concrete.reachable ..) hf (Concrete.parsed _).ok ?_ ?_
  · rw [← fuzzyFor_rel hf (Concrete.parsed _).ok]
    exact samePlaces_of (by decide +kernel)
  · rw [← fuzzyFor_rel hf (Concrete.parsed _).ok]
    exact places_of (by decide +kernel)

/-! ### Slashes and spaces -/

/-- **C91, full statement.** Of two candidates that differ in slashes that are spaces in the other, for a query without slashes and spaces,
the scheme Default scores the one with the spaces no lower, the scheme Path the one with the slashes, and the scheme History scores both the
same. -/
def C91 : Prop :=
  ∀ (U : Unicode) (a : Algo) (m : Metric) (st : Settings) (q : FzfQuery) (p : Pattern) (s s' : List Char) (x y : FzfDistance),
    Reachable U a m st → FuzzyFor q p → QueryOk U q → '/' ∉ p.text → ' ' ∉ p.text → Opened s s' →
    Returns U m q s (some x) → Returns U m q s' (some y) →
    (st.scheme = .default → x.score ≤ y.score) ∧ (st.scheme = .path → y.score ≤ x.score) ∧ (st.scheme = .history → x = y)

/-- **C91 is false.** With the scheme Default, FzfV2 scores `abb` in `/ab_abb_` 80 and in ` ab_abb_` 74: the larger bonus of the first `ab`
makes it give up the run of the second. -/
theorem C91_false : ¬ C91 := by
  intro h
  have := (h Concrete.U .v2 (Concrete.metric .v2) defaultSettings (Concrete.parse "abb") (word "abb") "/ab_abb_".toList " ab_abb_".toList
    ⟨80⟩ ⟨74⟩ (Concrete.reachable ..) (word_ok _ (by decide +kernel)) (Concrete.parsed _).ok (by decide) (by decide)
    (by simp [Opened]) (Concrete.returns (by decide +kernel)) (Concrete.returns (by decide +kernel))).1 rfl
  exact absurd this (by decide)

/-- **C91** is false with the scheme Path too: FzfV2 scores `bcba` in `b  /c  cAcdBbb_ /d/CBa ` 84, and 68 if its spaces are slashes. -/
theorem C91_false_path : ∃ s s' x y, Opened s s' ∧ Returns Concrete.U (Concrete.metric .v2 .smart false .path) (Concrete.parse "bcba") s (some x) ∧
    Returns Concrete.U (Concrete.metric .v2 .smart false .path) (Concrete.parse "bcba") s' (some y) ∧ x.score < y.score :=
  ⟨"b///c//cAcdBbb_//d/CBa/".toList, "b  /c  cAcdBbb_ /d/CBa ".toList, ⟨68⟩, ⟨84⟩, by simp [Opened],
    Concrete.returns (by decide +kernel), Concrete.returns (by decide +kernel), by decide⟩

/-- **C91**, the decision: a slash that becomes a space changes no decision. -/
theorem C91_decision (h : Reachable U a m st) (hf : FuzzyFor q p) (hq : QueryOk U q) (h1 : '/' ∉ p.text) (h2 : ' ' ∉ p.text)
    (hs : Opened s s') (hd : Returns U m q s d) (hd' : Returns U m q s' d') : d.isSome = d'.isSome := by
  rw [(returns_iff h hq).mp hd, (returns_iff h hq).mp hd']
  by_cases hp : p.text = []
  · rw [empty (s := s) (s' := s') hf hq hp]
  have key := fun t => accepts a (posBonus U st.scheme t) (st.eqOf p) p.text t (posBonus_nonneg _ _ _) hp
  have hsub : Subseq (rel (st.eqOf p)) p.text s ↔ Subseq (rel (st.eqOf p)) p.text s' := by
    rw [fuzzyFor_rel hf hq, subseq_iff, subseq_iff]
    have hS : SamePlaces (Cmp U st p.text) p.text s s' := hs.places h1 h2
    exact ⟨fun ⟨ps, h⟩ => ⟨ps, alignment_places hS h⟩, fun ⟨ps, h⟩ => ⟨ps, alignment_places hS.symm h⟩⟩
  have hsame := Bool.eq_iff_iff.mpr ((key s).trans (hsub.trans (key s').symm))
  rw [result_fuzzy hf hp, result_fuzzy hf hp]
  revert hsame
  cases pureOf a (posBonus U st.scheme s) (st.eqOf p) p.text s <;>
    cases pureOf a (posBonus U st.scheme s') (st.eqOf p) p.text s' <;> simp

/-- **C91** with the scheme History: the same distance. -/
theorem C91_history (h : Reachable U a m st) (hS : st.scheme = .history) (hf : FuzzyFor q p) (hq : QueryOk U q) (h1 : '/' ∉ p.text)
    (h2 : ' ' ∉ p.text) (hs : Opened s s') : Returns U m q s d ↔ Returns U m q s' d :=
  C90_distance h hf hq (hs.places h1 h2) fun _ ⟨_, hc, _, hx, hR⟩ =>
    (posBonus_opened hs hx (hs.same h1 h2 hc (.inl hx) hR).2).2.2 hS

private theorem charRange_opened (hs : Opened s s') (i : Nat) : charRange s i = charRange s' i := by
  unfold charRange byteRange
  rw [hs.byteLen, hs.byteLen]

/-- **C91** with the scheme History, the highlights: the same bytes. -/
theorem C91_history_ranges (h : Reachable U a m st) (hS : st.scheme = .history) (hf : FuzzyFor q p) (hq : QueryOk U q) (h1 : '/' ∉ p.text)
    (h2 : ' ' ∉ p.text) (hs : Opened s s') : ReturnsRanges U m q s buf b d ↔ ReturnsRanges U m q s' buf b d :=
  C90_ranges h hf hq (hs.places h1 h2) (fun _ ⟨_, hc, _, hx, hR⟩ =>
    (posBonus_opened hs hx (hs.same h1 h2 hc (.inl hx) hR).2).2.2 hS) fun i _ => charRange_opened hs i

/-- The searches of both candidates. -/
private theorem searches (hf : FuzzyFor q p) (hq : QueryOk U q) (hp : p.text ≠ []) (h1 : '/' ∉ p.text)
    (h2 : ' ' ∉ p.text) (hs : Opened s s') {u v : List Nat × Int}
    (hu : pureOf a (posBonus U st.scheme s) (st.eqOf p) p.text s = some u)
    (hv : pureOf a (posBonus U st.scheme s') (st.eqOf p) p.text s' = some v) :
    (a = .v1 → u.1 = v.1) ∧
    (st.scheme = .default →
      (a = .v1 ∨ p.text.length ≤ 2 → u.2 ≤ v.2) ∧ u.2 ≤ v.2 + 9 * ((p.text.length - 2 : Nat) : Int)) ∧
    (st.scheme = .path →
      (a = .v1 ∨ p.text.length ≤ 2 → v.2 ≤ u.2) ∧ v.2 ≤ u.2 + 8 * ((p.text.length - 2 : Nat) : Int)) := by
  have hS : SamePlaces (Cmp U st p.text) p.text s s' := hs.places h1 h2
  have hb : ∀ i, Place (Cmp U st p.text) p.text s i → _ := fun i ⟨_, hc, _, hx, hR⟩ =>
    posBonus_opened (U := U) (S := st.scheme) hs hx (hs.same h1 h2 hc (.inl hx) hR).2
  rw [← fuzzyFor_rel hf hq] at hS hb
  rw [← pureOf_places (posBonus_nonneg _ _ _) hp hS] at hv
  have up := fun hle => pureOf_above (K := topBonus st.scheme) (posBonus_nonneg U st.scheme s) (posBonus_nonneg U st.scheme s') hp hle
    (posBonus_le_top U st.scheme s) (by have := eight_le_top st.scheme; omega) hu hv
  have down := fun hle => pureOf_above (K := topBonus st.scheme) (posBonus_nonneg U st.scheme s') (posBonus_nonneg U st.scheme s) hp hle
    (posBonus_le_top U st.scheme s') (by have := eight_le_top st.scheme; omega) hv hu
  cases hS : st.scheme with
  | default =>
    obtain ⟨h3, h4, h5⟩ := up fun i hi => (hb i hi).1 hS
    rw [hS] at h5
    exact ⟨h3, fun _ => ⟨h4, h5⟩, fun h => by cases h⟩
  | path =>
    obtain ⟨h3, h4, h5⟩ := down fun i hi => (hb i hi).2.1 hS
    rw [hS] at h5
    exact ⟨fun h => (h3 h).symm, fun h => (by cases h), fun _ => ⟨h4, h5⟩⟩
  | history =>
    obtain ⟨h3, -⟩ := up fun i hi => Int.le_of_eq ((hb i hi).2.2 hS)
    exact ⟨h3, fun h => (by cases h), fun h => by cases h⟩

/-- The scores of both candidates. -/
private theorem both (h : Reachable U a m st) (hf : FuzzyFor q p) (hq : QueryOk U q) (h1 : '/' ∉ p.text) (h2 : ' ' ∉ p.text)
    (hs : Opened s s') (hx : Returns U m q s (some x)) (hy : Returns U m q s' (some y)) :
    (st.scheme = .default →
      (a = .v1 ∨ p.text.length ≤ 2 → x.score ≤ y.score) ∧ x.score ≤ y.score + 9 * ((p.text.length - 2 : Nat) : Int)) ∧
    (st.scheme = .path →
      (a = .v1 ∨ p.text.length ≤ 2 → y.score ≤ x.score) ∧ y.score ≤ x.score + 8 * ((p.text.length - 2 : Nat) : Int)) := by
  by_cases hp : p.text = []
  · have hx := (returns_iff h hq).mp hx
    have hy := (returns_iff h hq).mp hy
    rw [empty (s := s) (s' := s') hf hq hp, ← hy] at hx
    cases hx
    rw [hp]
    exact ⟨fun _ => ⟨fun _ => Int.le_refl _, by simp⟩, fun _ => ⟨fun _ => Int.le_refl _, by simp⟩⟩
  obtain ⟨u, hu, rfl⟩ := fuzzy_returns h hf hq hp hx
  obtain ⟨v, hv, rfl⟩ := fuzzy_returns h hf hq hp hy
  exact (searches hf hq hp h1 h2 hs hu hv).2

/-- **C91** for FzfV1, and for FzfV2 if the query has at most two characters. What is missing: longer queries in FzfV2, for which it is
false. -/
theorem C91_partial (h : Reachable U a m st) (hf : FuzzyFor q p) (hq : QueryOk U q) (h1 : '/' ∉ p.text) (h2 : ' ' ∉ p.text)
    (hs : Opened s s') (ha : a = .v1 ∨ p.text.length ≤ 2) (hx : Returns U m q s (some x)) (hy : Returns U m q s' (some y)) :
    (st.scheme = .default → x.score ≤ y.score) ∧ (st.scheme = .path → y.score ≤ x.score) ∧ (st.scheme = .history → x = y) := by
  have hb := both h hf hq h1 h2 hs hx hy
  refine ⟨fun hS => (hb.1 hS).1 ha, fun hS => (hb.2 hS).1 ha, fun hS => ?_⟩
  have hx := (returns_iff h hq).mp ((C91_history h hS hf hq h1 h2 hs).mp hx)
  rw [← (returns_iff h hq).mp hy] at hx
  exact Option.some.inj hx

/-- The candidates in the documentation of `set_scoring_scheme`, with the three schemes. -/
example : Opened "f/o/o".toList "f o o".toList ∧
    Returns Concrete.U (Concrete.metric .v1) (Concrete.parse "foo") "f/o/o".toList (some ⟨80⟩) ∧
    Returns Concrete.U (Concrete.metric .v1) (Concrete.parse "foo") "f o o".toList (some ⟨82⟩) ∧
    Returns Concrete.U (Concrete.metric .v1 .smart false .path) (Concrete.parse "foo") "f/o/o".toList (some ⟨78⟩) ∧
    Returns Concrete.U (Concrete.metric .v1 .smart false .path) (Concrete.parse "foo") "f o o".toList (some ⟨76⟩) ∧
    Returns Concrete.U (Concrete.metric .v1 .smart false .history) (Concrete.parse "foo") "f/o/o".toList (some ⟨74⟩) ∧
    Returns Concrete.U (Concrete.metric .v1 .smart false .history) (Concrete.parse "foo") "f o o".toList (some ⟨74⟩) :=
  ⟨by simp [Opened], Concrete.returns (by decide +kernel), Concrete.returns (by decide +kernel), Concrete.returns (by decide +kernel),
    Concrete.returns (by decide +kernel), Concrete.returns (by decide +kernel), Concrete.returns (by decide +kernel)⟩

/-- **C91**, the highlights: FzfV1 highlights the same bytes in both, with every scheme. -/
theorem C91_ranges_partial (h : Reachable U .v1 m st) (hf : FuzzyFor q p) (hq : QueryOk U q) (h1 : '/' ∉ p.text) (h2 : ' ' ∉ p.text)
    (hs : Opened s s') (hd : ReturnsRanges U m q s buf b d) (hd' : ReturnsRanges U m q s' buf b' d') : b = b' := by
  obtain ⟨rfl, rfl⟩ := (returnsRanges_iff h hq).mp hd
  obtain ⟨rfl, rfl⟩ := (returnsRanges_iff h hq).mp hd'
  congr 2
  by_cases hp : p.text = []
  · rw [empty (s := s) (s' := s') hf hq hp]
  have hsame := C91_decision h hf hq h1 h2 hs ((returns_iff h hq).mpr rfl) ((returns_iff h hq).mpr rfl)
  rw [result_fuzzy hf hp, result_fuzzy hf hp] at hsame
  rw [result_fuzzy hf hp, result_fuzzy hf hp]
  cases hu : pureOf .v1 (posBonus U st.scheme s) (st.eqOf p) p.text s with
  | none =>
    cases hv : pureOf .v1 (posBonus U st.scheme s') (st.eqOf p) p.text s' with
    | none => rfl
    | some v => rw [hu, hv] at hsame; cases hsame
  | some u =>
    cases hv : pureOf .v1 (posBonus U st.scheme s') (st.eqOf p) p.text s' with
    | none => rw [hu, hv] at hsame; cases hsame
    | some v =>
      show u.1.map (charRange s) = v.1.map (charRange s')
      rw [(searches hf hq hp h1 h2 hs hu hv).1 rfl]
      exact List.map_congr_left fun i _ => charRange_opened hs i

/-- **C91** in FzfV2: the wrong candidate is at most 9 (Default) or 8 (Path) ahead for every character but the first two. -/
theorem C91_margin_partial (h : Reachable U a m st) (hf : FuzzyFor q p) (hq : QueryOk U q) (h1 : '/' ∉ p.text) (h2 : ' ' ∉ p.text)
    (hs : Opened s s') (hx : Returns U m q s (some x)) (hy : Returns U m q s' (some y)) :
    (st.scheme = .default → x.score ≤ y.score + 9 * ((p.text.length - 2 : Nat) : Int)) ∧
    (st.scheme = .path → y.score ≤ x.score + 8 * ((p.text.length - 2 : Nat) : Int)) := by
  have hb := both h hf hq h1 h2 hs hx hy
  exact ⟨fun hS => (hb.1 hS).2, fun hS => (hb.2 hS).2⟩

/-- The margins are the least for 3 and 4 characters. -/
example :
    Returns Concrete.U (Concrete.metric .v2) (Concrete.parse "bbc") "/b abAB Bcc".toList (some ⟨56 + 9⟩) ∧
    Returns Concrete.U (Concrete.metric .v2) (Concrete.parse "bbc") " b abAB Bcc".toList (some ⟨56⟩) ∧
    Returns Concrete.U (Concrete.metric .v2) (Concrete.parse "aacd") "/aBCc/_Ba dCCC acd1dBB A_d/".toList (some ⟨68 + 9 * 2⟩) ∧
    Returns Concrete.U (Concrete.metric .v2) (Concrete.parse "aacd") " aBCc _Ba dCCC acd1dBB A_d ".toList (some ⟨68⟩) ∧
    Returns Concrete.U (Concrete.metric .v2 .smart false .path) (Concrete.parse "cba") "_b//1/aB_c//_//c///a_//Bcb/B/_/BABc//".toList
      (some ⟨52⟩) ∧
    Returns Concrete.U (Concrete.metric .v2 .smart false .path) (Concrete.parse "cba") "_b /1/aB_c/ _  c// a_/ Bcb/B _/BABc  ".toList
      (some ⟨52 + 8⟩) ∧
    Returns Concrete.U (Concrete.metric .v2 .smart false .path) (Concrete.parse "bcba") "b///c//cAcdBbb_//d/CBa/".toList (some ⟨68⟩) ∧
    Returns Concrete.U (Concrete.metric .v2 .smart false .path) (Concrete.parse "bcba") "b  /c  cAcdBbb_ /d/CBa ".toList
      (some ⟨68 + 8 * 2⟩) :=
  ⟨Concrete.returns (by decide +kernel), Concrete.returns (by decide +kernel), Concrete.returns (by decide +kernel),
    Concrete.returns (by decide +kernel), Concrete.returns (by decide +kernel), Concrete.returns (by decide +kernel),
    Concrete.returns (by decide +kernel), Concrete.returns (by decide +kernel)⟩

end Norm.Props
