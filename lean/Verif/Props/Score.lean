import Verif.Proofs.Shortfall
import Verif.Proofs.ExactSeen
import Verif.Proofs.Bounds
import Verif.Props.Concrete

/-!
# Scores and distances

Properties C10, C23, C24, C40–C42, C46 and C48. -/

namespace Norm.Props

open Spec

variable {U : Unicode} {a : Algo} {m : Metric} {st : Settings} {q : FzfQuery} {p : Pattern} {s t : List Char}

/-! ### Extended queries -/

/-- **C10.** The score of an extended query is the sum of the scores of the first matching alternatives of its
conditions. -/
theorem C10_sum (h : Reachable U a m st) {cs : List Condition} (hq : QueryOk U (.extended cs))
    {ps : List Pattern} {ds : List FzfDistance} (hps : List.Forall₂ (FirstMatch U st s) cs ps)
    (hds : List.Forall₂ (fun p d => Returns U m (single p) s (some d)) ps ds) :
    Returns U m (.extended cs) s (some ⟨(ds.map (·.score)).sum⟩) := by
  have hok := fun c hc => (hq c hc).2
  rw [returns_iff h hq, result_extended, (condsHit_ranges hok hps).2]
  clear hq
  have key : (ps.map (fun p => ((patHit U (pureOf a) st s p).getD ([], 0)).2)) = ds.map (·.score) := by
    induction hps generalizing ds with
    | nil => cases hds; rfl
    | @cons c p cs ps hf _ ih =>
      cases hds with
      | @cons _ d _ ds hd hds =>
        have hp := hok c (by simp) p hf.mem
        have hd := (returns_iff h (queryOk_single hp)).mp hd
        rw [result_single_score] at hd
        cases hx : patHit U (pureOf a) st s p with
        | none => rw [hx] at hd; simp at hd
        | some x =>
          rw [hx] at hd
          obtain rfl := Option.some.inj hd
          simp only [List.map_cons, hx, Option.getD_some, FzfDistance.fromScore, List.cons.injEq, true_and]
          exact ih hds (fun c hc => hok c (by simp [hc]))
  rw [key]; rfl

/-- A query that matches has first matching alternatives, and each of them alone has a score. -/
theorem C10_exists (h : Reachable U a m st) {cs : List Condition} (hq : QueryOk U (.extended cs))
    (hm : QueryMatches U st (.extended cs) s) : ∃ ps ds, List.Forall₂ (FirstMatch U st s) cs ps ∧
      List.Forall₂ (fun p d => Returns U m (single p) s (some d)) ps ds := by
  induction cs with
  | nil => exact ⟨[], [], .nil, .nil⟩
  | cons c cs ih =>
    obtain ⟨ps, ds, h1, h2⟩ := ih (fun c hc => hq c (by simp [hc])) (fun c hc => hm c (by simp [hc]))
    obtain ⟨p, hp⟩ := exists_firstMatch (hm c (by simp))
    obtain ⟨d, hd, hs⟩ := decision h (queryOk_single ((hq c (by simp)).2 p hp.mem)) s
    have : d.isSome = true := hs.mpr (queryMatches_single.mpr (by obtain ⟨_, _, _, _, hm⟩ := hp; exact hm))
    obtain ⟨d, rfl⟩ := Option.isSome_iff_exists.mp this
    exact ⟨p :: ps, d :: ds, .cons hp h1, .cons hd h2⟩

/-- Two conditions; the first alternative of the first one does not match. -/
example : Concrete.parse "z | ab 'c" = .extended
      [[mkPattern Concrete.U false .fuzzy "z".toList, mkPattern Concrete.U false .fuzzy "ab".toList],
        [mkPattern Concrete.U false .exact "c".toList]] ∧
    Returns Concrete.U (Concrete.metric .v2) (Concrete.parse "z | ab 'c") "abc".toList (some ⟨78⟩) ∧
    Returns Concrete.U (Concrete.metric .v2) (single (mkPattern Concrete.U false .fuzzy "ab".toList)) "abc".toList
      (some ⟨62⟩) ∧
    Returns Concrete.U (Concrete.metric .v2) (single (mkPattern Concrete.U false .exact "c".toList)) "abc".toList
      (some ⟨16⟩) :=
  ⟨by decide +kernel, Concrete.returns (by decide +kernel), Concrete.returns (by decide +kernel),
    Concrete.returns (by decide +kernel)⟩

/-! ### FzfV2 -/

/-- **C23.** FzfV2 finds the best occurrence of a single character: the score is 16 plus twice the largest positional
bonus, and the highlighted occurrence is the leftmost one with this bonus. -/
theorem C23_v2_single (h : Reachable U .v2 m st) (hf : FuzzyFor q p) (hq : QueryOk U q) {c : Char} (hp : p.text = [c])
    {buf buf' : List Range} {d : FzfDistance} (hd : ReturnsRanges U m q s buf buf' (some d)) :
    ∃ i x, buf' = buf ++ [charRange s i] ∧ d = ⟨16 + 2 * posBonus U st.scheme s i⟩ ∧ s[i]? = some x ∧
      Cmp U st p.text c x ∧
      ∀ j y, s[j]? = some y → Cmp U st p.text c y →
        posBonus U st.scheme s j ≤ posBonus U st.scheme s i ∧
        (j < i → posBonus U st.scheme s j < posBonus U st.scheme s i) := by
  have hne : p.text ≠ [] := by simp [hp]
  obtain ⟨rfl, h2⟩ := (returnsRanges_iff h hq).mp hd
  rw [result_fuzzy hf hne] at h2 ⊢
  rw [← fuzzyFor_rel hf hq]
  cases hx : pureOf .v2 (posBonus U st.scheme s) (st.eqOf p) p.text s with
  | none => rw [hx] at h2; simp at h2
  | some x =>
    rw [hx] at h2
    have hx' : singleResult (posBonus U st.scheme s) (st.eqOf p) c s = some x := by
      have := hx
      simpa [pureOf, v2Result, hp] using this
    obtain ⟨i, y, rfl, h3, h4, h5⟩ := singleResult_some hx'
    exact ⟨i, y, by simp [pinsert], Option.some.inj h2, h3, h4, h5⟩

/-- The last of the three `a` is the best one, because it follows a space. -/
example : ReturnsRanges Concrete.U (Concrete.metric .v2) (Concrete.parse "a") "ba_a a".toList [] [⟨5, 6⟩] (some ⟨36⟩) ∧
    (List.range 6).map (posBonus Concrete.U .default "ba_a a".toList) = [10, 0, 8, 8, 10, 10] :=
  ⟨Concrete.returnsRanges (by decide +kernel), by decide +kernel⟩

/-- **C24, full statement.** -/
def C24 : Prop :=
  ∀ (U : Unicode) (m₁ m₂ : Metric) (st : Settings) (q : FzfQuery) (p : Pattern) (s : List Char) (d₁ d₂ : FzfDistance),
    Reachable U .v1 m₁ st → Reachable U .v2 m₂ st → FuzzyFor q p → QueryOk U q → p.text ≠ [] →
    Returns U m₁ q s (some d₁) → Returns U m₂ q s (some d₂) → d₁.score ≤ d₂.score

/-- **C24 is false.** For `abc` in `abbxc`, FzfV1 scores 74 and FzfV2 72. -/
theorem C24_false : ¬ C24 := by
  intro h
  have := h Concrete.U (Concrete.metric .v1) (Concrete.metric .v2) defaultSettings (Concrete.parse "abc")
    (mkPattern Concrete.U false .fuzzy "abc".toList) "abbxc".toList ⟨74⟩ ⟨72⟩ (Concrete.reachable ..)
    (Concrete.reachable ..) (.inl (by decide +kernel)) (Concrete.parsed _).ok (by decide)
    (Concrete.returns (by decide +kernel)) (Concrete.returns (by decide +kernel))
  exact absurd this (by decide)

/-- **C24** for queries of one or two characters. What is missing: longer queries, for some of which the statement is false
(`C24_false`); see `C24_tight_partial` and `C24_margin_partial`. -/
theorem C24_short_partial {m₁ m₂ : Metric} {d₁ d₂ : FzfDistance} (h₁ : Reachable U .v1 m₁ st) (h₂ : Reachable U .v2 m₂ st)
    (hf : FuzzyFor q p) (hq : QueryOk U q) (hne : p.text ≠ []) (hp : p.text.length ≤ 2) (hd₁ : Returns U m₁ q s (some d₁))
    (hd₂ : Returns U m₂ q s (some d₂)) : d₁.score ≤ d₂.score := by
  obtain ⟨x, hx, rfl⟩ := fuzzy_returns h₁ hf hq hne hd₁
  obtain ⟨y, hy, rfl⟩ := fuzzy_returns h₂ hf hq hne hd₂
  simp only [pureOf, v1Result, Option.map_eq_some_iff] at hx
  obtain ⟨g, hg, rfl⟩ := hx
  by_cases h2 : p.text.length = 2
  · have h8 := eight_le_top st.scheme
    have := Shortfall.v1_le_v2 (by omega) (posBonus_nonneg U st.scheme s) (posBonus_le_top U st.scheme s) (by omega) hg hy
    rw [h2] at this
    simpa using this
  · obtain ⟨c, hc⟩ := List.length_eq_one_iff.mp (show p.text.length = 1 by have := List.length_pos_iff.mpr hne; omega)
    obtain ⟨_, _, _, _, _, ha, _⟩ := v1Align_some hne hg
    have hy' : singleResult (posBonus U st.scheme s) (st.eqOf p) c s = some y := by
      simpa [pureOf, v2Result, hc] using hy
    obtain ⟨i, z, rfl, _, _, h5⟩ := singleResult_some hy'
    have hs := ha.spells
    rw [hc] at hs
    cases hs with
    | @cons _ j _ l hj hl =>
      cases hl
      obtain ⟨w, hw, hr⟩ := hj
      have := (h5 j w hw hr).1
      show 16 + 2 * posBonus U st.scheme s j + (0 : Int) ≤ 16 + 2 * posBonus U st.scheme s i
      omega

/-- Two characters: FzfV2 chooses a better `b`. -/
example : Returns Concrete.U (Concrete.metric .v1) (Concrete.parse "ab") "axb b".toList (some ⟨49⟩) ∧
    Returns Concrete.U (Concrete.metric .v2) (Concrete.parse "ab") "axb b".toList (some ⟨57⟩) :=
  ⟨Concrete.returns (by decide +kernel), Concrete.returns (by decide +kernel)⟩

/-- **C24** when the alignment that FzfV1 highlights has no two adjacent positions and is tight: between two successive
positions, no character matches the first one's query character. What is missing: other alignments, for some of
which the statement is false (`C24_false`). -/
theorem C24_tight_partial {m₁ m₂ : Metric} {d₁ d₂ : FzfDistance} (h₁ : Reachable U .v1 m₁ st)
    (h₂ : Reachable U .v2 m₂ st) (hf : FuzzyFor q p) (hq : QueryOk U q) (hp : p.text ≠ []) {rs : List Range}
    (hd₁ : ReturnsRanges U m₁ q s [] rs (some d₁)) (hd₂ : Returns U m₂ q s (some d₂))
    (ht : ∀ ps, Alignment (Cmp U st p.text) p.text s ps →
      (∀ b, Covers rs b ↔ ∃ i ∈ ps, (charRange s i).start ≤ b ∧ b < (charRange s i).stop) →
      (∀ n i, ps[n]? = some i → ps[n + 1]? ≠ some (i + 1)) ∧ ∀ n, TightAt (Cmp U st p.text) p.text s ps n) :
    d₁.score ≤ d₂.score := by
  obtain ⟨x, new, hx, hnew, hc, rfl⟩ := fuzzy_call h₁ hf hq hp hd₁
  obtain ⟨y, hy, rfl⟩ := fuzzy_returns h₂ hf hq hp hd₂
  rw [List.nil_append] at hnew
  subst hnew
  rw [← fuzzyFor_rel hf hq] at ht
  simp only [pureOf, v1Result, Option.map_eq_some_iff] at hx
  obtain ⟨g, hg, rfl⟩ := hx
  obtain ⟨_, _, _, _, _, ha, _⟩ := v1Align_some hp hg
  obtain ⟨h3, h4⟩ := ht g ha hc
  have := v2Result_ge_affine hp ha h4 hy
  simp only [FzfDistance.fromScore, alignScore_plain h3]
  exact this

/-- **C58.** FzfV2's score falls short of the documented score of any alignment by at most 1 less than twice the scheme's
largest bonus, and by at most 2 more than this bonus for every query character but the first two; not at all for one
character. The candidate, and how much of it is skipped, do not matter. -/
theorem C58_shortfall {d : FzfDistance} {ps : List Nat} (h : Reachable U .v2 m st) (hf : FuzzyFor q p)
    (hq : QueryOk U q) (hp : p.text ≠ []) (hd : Returns U m q s (some d))
    (ha : Alignment (Cmp U st p.text) p.text s ps) :
    (p.text.length = 1 → alignScore (posBonus U st.scheme s) ps ≤ d.score) ∧
      (2 ≤ p.text.length → alignScore (posBonus U st.scheme s) ps ≤
        d.score + (2 * topBonus st.scheme - 1) + (topBonus st.scheme + 2) * ((p.text.length : Int) - 2)) := by
  obtain ⟨x, hx, rfl⟩ := fuzzy_returns h hf hq hp hd
  rw [← fuzzyFor_rel hf hq] at ha
  have h8 := eight_le_top st.scheme
  refine ⟨fun h1 => ?_, fun h2 => Shortfall.v2Result_ge_alignScore (by omega) (posBonus_nonneg U st.scheme s)
    (posBonus_le_top U st.scheme s) h2 ha hx⟩
  obtain ⟨c, hc⟩ := List.length_eq_one_iff.mp h1
  have hx' : singleResult (posBonus U st.scheme s) (st.eqOf p) c s = some x := by
    simpa [pureOf, v2Result, hc] using hx
  obtain ⟨i, z, rfl, _, _, h5⟩ := singleResult_some hx'
  have hs := ha.spells
  rw [hc] at hs
  cases hs with
  | @cons _ j _ l hj hl =>
    cases hl
    obtain ⟨w, hw, hr⟩ := hj
    have := (h5 j w hw hr).1
    show 16 + 2 * posBonus U st.scheme s j + (0 : Int) ≤ 16 + 2 * posBonus U st.scheme s i
    omega

/-- Two characters can fall short by all of 19: FzfV2 does not see the alignment `[0, 4]`. -/
theorem C58_sharp : 2 * topBonus .default - 1 = 19 ∧
    Returns Concrete.U (Concrete.metric .v2) (Concrete.parse "ab") "Aax/b /bX".toList (some ⟨37⟩) ∧
    Alignment (Cmp Concrete.U defaultSettings "ab".toList) "ab".toList "Aax/b /bX".toList [0, 4] ∧
    alignScore (posBonus Concrete.U .default "Aax/b /bX".toList) [0, 4] = 37 + 19 :=
  ⟨by decide, Concrete.returns (by decide +kernel),
    ⟨by simp, .cons ⟨'A', rfl, .inl (by decide +kernel)⟩ (.cons ⟨'b', rfl, .inl rfl⟩ .nil)⟩, by decide +kernel⟩

/-- **C24**, with a margin that grows with the query's length: 2 more than the scheme's largest bonus for every character but the
first two, or 10 for every character but the first and 2 for every skipped character, if this is less. What is
missing: the margin, which cannot be dropped (`C24_false`) and is the least for queries of up to three characters (`C24_sharp`).
For longer ones it has to grow by at least the bonus after white space (`C24_grows` in `Props/Families.lean`). -/
theorem C24_margin_partial {m₁ m₂ : Metric} {d₁ d₂ : FzfDistance} (h₁ : Reachable U .v1 m₁ st)
    (h₂ : Reachable U .v2 m₂ st) (hf : FuzzyFor q p) (hq : QueryOk U q) (hp : 2 ≤ p.text.length)
    (hd₁ : Returns U m₁ q s (some d₁)) (hd₂ : Returns U m₂ q s (some d₂)) :
    d₁.score ≤ d₂.score + min ((topBonus st.scheme + 2) * ((p.text.length : Int) - 2))
      (10 * ((p.text.length : Int) - 1) + 2 * ((s.length : Int) - p.text.length)) := by
  have hne : p.text ≠ [] := by intro h; rw [h] at hp; simp at hp
  obtain ⟨x, hx, rfl⟩ := fuzzy_returns h₁ hf hq hne hd₁
  obtain ⟨y, hy, rfl⟩ := fuzzy_returns h₂ hf hq hne hd₂
  simp only [pureOf, v1Result, Option.map_eq_some_iff] at hx
  obtain ⟨g, hg, rfl⟩ := hx
  obtain ⟨_, _, _, _, _, ha, _⟩ := v1Align_some hne hg
  have h8 := eight_le_top st.scheme
  have h3 := v2Result_ge_linear hne ha (Shortfall.v1Align_tight hne hg) hy
  have h4 := alignScore_le_plain (posBonus_nonneg U st.scheme s) (posBonus_le U st.scheme s) hne ha
  have h5 := Shortfall.v1_le_v2 (by omega) (posBonus_nonneg U st.scheme s) (posBonus_le_top U st.scheme s) hp hg hy
  show alignScore (posBonus U st.scheme s) g ≤ y.2 + _
  omega

/-- Three characters can lose all of 12. -/
theorem C24_sharp : topBonus .default + 2 = 12 ∧
    Returns Concrete.U (Concrete.metric .v1) (Concrete.parse "abc") "aBbbbbXbbxC".toList (some ⟨63 + 12⟩) ∧
    Returns Concrete.U (Concrete.metric .v2) (Concrete.parse "abc") "aBbbbbXbbxC".toList (some ⟨63⟩) :=
  ⟨by decide, Concrete.returns (by decide +kernel), Concrete.returns (by decide +kernel)⟩

/-- The margin has to grow with the query: four characters can lose 22. -/
example : Returns Concrete.U (Concrete.metric .v1) (Concrete.parse "abcd") "ABbbb1bxbb cc-1Bcxcccc/dbBaDd".toList (some ⟨89⟩) ∧
    Returns Concrete.U (Concrete.metric .v2) (Concrete.parse "abcd") "ABbbb1bxbb cc-1Bcxcccc/dbBaDd".toList (some ⟨67⟩) :=
  ⟨Concrete.returns (by decide +kernel), Concrete.returns (by decide +kernel)⟩

/-- An alignment of the second kind, `[1, 3]`. -/
example : ReturnsRanges Concrete.U (Concrete.metric .v1) (Concrete.parse "ab") "xaxb".toList [] [⟨1, 2⟩, ⟨3, 4⟩] (some ⟨29⟩) ∧
    Returns Concrete.U (Concrete.metric .v2) (Concrete.parse "ab") "xaxb".toList (some ⟨29⟩) :=
  ⟨Concrete.returnsRanges (by decide +kernel), Concrete.returns (by decide +kernel)⟩

/-- For one character, FzfV2 can be strictly better. -/
example : Returns Concrete.U (Concrete.metric .v1) (Concrete.parse "a") "ba_a a".toList (some ⟨16⟩) ∧
    Returns Concrete.U (Concrete.metric .v2) (Concrete.parse "a") "ba_a a".toList (some ⟨36⟩) :=
  ⟨Concrete.returns (by decide +kernel), Concrete.returns (by decide +kernel)⟩

/-- **C48, full statement.** -/
def C48 : Prop :=
  ∀ (U : Unicode) (m : Metric) (st : Settings) (q : FzfQuery) (p : Pattern) (s : List Char) (d : FzfDistance)
    (ps : List Nat), Reachable U .v2 m st → FuzzyFor q p → QueryOk U q → p.text ≠ [] → Returns U m q s (some d) →
    Alignment (Cmp U st p.text) p.text s ps → plainScore gapLinear (posBonus U st.scheme s) ps ≤ d.score

/-- **C48 is false.** For `ab` in `aab` FzfV2 scores 36, but the alignment `[0, 2]` has the basic score 49. -/
theorem C48_false : ¬ C48 := by
  intro h
  have := h Concrete.U (Concrete.metric .v2) defaultSettings (Concrete.parse "ab")
    (mkPattern Concrete.U false .fuzzy "ab".toList) "aab".toList ⟨36⟩ [0, 2] (Concrete.reachable ..)
    (.inl (by decide +kernel)) (Concrete.parsed _).ok (by decide) (Concrete.returns (by decide +kernel))
    ⟨by simp, .cons ⟨'a', rfl, .inl rfl⟩ (.cons ⟨'b', rfl, .inl rfl⟩ .nil)⟩
  exact absurd this (by decide +kernel)

/-- **C48** for alignments in which no occurrence of the first query character is skipped between the first two
positions. What is missing: the other alignments, for some of which the statement is false (`C48_false`). -/
theorem C48_tight_partial {d : FzfDistance} {ps : List Nat} (h : Reachable U .v2 m st) (hf : FuzzyFor q p)
    (hq : QueryOk U q) (hp : p.text ≠ []) (hd : Returns U m q s (some d))
    (ha : Alignment (Cmp U st p.text) p.text s ps) (ht : TightAt (Cmp U st p.text) p.text s ps 0) :
    plainScore gapLinear (posBonus U st.scheme s) ps ≤ d.score := by
  obtain ⟨x, hx, rfl⟩ := fuzzy_returns h hf hq hp hd
  rw [← fuzzyFor_rel hf hq] at ha ht
  exact v2Result_ge_linear hp ha ht hx

/-- **C48** for every alignment, up to 17: FzfV2 only forgets an occurrence of the first query character for a later one, whose bonus may
be smaller. What is missing: the 17, of which nothing can be dropped (`C48_sharp`). -/
theorem C48_margin_partial {d : FzfDistance} {ps : List Nat} (h : Reachable U .v2 m st) (hf : FuzzyFor q p)
    (hq : QueryOk U q) (hp : p.text ≠ []) (hd : Returns U m q s (some d))
    (ha : Alignment (Cmp U st p.text) p.text s ps) :
    plainScore gapLinear (posBonus U st.scheme s) ps ≤ d.score + 17 := by
  obtain ⟨x, hx, rfl⟩ := fuzzy_returns h hf hq hp hd
  rw [← fuzzyFor_rel hf hq] at ha
  exact v2Result_ge_margin (posBonus_nonneg U st.scheme s) (posBonus_le U st.scheme s) hp ha hx

/-- The margin of `C48_margin_partial` is the least: an alignment of `abcd` in `aaxbxcxd` has the basic score 72, and FzfV2
scores 17 less. -/
theorem C48_sharp :
    Alignment (Cmp Concrete.U defaultSettings "abcd".toList) "abcd".toList "aaxbxcxd".toList [0, 3, 5, 7] ∧
    plainScore gapLinear (posBonus Concrete.U .default "aaxbxcxd".toList) [0, 3, 5, 7] = 55 + 17 ∧
    Returns Concrete.U (Concrete.metric .v2) (Concrete.parse "abcd") "aaxbxcxd".toList (some ⟨55⟩) :=
  ⟨⟨by simp, .cons ⟨'a', rfl, .inl rfl⟩ (.cons ⟨'b', rfl, .inl rfl⟩ (.cons ⟨'c', rfl, .inl rfl⟩
    (.cons ⟨'d', rfl, .inl rfl⟩ .nil)))⟩, by decide +kernel, Concrete.returns (by decide +kernel)⟩

example : plainScore gapLinear (posBonus Concrete.U .default "abbxc".toList) [0, 2, 4] = 62 ∧
    Returns Concrete.U (Concrete.metric .v2) (Concrete.parse "abc") "abbxc".toList (some ⟨72⟩) ∧
    Alignment (Cmp Concrete.U defaultSettings "abc".toList) "abc".toList "abbxc".toList [0, 2, 4] ∧
    TightAt (Cmp Concrete.U defaultSettings "abc".toList) "abc".toList "abbxc".toList [0, 2, 4] 0 := by
  refine ⟨by decide +kernel, Concrete.returns (by decide +kernel),
    ⟨by simp, .cons ⟨'a', rfl, .inl rfl⟩ (.cons ⟨'b', rfl, .inl rfl⟩ (.cons ⟨'c', rfl, .inl rfl⟩ .nil))⟩, ?_⟩
  intro i j q hi hj hq k c h1 h2 hk
  simp at hi hj hq
  subst hi hj hq
  obtain rfl : k = 1 := by omega
  simp at hk
  subst hk
  rintro (h | ⟨h, _⟩)
  · exact absurd h (by decide)
  · exact absurd h (by decide)

/-! ### Order and bounds -/

/-- **C40.** `Ord for FzfDistance` is a total order, consistent with equality and with `PartialOrd`, in which the higher
score comes first. -/
theorem C40_order (x y z : FzfDistance) :
    (x.cmp y = .lt ↔ y.score < x.score) ∧ (x.cmp y = .eq ↔ x = y) ∧ (x.cmp y = .gt ↔ x.score < y.score) ∧
    (x.cmp y = (y.cmp x).swap) ∧ (x.cmp y ≠ .gt → y.cmp z ≠ .gt → x.cmp z ≠ .gt) ∧
    x.partialCmp y = some (x.cmp y) := by
  have hcmp : ∀ i j : Int, (compare i j = .lt ↔ i < j) ∧ (compare i j = .eq ↔ i = j) ∧ (compare i j = .gt ↔ j < i) := by
    intro i j
    have : compare i j = if i < j then .lt else if i = j then .eq else .gt := rfl
    rw [this]
    split
    · simp; omega
    · split
      · simp; omega
      · simp; omega
  have hlt : ∀ x y : FzfDistance, x.cmp y = .lt ↔ y.score < x.score := fun x y => (hcmp y.score x.score).1
  have hgt : ∀ x y : FzfDistance, x.cmp y = .gt ↔ x.score < y.score := fun x y => (hcmp y.score x.score).2.2
  have heq : ∀ x y : FzfDistance, x.cmp y = .eq ↔ x = y := fun x y =>
    (hcmp y.score x.score).2.1.trans ⟨fun h => by cases x; cases y; exact congrArg _ h.symm, fun h => by rw [h]⟩
  refine ⟨hlt x y, heq x y, hgt x y, ?_, ?_, rfl⟩
  · cases h : y.cmp x with
    | lt => exact (hgt x y).mpr ((hlt y x).mp h)
    | eq => exact (heq x y).mpr ((heq y x).mp h).symm
    | gt => exact (hlt x y).mpr ((hgt y x).mp h)
  · simp only [ne_eq, hgt]
    intro h1 h2
    exact Int.not_lt.mpr (Int.le_trans (Int.not_lt.mp h2) (Int.not_lt.mp h1))

/-- Sorting candidates by ascending distance puts the highest scores first. -/
theorem C40_best_first (ds : List FzfDistance) (h : ds.Pairwise (fun x y => x.cmp y ≠ .gt)) :
    ds.Pairwise (fun x y => y.score ≤ x.score) := by
  refine h.imp ?_
  intro x y hxy
  have := (C40_order x y x).2.2.1
  rw [ne_eq, this] at hxy
  exact Int.not_lt.mp hxy

example : [FzfDistance.mk 62, ⟨16⟩, ⟨-3⟩].Pairwise (fun x y => x.cmp y ≠ .gt) ∧ (FzfDistance.mk 62).cmp ⟨16⟩ = .lt := by
  decide

/-- **C41.** The scoring scheme that was set is recovered from the stored one; positional bonuses are those
documented, between 0 and 10; a letter after a path separator (`/`, or `\` on Windows) has a larger bonus than after a space exactly under the `Path`
scheme. -/
theorem C41_schemes (U : Unicode) (S : FzfScheme) :
    FzfScheme.fromInner S.intoInner = some S ∧
    (∀ prev next, computeBonus prev next S.intoInner = bonus S prev next ∧ 0 ≤ bonus S prev next ∧
      bonus S prev next ≤ 10) ∧
    (∀ x y c sep, (classOf U S c = .lower ∨ classOf U S c = .upper ∨ classOf U S c = .letter) →
      (sep = '/' ∨ (sep = '\\' ∧ U.windows = true)) →
      (posBonus U S (x ++ ' ' :: c :: y) (x.length + 1) < posBonus U S (x ++ sep :: c :: y) (x.length + 1) ↔
        S = .path)) := by
  refine ⟨fromInner_intoInner S, fun prev next => ⟨computeBonus_eq S prev next, bonus_nonneg _ _ _, bonus_le _ _ _⟩, ?_⟩
  intro x y c sep hc hsep
  have key : ∀ b, posBonus U S (x ++ b :: c :: y) (x.length + 1) = bonus S (classOf U S b) (classOf U S c) := by
    intro b
    have e1 : (x ++ b :: c :: y)[x.length + 1]? = some c := by simp
    have e2 : (x ++ b :: c :: y).take (x.length + 1) = x ++ [b] := by
      rw [show x ++ b :: c :: y = (x ++ [b]) ++ c :: y by simp, List.take_left' (by simp)]
    unfold posBonus classBefore
    rw [e1, e2]
    simp
  have h1 : classOf U S ' ' = .whiteSpace := by cases S <;> rfl
  rw [key, key, h1]
  rcases hsep with rfl | ⟨rfl, hw⟩
  · have h2 : classOf U S '/' = .delimiter := by
      cases S <;> cases hw : U.windows <;> simp [classOf, delimiters, hw]
    rw [h2]
    rcases hc with h | h | h <;> rw [h] <;> cases S <;> decide
  · have h2 : classOf U S '\\' = if S = .path then .delimiter else .nonWord := by
      cases S <;> simp [classOf, delimiters, hw]
    rw [h2]
    rcases hc with h | h | h <;> rw [h] <;> cases S <;> decide

/-- The schemes differ on concrete candidates. -/
example : Returns Concrete.U (Concrete.metric .v1 (S := .path)) (Concrete.parse "b") "a/b".toList (some ⟨34⟩) ∧
    Returns Concrete.U (Concrete.metric .v1 (S := .path)) (Concrete.parse "b") "a b".toList (some ⟨32⟩) ∧
    Returns Concrete.U (Concrete.metric .v1 (S := .default)) (Concrete.parse "b") "a/b".toList (some ⟨34⟩) ∧
    Returns Concrete.U (Concrete.metric .v1 (S := .default)) (Concrete.parse "b") "a b".toList (some ⟨36⟩) :=
  ⟨Concrete.returns (by decide +kernel), Concrete.returns (by decide +kernel), Concrete.returns (by decide +kernel),
    Concrete.returns (by decide +kernel)⟩

/-- The backslash separates paths on Windows only. -/
example : posBonus { Concrete.U with windows := true } .path "a\\b".toList 2 = 9 ∧
    posBonus Concrete.U .path "a\\b".toList 2 = 8 ∧
    posBonus { Concrete.U with windows := true } .default "a\\b".toList 2 = 8 := by decide +kernel

/-- **C42**, fuzzy queries. -/
theorem C42_fuzzy_bounds (h : Reachable U a m st) (hf : FuzzyFor q p) (hq : QueryOk U q) (hp : p.text ≠ [])
    {d : FzfDistance} (hd : Returns U m q s (some d)) :
    d.score ≤ 26 * (p.text.length : Int) + 10 ∧ 19 * (p.text.length : Int) - 3 * s.length ≤ d.score ∧
      (a = .v1 → 15 * (p.text.length : Int) + 3 - s.length ≤ d.score) ∧ (a = .v2 → 16 ≤ d.score) := by
  obtain ⟨x, hx, rfl⟩ := fuzzy_returns h hf hq hp hd
  have hB := posBonus_nonneg U st.scheme s
  have hB' := posBonus_le U st.scheme s
  refine ⟨pure_le a hB hB' hp hx, pure_ge a hB hB' hp hx, ?_, ?_⟩
  · rintro rfl
    exact v1_ge_length hB (posBonus_zero_ge U st.scheme s) hp hx
  rintro rfl
  exact (v2Result_score hB hB' hp hx).1

/-- **C42**, exact, prefix, suffix and equality patterns. -/
theorem C42_block_bounds (h : Reachable U a m st) (hp : PatternOk U p) (hk : p.matchType ≠ .fuzzy)
    (hi : p.isInverse = false) {d : FzfDistance} (hd : Returns U m (single p) s (some d)) :
    d.score ≤ 26 * (p.text.length : Int) + 10 ∧ 20 * (p.text.length : Int) - 4 ≤ d.score := by
  have h2 := (returns_iff h (queryOk_single hp)).mp hd
  rw [result_single_score] at h2
  unfold patHit at h2
  simp only [hi, Bool.false_eq_true, if_false] at h2
  cases hh : rawHit U (pureOf a) st s p with
  | none => rw [hh] at h2; simp at h2
  | some x =>
    obtain ⟨i, _, rfl, _, _⟩ := block_hit hk hp hh
    rw [hh] at h2
    obtain rfl := Option.some.inj h2
    have hl := List.length_pos_iff.mpr hp.1
    refine ⟨?_, alignScore_range (posBonus_nonneg U st.scheme s) i _ (by omega)⟩
    have := alignScore_le (posBonus_le U st.scheme s) (List.range' i p.text.length)
      (by rw [ne_eq, List.range'_eq_nil_iff]; omega)
    rwa [List.length_range'] at this

/-- **C42**, extended queries: the bounds of the conditions add up. -/
theorem C42_extended_bound (h : Reachable U a m st) {cs : List Condition} (hq : QueryOk U (.extended cs))
    {ps : List Pattern} (hps : List.Forall₂ (FirstMatch U st s) cs ps) {d : FzfDistance}
    (hd : Returns U m (.extended cs) s (some d)) :
    d.score ≤ (ps.map (fun p => 26 * (p.text.length : Int) + 10)).sum ∧
      - (3 * (s.length : Int) * cs.length) ≤ d.score := by
  have hok := fun c hc => (hq c hc).2
  have h2 := (returns_iff h hq).mp hd
  rw [result_extended, (condsHit_ranges hok hps).2] at h2
  obtain rfl := Option.some.inj h2
  clear hd hq h2
  simp only [FzfDistance.fromScore]
  have hB := posBonus_nonneg U st.scheme s
  have hB' := posBonus_le U st.scheme s
  induction hps with
  | nil => simp
  | @cons c p cs ps hf hps ih =>
    have ih := ih (fun c hc => hok c (by simp [hc]))
    have hp := hok c (by simp) p hf.mem
    obtain ⟨x, hx, _⟩ := firstMatch_hit (a := a) (hok c (by simp)) hf
    have hpl := List.length_pos_iff.mpr hp.1
    have hb : x.2 ≤ 26 * (p.text.length : Int) + 10 ∧ - (3 * (s.length : Int)) ≤ x.2 := by
      by_cases hi : p.isInverse = true
      · unfold patHit at hx
        rw [if_pos hi] at hx
        split at hx
        · simp at hx; subst hx; simp only; omega
        · simp at hx
      · have hi : p.isInverse = false := by simpa using hi
        have hx' : rawHit U (pureOf a) st s p = some x := by simpa [patHit, hi] using hx
        by_cases hk : p.matchType = .fuzzy
        · simp only [rawHit, hk, Option.map_eq_some_iff] at hx'
          obtain ⟨y, hy, rfl⟩ := hx'
          have h1 := pure_le a hB hB' hp.1 hy
          have h2 := pure_ge a hB hB' hp.1 hy
          simp only
          omega
        · obtain ⟨i, _, rfl, _, _⟩ := block_hit hk hp hx'
          have h1 := alignScore_le hB' (List.range' i p.text.length) (by rw [ne_eq, List.range'_eq_nil_iff]; omega)
          have h2 := alignScore_range hB i p.text.length (by omega)
          rw [List.length_range'] at h1
          simp only
          omega
    simp only [List.map_cons, List.sum_cons, hx, Option.getD_some, List.length_cons, Int.natCast_add, Int.natCast_one]
    have e : 3 * (s.length : Int) * ((cs.length : Int) + 1) = 3 * (s.length : Int) * cs.length + 3 * s.length := by
      rw [Int.mul_add, Int.mul_one]
    rw [e]
    obtain ⟨ih1, ih2⟩ := ih
    exact ⟨Int.add_le_add hb.1 ih1, by
      rw [Int.neg_add, Int.add_comm]
      exact Int.add_le_add hb.2 ih2⟩

/-- The upper bound is attained; FzfV1 can score less than 0. -/
example : Returns Concrete.U (Concrete.metric .v1) (Concrete.parse "a") "a".toList (some ⟨36⟩) ∧
    Returns Concrete.U (Concrete.metric .v1) (Concrete.parse "ab")
      "za                                             zb".toList (some ⟨-16⟩) :=
  ⟨Concrete.returns (by decide +kernel), Concrete.returns (by decide +kernel)⟩

/-! ### Exact patterns -/

/-- **C46, full statement.** -/
def C46 : Prop :=
  ∀ (U : Unicode) (a : Algo) (m : Metric) (st : Settings) (p : Pattern) (s : List Char) (buf buf' : List Range)
    (d : FzfDistance), Reachable U a m st → PatternOk U p → p.matchType = .exact → p.isInverse = false →
    ReturnsRanges U m (single p) s buf buf' (some d) →
    ∃ i, BestPlaced (posBonus U st.scheme s) (Cmp U st p.text) p.text s i ∧
      buf' = buf ++ [byteRange s i (i + p.text.length)] ∧
      d = ⟨alignScore (posBonus U st.scheme s) (List.range' i p.text.length)⟩

/-- **C46 is false.** `'a` in `ZaA` finds `a` (bonus 0) instead of `A` (bonus 7): after a match the search
continues with a stale previous character class. -/
theorem C46_false : ¬ C46 := by
  intro h
  obtain ⟨i, h1, h2, h3⟩ := h Concrete.U .v1 (Concrete.metric .v1) defaultSettings
    (mkPattern Concrete.U false .exact "a".toList) "ZaA".toList [] [⟨1, 2⟩] ⟨16⟩ (Concrete.reachable ..)
    (mkPattern_ok _ _ _ (by decide)) rfl rfl (Concrete.returnsRanges (by decide +kernel))
  obtain ⟨⟨x, y, z, hs, hx, hf⟩, h1⟩ := h1
  have hi : i < 3 := by
    have e := congrArg List.length hs
    have := hf.length_eq
    simp [mkPattern] at e this
    omega
  have hocc : OccursAt (Cmp Concrete.U defaultSettings ['a']) ['a'] "ZaA".toList 2 :=
    ⟨['Z', 'a'], ['A'], [], rfl, rfl, .cons (.inl (by decide)) .nil⟩
  have hi1 : i = 1 := by
    have : i = 0 ∨ i = 1 ∨ i = 2 := by omega
    rcases this with rfl | rfl | rfl
    · exact absurd h2 (by decide)
    · rfl
    · exact absurd h2 (by decide)
  subst hi1
  rcases h1 with h1 | h1
  · exact absurd h1.1 (by decide +kernel)
  · exact absurd (h1 2 hocc).2.1 (by decide +kernel)

/-- **C52.** An exact pattern finds the best-placed occurrence with respect to the bonuses that its search computes from the
classes it sees; it highlights that occurrence, and scores it with the right bonuses. -/
theorem C52_seen {seen : Nat → CharClass} (h : Reachable U a m st) (hp : PatternOk U p) (hk : p.matchType = .exact)
    (hi : p.isInverse = false) (hs : SeenBy U st.scheme (Cmp U st p.text) p.text s seen)
    {buf buf' : List Range} {d : FzfDistance} (hd : ReturnsRanges U m (single p) s buf buf' (some d)) :
    ∃ i, BestPlaced (seenBonus U st.scheme s seen) (Cmp U st p.text) p.text s i ∧
      buf' = buf ++ [byteRange s i (i + p.text.length)] ∧
      d = ⟨alignScore (posBonus U st.scheme s) (List.range' i p.text.length)⟩ := by
  obtain ⟨rfl, h2⟩ := (returnsRanges_iff h (queryOk_single hp)).mp hd
  rw [result_single] at h2 ⊢
  unfold patHit at h2 ⊢
  simp only [hi, Bool.false_eq_true, if_false] at h2 ⊢
  cases hh : rawHit U (pureOf a) st s p with
  | none => rw [hh] at h2; simp at h2
  | some x =>
    obtain ⟨i, _, rfl, _, _, h6⟩ := block_hit (by simp [hk]) hp hh
    rw [hh] at h2
    refine ⟨i, ?_, rfl, Option.some.inj h2⟩
    rw [← rel_eqOf st hp.upper] at hs ⊢
    have hm := exactMatch_eq U st.scheme.intoInner false (c := .unicode s) (by simp [Candidate.WF]) p (st.eqOf p) hp.1
      (computeBonus_nonneg st.scheme) [] [] sep_nil
    obtain ⟨q, qs, hq⟩ := List.exists_cons_of_ne_nil hp.1
    have : BestPlaced (seenBonusOf U st.scheme.intoInner (st.eqOf p) q qs s) (rel (st.eqOf p)) p.text s i :=
      (hm.2.2 i (h6 hk)).2 q qs hq
    rw [hq] at hs
    rwa [seenBonusOf_eq hs] at this

/-- **C52**, the classes exist and are unique, as far as the candidate goes. -/
theorem C52_seen_exists (U : Unicode) (st : Settings) (hp : PatternOk U p) (s : List Char) :
    ∃ seen, SeenBy U st.scheme (Cmp U st p.text) p.text s seen ∧
      ∀ seen', SeenBy U st.scheme (Cmp U st p.text) p.text s seen' → ∀ i ≤ s.length, seen' i = seen i := by
  rw [← rel_eqOf st hp.upper]
  obtain ⟨q, qs, hq⟩ := List.exists_cons_of_ne_nil hp.1
  rw [hq]
  exact ⟨_, seenCls_ok .., fun seen' h' i hi => seenCls_unique h' i hi⟩

/-- `'a` in `ZaA`: after the match at 1 the search still sees the class of `Z`, and so no bonus for `A`. -/
example :
    let seen : Nat → CharClass := fun i => if i = 0 then .whiteSpace else .upper
    SeenBy Concrete.U .default (Cmp Concrete.U defaultSettings ['a']) ['a'] "ZaA".toList seen ∧
    (List.range 3).map (seenBonus Concrete.U .default "ZaA".toList seen) = [10, 0, 0] ∧
    (List.range 3).map (posBonus Concrete.U .default "ZaA".toList) = [10, 0, 7] := by
  intro seen
  refine ⟨?_, by decide +kernel, by decide +kernel⟩
  have hr : Cmp Concrete.U defaultSettings ['a'] = rel (charEq false false) := by
    funext q c
    exact propext (charEq_iff _ _ q c).symm
  rw [hr]
  have hlt : ∀ {i : Nat} {c : Char}, "ZaA".toList[i]? = some c → i = 0 ∨ i = 1 ∨ i = 2 := by
    intro i c h
    have := (List.getElem?_eq_some_iff.mp h).1
    simp at this
    omega
  constructor
  · rfl
  · intro i c hc h
    have := (matchLen_zero hc).mp h
    rcases hlt hc with rfl | rfl | rfl
    · simp at hc; subst hc; rfl
    · simp at hc; subst hc; exact absurd (by decide) this
    · simp at hc; subst hc; exact absurd (by decide +kernel) this
  · intro i c hc h _
    have := matchLen_head hc h (Nat.le_refl _)
    rcases hlt hc with rfl | rfl | rfl
    · simp at hc; subst hc; exact absurd this (by decide +kernel)
    · rfl
    · rfl
  · intro i l c _ _ h
    simp at h

/-- **C46** for patterns of two characters, without restriction. -/
theorem C46_two_partial (h : Reachable U a m st) (hp : PatternOk U p) (hk : p.matchType = .exact)
    (hi : p.isInverse = false) (hl : p.text.length = 2)
    {buf buf' : List Range} {d : FzfDistance} (hd : ReturnsRanges U m (single p) s buf buf' (some d)) :
    ∃ i, BestPlaced (posBonus U st.scheme s) (Cmp U st p.text) p.text s i ∧
      buf' = buf ++ [byteRange s i (i + p.text.length)] ∧
      d = ⟨alignScore (posBonus U st.scheme s) (List.range' i p.text.length)⟩ := by
  obtain ⟨seen, hs, _⟩ := C52_seen_exists U st hp s
  obtain ⟨i, h1, h2⟩ := C52_seen h hp hk hi hs hd
  refine ⟨i, bestPlaced_congr ?_ h1, h2⟩
  intro j hj
  rw [← rel_eqOf st hp.upper] at hj
  obtain ⟨q, qs, hq⟩ := List.exists_cons_of_ne_nil hp.1
  rw [hq] at hs hl
  have := occursAt_le hj
  exact seenBonus_right hs (by omega) (.inl (by simpa using hl))

/-- **C46** for candidates in which no two adjacent characters match the pattern's first character. What is missing: other
candidates, for some of which the statement is false (`C46_false`); `C52_seen` says what happens there. -/
theorem C46_best_partial (h : Reachable U a m st) (hp : PatternOk U p) (hk : p.matchType = .exact)
    (hi : p.isInverse = false)
    (hna : ∀ q i c d, p.text.head? = some q → s[i]? = some c → s[i + 1]? = some d → Cmp U st p.text q c →
      ¬ Cmp U st p.text q d)
    {buf buf' : List Range} {d : FzfDistance} (hd : ReturnsRanges U m (single p) s buf buf' (some d)) :
    ∃ i, BestPlaced (posBonus U st.scheme s) (Cmp U st p.text) p.text s i ∧
      buf' = buf ++ [byteRange s i (i + p.text.length)] ∧
      d = ⟨alignScore (posBonus U st.scheme s) (List.range' i p.text.length)⟩ := by
  obtain ⟨seen, hs, _⟩ := C52_seen_exists U st hp s
  obtain ⟨i, h1, h2⟩ := C52_seen h hp hk hi hs hd
  refine ⟨i, bestPlaced_congr ?_ h1, h2⟩
  intro j hj
  obtain ⟨q, qs, hq⟩ := List.exists_cons_of_ne_nil hp.1
  rw [← rel_eqOf st hp.upper] at hj
  have hle := occursAt_le hj
  rw [hq] at hs hj
  obtain ⟨c, hc, hqc⟩ := occursAt_head hj
  refine seenBonus_right hs (by omega) (.inr ?_)
  intro b h0 hb hqb
  refine hna q (j - 1) b c (by rw [hq]; rfl) hb (by rw [Nat.sub_add_cancel (by omega)]; exact hc) (by rw [hq]; exact hqb) ?_
  rw [← rel_eqOf st hp.upper]
  exact hqc

/-- The second occurrence of `bc` is chosen, because it follows a space. -/
example : ReturnsRanges Concrete.U (Concrete.metric .v2) (single (mkPattern Concrete.U false .exact "bc".toList))
      "abc bc ".toList [] [⟨4, 6⟩] (some ⟨62⟩) := Concrete.returnsRanges (by decide +kernel)

end Norm.Props
