import Verif.Proofs.Append
import Verif.Props.Concrete

/-!
# Which candidates are closest, and what does not change distances

Properties C59–C61. -/

namespace Norm.Props

open Spec

variable {U : Unicode} {a : Algo} {m : Metric} {st : Settings} {q : FzfQuery} {p : Pattern} {s t : List Char}

/-- **C59, full statement**: no candidate is closer to a fuzzy query than the query itself. -/
def C59 : Prop :=
  ∀ (U : Unicode) (a : Algo) (m : Metric) (st : Settings) (q : FzfQuery) (p : Pattern) (s : List Char)
    (d d' : FzfDistance), Reachable U a m st → FuzzyFor q p → QueryOk U q → p.text ≠ [] →
    Returns U m q p.text (some d) → Returns U m q s (some d') → d'.score ≤ d.score

/-- **C59 is false.** `1 abc` is closer to the query `1abc` than `1abc` itself: 105 against 99. A digit or a symbol at
the start of a candidate has a smaller bonus than a letter after a space. -/
theorem C59_false : ¬ C59 := by
  intro h
  have := h Concrete.U .v2 (Concrete.metric .v2) defaultSettings (Concrete.parse "1abc")
    (mkPattern Concrete.U false .fuzzy "1abc".toList) "1 abc".toList ⟨99⟩ ⟨105⟩ (Concrete.reachable ..)
    (.inl (by decide +kernel)) (Concrete.parsed _).ok (by decide) (Concrete.returns (s := "1abc") (by decide +kernel))
    (Concrete.returns (by decide +kernel))
  exact absurd this (by decide)

/-- No candidate scores more than 16 and the scheme's largest bonus per query character, and once more that bonus. -/
theorem C59_bound {d : FzfDistance} (h : Reachable U a m st) (hf : FuzzyFor q p) (hq : QueryOk U q) (hp : p.text ≠ [])
    (hd : Returns U m q s (some d)) :
    d.score ≤ (16 + topBonus st.scheme) * (p.text.length : Int) + topBonus st.scheme := by
  obtain ⟨x, hx, rfl⟩ := fuzzy_returns h hf hq hp hd
  have := eight_le_top st.scheme
  exact pure_le_top a (by omega) (posBonus_nonneg U st.scheme s) (posBonus_le_top U st.scheme s) hp hx

/-- **C59** for candidates that start with the query's text, if this starts with a letter or a delimiter: the score is the
largest possible. What is missing: digits, white space and symbols (`C59_false`). -/
theorem C59_start_partial {c : Char} (h : Reachable U a m st) (hf : FuzzyFor q p) (hq : QueryOk U q) (hp : p.text ≠ [])
    (ho : OccursAt (Cmp U st p.text) p.text s 0) (h0 : s[0]? = some c)
    (hc : classOf U st.scheme c ∈ [CharClass.lower, .upper, .letter, .delimiter]) :
    Returns U m q s (some ⟨(16 + topBonus st.scheme) * (p.text.length : Int) + topBonus st.scheme⟩) := by
  have h8 := eight_le_top st.scheme
  have hB := posBonus_start h0 hc
  rw [← fuzzyFor_rel hf hq] at ho
  obtain ⟨d, hd⟩ := fuzzy_exists h hf hq hp (alignment_range (occursAt_get ho))
  obtain ⟨x, hx, rfl⟩ := fuzzy_returns h hf hq hp hd
  have : x.2 = (16 + topBonus st.scheme) * (p.text.length : Int) + topBonus st.scheme := by
    cases a with
    | v1 => exact v1Result_start h8 (posBonus_le_top U st.scheme s) hp ho hB hx
    | v2 => exact v2Result_block h8 (posBonus_nonneg U st.scheme s) (posBonus_le_top U st.scheme s) hp ho hB hx
  rwa [this] at hd

/-- FzfV2 gives the largest possible score to every candidate in which the query's text occurs at a position with the largest
bonus, for instance at the start of a word (default scheme) or of a path component (path scheme). -/
theorem C59_word_v2 {i : Nat} (h : Reachable U .v2 m st) (hf : FuzzyFor q p) (hq : QueryOk U q) (hp : p.text ≠ [])
    (ho : OccursAt (Cmp U st p.text) p.text s i) (hi : posBonus U st.scheme s i = topBonus st.scheme) :
    Returns U m q s (some ⟨(16 + topBonus st.scheme) * (p.text.length : Int) + topBonus st.scheme⟩) := by
  have h8 := eight_le_top st.scheme
  rw [← fuzzyFor_rel hf hq] at ho
  obtain ⟨d, hd⟩ := fuzzy_exists h hf hq hp (alignment_range (occursAt_get ho))
  obtain ⟨x, hx, rfl⟩ := fuzzy_returns h hf hq hp hd
  have := v2Result_block h8 (posBonus_nonneg U st.scheme s) (posBonus_le_top U st.scheme s) hp ho hi hx
  rwa [this] at hd

/-- `barn` starts with `bar`; 88 is 26 per character and 10. -/
example : Returns Concrete.U (Concrete.metric .v1) (Concrete.parse "bar") "barn".toList (some ⟨88⟩) ∧
    (16 + topBonus .default) * ((3 : Nat) : Int) + topBonus .default = 88 ∧
    OccursAt (Cmp Concrete.U defaultSettings "bar".toList) "bar".toList "barn".toList 0 ∧
    classOf Concrete.U .default 'b' = .lower :=
  ⟨Concrete.returns (by decide +kernel), by decide,
    ⟨[], "bar".toList, "n".toList, rfl, rfl, .cons (.inl rfl) (.cons (.inl rfl) (.cons (.inl rfl) .nil))⟩, by decide⟩

/-- In `foob bar` the second `b` starts a word. -/
example : Returns Concrete.U (Concrete.metric .v2) (Concrete.parse "bar") "foob bar".toList (some ⟨88⟩) ∧
    OccursAt (Cmp Concrete.U defaultSettings "bar".toList) "bar".toList "foob bar".toList 5 ∧
    posBonus Concrete.U .default "foob bar".toList 5 = 10 :=
  ⟨Concrete.returns (by decide +kernel),
    ⟨"foob ".toList, "bar".toList, [], rfl, rfl, .cons (.inl rfl) (.cons (.inl rfl) (.cons (.inl rfl) .nil))⟩,
    by decide +kernel⟩

/-! ### Appended text -/

/-- **C60, full statement**: appending text to a candidate does not make it more distant from a fuzzy query. -/
def C60 : Prop :=
  ∀ (U : Unicode) (a : Algo) (m : Metric) (st : Settings) (q : FzfQuery) (p : Pattern) (s t : List Char)
    (d d' : FzfDistance), Reachable U a m st → FuzzyFor q p → QueryOk U q → p.text ≠ [] →
    Returns U m q s (some d) → Returns U m q (s ++ t) (some d') → d.score ≤ d'.score

/-- **C60 is false.** FzfV2 scores `ab` in `a a b` 61, in `a a bab` 59. -/
theorem C60_false : ¬ C60 := by
  intro h
  have := h Concrete.U .v2 (Concrete.metric .v2) defaultSettings (Concrete.parse "ab")
    (mkPattern Concrete.U false .fuzzy "ab".toList) "a a b".toList "ab".toList ⟨61⟩ ⟨59⟩ (Concrete.reachable ..)
    (.inl (by decide +kernel)) (Concrete.parsed _).ok (by decide) (Concrete.returns (by decide +kernel))
    (Concrete.returns (s := "a a bab") (by decide +kernel))
  exact absurd this (by decide)

/-- **C60** for FzfV1, with equality: appended text changes neither the distance nor the ranges. What is missing: FzfV2
(`C60_false`). -/
theorem C60_v1_partial {buf buf' : List Range} {d : FzfDistance} (h : Reachable U .v1 m st) (hf : FuzzyFor q p)
    (hq : QueryOk U q) (hp : p.text ≠ []) (hd : ReturnsRanges U m q s buf buf' (some d)) (t : List Char) :
    ReturnsRanges U m q (s ++ t) buf buf' (some d) := by
  rw [returnsRanges_iff h hq] at hd ⊢
  rw [result_fuzzy hf hp] at hd ⊢
  cases hx : pureOf .v1 (posBonus U st.scheme s) (st.eqOf p) p.text s with
  | none => rw [hx] at hd; simp at hd
  | some x =>
    rw [hx] at hd
    simp only [pureOf, v1Result, Option.map_eq_some_iff] at hx
    obtain ⟨g, hg, rfl⟩ := hx
    obtain ⟨_, _, _, _, _, ha, _⟩ := v1Align_some hp hg
    have h1 : pureOf .v1 (posBonus U st.scheme (s ++ t)) (st.eqOf p) p.text (s ++ t) =
        some (g, alignScore (posBonus U st.scheme s) g) := by
      simp only [pureOf, v1Result, v1Align_append hp t hg, Option.map_some, Option.some.injEq, Prod.mk.injEq, true_and]
      exact alignScore_congr fun i hi => posBonus_append U st.scheme s t (ha.lt_length i hi)
    have h2 : g.map (charRange (s ++ t)) = g.map (charRange s) :=
      List.map_congr_left fun i hi => charRange_append s t (ha.lt_length i hi)
    rw [h1]
    simp only [h2]
    exact hd

example : ReturnsRanges Concrete.U (Concrete.metric .v1) (Concrete.parse "ab") "xaxb".toList [] [⟨1, 2⟩, ⟨3, 4⟩]
      (some ⟨29⟩) ∧
    ReturnsRanges Concrete.U (Concrete.metric .v1) (Concrete.parse "ab") "xaxb ab".toList [] [⟨1, 2⟩, ⟨3, 4⟩]
      (some ⟨29⟩) :=
  ⟨Concrete.returnsRanges (by decide +kernel), Concrete.returnsRanges (by decide +kernel)⟩

/-- **C60** for FzfV2 up to a margin: appended text costs nothing for a query of one character, at most 2 for two, and for
each further character at most 1 less than the scheme's largest bonus. What is missing: the margin, which C60 does not allow,
but which `C60_sharp` shows to be the least for queries of up to four characters. -/
theorem C60_v2_margin_partial {d d' : FzfDistance} (h : Reachable U .v2 m st) (hf : FuzzyFor q p) (hq : QueryOk U q)
    (hp : p.text ≠ []) (hd : Returns U m q s (some d)) (hd' : Returns U m q (s ++ t) (some d')) :
    (p.text.length = 1 → d.score ≤ d'.score) ∧
      (2 ≤ p.text.length → d.score ≤ d'.score + 2 + (topBonus st.scheme - 1) * ((p.text.length : Int) - 2)) := by
  have h8 := eight_le_top st.scheme
  obtain ⟨x, hx, rfl⟩ := fuzzy_returns h hf hq hp hd
  obtain ⟨x', hx', rfl⟩ := fuzzy_returns h hf hq hp hd'
  have := v2Result_append (by omega) (posBonus_nonneg U st.scheme s) (posBonus_le_top U st.scheme s)
    (posBonus_nonneg U st.scheme (s ++ t)) (fun i hi => posBonus_append U st.scheme s t hi) hp hx hx'
  constructor
  · intro h1
    rw [h1] at this
    simp only [Nat.sub_self, Extends.drop] at this
    show (x.2 : Int) ≤ x'.2
    omega
  · intro h2
    rw [show p.text.length - 1 = (p.text.length - 2) + 1 by omega] at this
    simp only [Extends.drop] at this
    rw [show ((p.text.length - 2 : Nat) : Int) = (p.text.length : Int) - 2 by omega] at this
    show (x.2 : Int) ≤ x'.2 + 2 + _
    omega

/-- The margins of `C60_v2_margin_partial` are the least: queries of two, three and four characters lose all of 2, 11 and 20.
The query `b` loses nothing. -/
theorem C60_sharp : topBonus .default = 10 ∧
    (Returns Concrete.U (Concrete.metric .v2) (Concrete.parse "ab") "-bAa A-b bxx".toList (some ⟨59⟩) ∧
      Returns Concrete.U (Concrete.metric .v2) (Concrete.parse "ab") ("-bAa A-b bxx".toList ++ " b babB 1/".toList)
        (some ⟨59 - 2⟩)) ∧
    (Returns Concrete.U (Concrete.metric .v2) (Concrete.parse "abc") "aaB baABxb1ba bcX/XA".toList (some ⟨67⟩) ∧
      Returns Concrete.U (Concrete.metric .v2) (Concrete.parse "abc") ("aaB baABxb1ba bcX/XA".toList ++ "/aca/aAx".toList)
        (some ⟨67 - (2 + 9)⟩)) ∧
    (Returns Concrete.U (Concrete.metric .v2) (Concrete.parse "abcd") "bcAcbBCc1CAC BCDxbA".toList (some ⟨92⟩) ∧
      Returns Concrete.U (Concrete.metric .v2) (Concrete.parse "abcd")
        ("bcAcbBCc1CAC BCDxbA".toList ++ "dcCxbx1DdDBxcXxbbXbA".toList) (some ⟨92 - (2 + 9 + 9)⟩)) ∧
    Returns Concrete.U (Concrete.metric .v2) (Concrete.parse "b") "ab".toList (some ⟨16⟩) ∧
    Returns Concrete.U (Concrete.metric .v2) (Concrete.parse "b") ("ab".toList ++ " b".toList) (some ⟨36⟩) :=
  ⟨by decide,
    ⟨Concrete.returns (by decide +kernel), Concrete.returns (s := "-bAa A-b bxx b babB 1/") (by decide +kernel)⟩,
    ⟨Concrete.returns (by decide +kernel), Concrete.returns (s := "aaB baABxb1ba bcX/XA/aca/aAx") (by decide +kernel)⟩,
    ⟨Concrete.returns (by decide +kernel),
      Concrete.returns (s := "bcAcbBCc1CAC BCDxbAdcCxbx1DdDBxcXxbbXbA") (by decide +kernel)⟩,
    Concrete.returns (by decide +kernel), Concrete.returns (s := "ab b") (by decide +kernel)⟩

/-! ### The order of conditions -/

/-- **C61.** The order of a query's conditions does not change the distance. -/
theorem C61_conditions {cs cs' : List Condition} (h : Reachable U a m st) (hq : QueryOk U (.extended cs))
    (hp : cs.Perm cs') {d : Option FzfDistance} :
    Returns U m (.extended cs) s d ↔ Returns U m (.extended cs') s d := by
  have hq' : QueryOk U (.extended cs') := fun c hc => hq c (hp.mem_iff.mpr hc)
  rw [returns_iff h hq, returns_iff h hq', result_extended, result_extended, condsHit_perm hp]

/-- **C61.** The order of the alternatives of its conditions does not change whether a query matches. -/
theorem C61_alternatives {cs cs' : List Condition} (h : Reachable U a m st) (hq : QueryOk U (.extended cs))
    (hq' : QueryOk U (.extended cs')) (hp : List.Forall₂ List.Perm cs cs') :
    ∃ d d', Returns U m (.extended cs) s d ∧ Returns U m (.extended cs') s d' ∧ d.isSome = d'.isSome := by
  obtain ⟨d, h1, h2⟩ := decision h hq s
  obtain ⟨d', h3, h4⟩ := decision h hq' s
  refine ⟨d, d', h1, h3, Bool.eq_iff_iff.mpr ?_⟩
  rw [h2, h4]
  clear h1 h2 h3 h4 hq hq'
  simp only [QueryMatches]
  induction hp with
  | nil => simp
  | cons hc _ ih =>
    simp only [List.forall_mem_cons, ih]
    refine and_congr_left fun _ => ?_
    exact ⟨fun ⟨p, h1, h2⟩ => ⟨p, hc.mem_iff.mp h1, h2⟩, fun ⟨p, h1, h2⟩ => ⟨p, hc.mem_iff.mpr h1, h2⟩⟩

/-- **C61.** If in each condition the same alternatives match in any order, and not two different ones, distance and ranges are the same. -/
theorem C61_one {cs cs' : List Condition} {buf b : List Range} {d : Option FzfDistance} (h : Reachable U a m st)
    (hq : QueryOk U (.extended cs)) (hq' : QueryOk U (.extended cs')) (hp : List.Forall₂ (fun c c' => ∀ p, p ∈ c ↔ p ∈ c') cs cs')
    (hu : ∀ c ∈ cs, ∀ p ∈ c, ∀ p' ∈ c, PatternMatches U st p s → PatternMatches U st p' s → p = p') :
    (Returns U m (.extended cs) s d ↔ Returns U m (.extended cs') s d) ∧
      (ReturnsRanges U m (.extended cs) s buf b d ↔ ReturnsRanges U m (.extended cs') s buf b d) := by
  have key : condsHit U (pureOf a) st s cs = condsHit U (pureOf a) st s cs' := by
    clear h
    induction hp with
    | nil => rfl
    | @cons c c' cs cs' hc _ ih =>
      have hok := (hq c List.mem_cons_self).2
      have hok' := (hq' c' List.mem_cons_self).2
      have hcond : condHit U (pureOf a) st s c = condHit U (pureOf a) st s c' := by
        cases h1 : condHit U (pureOf a) st s c with
        | none =>
          cases h2 : condHit U (pureOf a) st s c' with
          | none => rfl
          | some y =>
            have hs : (condHit U (pureOf a) st s c').isSome = true := by rw [h2]; rfl
            obtain ⟨p, hp, hm⟩ := (condHit_isSome (accepts a) hok').mp hs
            have := (condHit_isSome (accepts a) hok).mpr ⟨p, (hc p).mpr hp, hm⟩
            rw [h1] at this
            cases this
        | some x =>
          cases h2 : condHit U (pureOf a) st s c' with
          | none =>
            have hs : (condHit U (pureOf a) st s c).isSome = true := by rw [h1]; rfl
            obtain ⟨p, hp, hm⟩ := (condHit_isSome (accepts a) hok).mp hs
            have := (condHit_isSome (accepts a) hok').mpr ⟨p, (hc p).mp hp, hm⟩
            rw [h2] at this
            cases this
          | some y =>
            unfold condHit at h1 h2
            obtain ⟨p, hp, hx⟩ := List.exists_of_findSome?_eq_some h1
            obtain ⟨p', hp', hy⟩ := List.exists_of_findSome?_eq_some h2
            have hm := (patHit_isSome (accepts a) (hok p hp)).mp (by rw [hx]; rfl)
            have hm' := (patHit_isSome (accepts a) (hok' p' hp')).mp (by rw [hy]; rfl)
            obtain rfl := hu c List.mem_cons_self p hp p' ((hc p').mpr hp') hm hm'
            rw [← hx, hy]
      rw [condsHit, condsHit, hcond, ih (fun c hc => hq c (List.mem_cons_of_mem _ hc)) (fun c hc => hq' c (List.mem_cons_of_mem _ hc))
        fun c hc => hu c (List.mem_cons_of_mem _ hc)]
  rw [returns_iff h hq, returns_iff h hq', returnsRanges_iff h hq, returnsRanges_iff h hq', result_extended, result_extended, key]
  exact ⟨Iff.rfl, Iff.rfl⟩

/-- `z | ab` and `ab | z` in `ab`, where only one alternative matches. -/
example : ReturnsRanges Concrete.U (Concrete.metric .v1) (Concrete.parse "ab | z") "ab".toList [] [⟨0, 2⟩] (some ⟨62⟩) ∧
    ReturnsRanges Concrete.U (Concrete.metric .v1) (Concrete.parse "z | ab") "ab".toList [] [⟨0, 2⟩] (some ⟨62⟩) ∧
    (∀ c ∈ [[mkPattern Concrete.U false .fuzzy "ab".toList, mkPattern Concrete.U false .fuzzy "z".toList]], ∀ p ∈ c, ∀ p' ∈ c,
      PatternMatches Concrete.U defaultSettings p "ab".toList → PatternMatches Concrete.U defaultSettings p' "ab".toList → p = p') := by
  refine ⟨Concrete.returnsRanges (by decide +kernel), Concrete.returnsRanges (by decide +kernel), ?_⟩
  have hz : ¬ PatternMatches Concrete.U defaultSettings (mkPattern Concrete.U false .fuzzy "z".toList) "ab".toList := by
    intro h
    have := (patHit_isSome (accepts .v1) (p := mkPattern Concrete.U false .fuzzy "z".toList) ⟨by decide, rfl⟩).mpr h
    revert this
    decide +kernel
  intro c hc p hp p' hp' h1 h2
  rw [List.mem_singleton] at hc
  subst hc
  simp only [List.mem_cons, List.not_mem_nil, or_false] at hp hp'
  rcases hp with rfl | rfl <;> rcases hp' with rfl | rfl <;> first | rfl | exact absurd h1 hz | exact absurd h2 hz

/-- Three conditions in two orders. -/
example : (∃ cs cs', Concrete.parse "ab ^x !z" = .extended cs ∧ Concrete.parse "!z ab ^x" = .extended cs' ∧ cs.Perm cs') ∧
    Returns Concrete.U (Concrete.metric .v1) (Concrete.parse "ab ^x !z") "xaab".toList (some ⟨72⟩) ∧
    Returns Concrete.U (Concrete.metric .v1) (Concrete.parse "!z ab ^x") "xaab".toList (some ⟨72⟩) := by
  exact ⟨⟨[[mkPattern Concrete.U false .fuzzy "ab".toList], [mkPattern Concrete.U false .prefixExact "x".toList],
      [mkPattern Concrete.U true .exact "z".toList]],
    [[mkPattern Concrete.U true .exact "z".toList], [mkPattern Concrete.U false .fuzzy "ab".toList],
      [mkPattern Concrete.U false .prefixExact "x".toList]], by decide +kernel, by decide +kernel, by decide +kernel⟩,
    Concrete.returns (by decide +kernel), Concrete.returns (by decide +kernel)⟩

/-- The first matching alternative determines the score: with the alternatives swapped it is another. -/
example : Returns Concrete.U (Concrete.metric .v1) (Concrete.parse "ab | b") "ab".toList (some ⟨62⟩) ∧
    Returns Concrete.U (Concrete.metric .v1) (Concrete.parse "b | ab") "ab".toList (some ⟨16⟩) :=
  ⟨Concrete.returns (by decide +kernel), Concrete.returns (by decide +kernel)⟩

end Norm.Props
