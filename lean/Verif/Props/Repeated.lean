import Verif.Proofs.Repeated
import Verif.Props.Concrete

/-!
# Queries that repeat a part of themselves

Properties C87 and C88: an alternative written twice, a condition written twice. -/

namespace Norm.Props

open Spec

variable {U : Unicode} {a : Algo} {m : Metric} {st : Settings} {q q' : FzfQuery} {t t' s w : List Char} {p : Pattern}
  {cs cs₁ cs₂ : List Condition} {c c₁ c₂ : Condition} {buf buf' new new₁ rs : List Range} {d d' : Option FzfDistance}

/-! ### Alternatives -/

private theorem same (h : Reachable U a m st) (hq : QueryOk U q) (hq' : QueryOk U q')
    (he : result U a st s q = result U a st s q') :
    (Returns U m q s d ↔ Returns U m q' s d) ∧ (ReturnsRanges U m q s buf buf' d ↔ ReturnsRanges U m q' s buf buf' d) := by
  rw [returns_iff h hq, returns_iff h hq', returnsRanges_iff h hq, returnsRanges_iff h hq', he]
  exact ⟨Iff.rfl, Iff.rfl⟩

/-- **C87, full statement.** A word `w` and the query `w | w` give the same results. -/
def C87 : Prop :=
  ∀ (U : Unicode) (a : Algo) (m : Metric) (st : Settings) (t t' w s : List Char) (q q' : FzfQuery) (buf buf' : List Range)
    (d : Option FzfDistance), Reachable U a m st → Parsed U t q → Parsed U t' q' → words t = [w] → words t' = [w, ['|'], w] →
    (ReturnsRanges U m q s buf buf' d ↔ ReturnsRanges U m q' s buf buf' d)

/-- **C87 is false.** `!'foo` accepts `xfoo`, `!'foo | !'foo` rejects it: the `!` of a word is ignored when it is alone and fuzzy. -/
theorem C87_false : ¬ C87 := by
  intro h
  have h1 := (h Concrete.U .v1 (Concrete.metric .v1) defaultSettings "!'foo".toList "!'foo | !'foo".toList "!'foo".toList
    "xfoo".toList (Concrete.parse "!'foo") (Concrete.parse "!'foo | !'foo") [] [⟨1, 4⟩] (some ⟨56⟩) (Concrete.reachable ..)
    (Concrete.parsed _) (Concrete.parsed _) (by decide +kernel) (by decide +kernel)).mp
      (Concrete.returnsRanges (by decide +kernel))
  have h2 : ReturnsRanges Concrete.U (Concrete.metric .v1) (Concrete.parse "!'foo | !'foo") "xfoo".toList [] [] none :=
    Concrete.returnsRanges (by decide +kernel)
  obtain ⟨_, h1⟩ := h1
  obtain ⟨_, h2⟩ := h2
  rw [h1] at h2
  cases h2

/-- **C87** for every word that does not start with `!'`. What is missing: the words for which it is false. -/
theorem C87_word_partial (h : Reachable U a m st) (hq : Parsed U t q) (hq' : Parsed U t' q') (hw : words t = [w])
    (hw' : words t' = [w, ['|'], w]) (hn : ¬ ['!', '\''] <+: w) :
    (Returns U m q s d ↔ Returns U m q' s d) ∧ (ReturnsRanges U m q s buf buf' d ↔ ReturnsRanges U m q' s buf buf' d) := by
  refine same h hq.ok hq'.ok ?_
  rw [hq.eq, hq'.eq]
  by_cases hb : w = ['|']
  · simp [query, tokens, hw, hw', hb, groups]
  cases hp : wordPattern U w with
  | none => simp [query, tokens, hw, hw', hb, hp, groups]
  | some p =>
    have h2 : query U t' = .extended [[p, p]] := by simp [query, tokens, hw', hb, hp, groups, collapse]
    have h3 : result U a st s (.extended [[p, p]]) = result U a st s (single p) := by
      rw [single, result_extended, result_extended]
      simp only [condsHit, condHit, List.findSome?_cons]
      cases patHit U (pureOf a) st s p <;> rfl
    rw [h2, h3]
    by_cases hk : p.matchType = .fuzzy
    · rw [query_one_fuzzy hw hb hp hk]
      obtain ⟨ht, hi⟩ := fuzzy_word hp hk hn
      rw [result_fuzzy (.inr ⟨rfl, hk, hi⟩) ht, result_fuzzy (.inl rfl) ht]
    · rw [query_one hw hp hk]

/-- `'foo` and `'foo | 'foo`. -/
example : ReturnsRanges Concrete.U (Concrete.metric .v1) (Concrete.parse "'foo") "xfoo".toList [] [⟨1, 4⟩] (some ⟨56⟩) ∧
    ReturnsRanges Concrete.U (Concrete.metric .v1) (Concrete.parse "'foo | 'foo") "xfoo".toList [] [⟨1, 4⟩] (some ⟨56⟩) :=
  have h := Concrete.returnsRanges (by decide +kernel)
  ⟨h, (C87_word_partial (t := "'foo".toList) (t' := "'foo | 'foo".toList) (w := "'foo".toList) (d := some ⟨56⟩)
    (Concrete.reachable ..) (Concrete.parsed _) (Concrete.parsed _) (by decide +kernel) (by decide +kernel) (by decide)).2.mp h⟩

/-- **C87**, the words for which it is false, those of a negated fuzzy pattern: for every candidate `w` and `w | w` give opposite answers. -/
theorem C87_opposite (h : Reachable U a m st) (hq : Parsed U t q) (hq' : Parsed U t' q') (hw : words t = [w])
    (hw' : words t' = [w, ['|'], w]) (hp : wordPattern U w = some p) (hi : p.isInverse = true) (hk : p.matchType = .fuzzy)
    (hd : Returns U m q s d) (hd' : Returns U m q' s d') : d.isSome = !d'.isSome := by
  have hb : w ≠ ['|'] := by
    rintro rfl
    rw [show wordPattern U ['|'] = some (mkPattern U false .fuzzy ['|']) from rfl] at hp
    rw [← Option.some.inj hp] at hi
    cases hi
  have ht : p.text ≠ [] := by
    simp only [wordPattern] at hp
    split at hp
    · cases hp
    · rename_i hne
      rw [← Option.some.inj hp]
      exact hne
  have e1 : q = .notExtended p := by rw [hq.eq]; exact query_one_fuzzy hw hb hp hk
  have e2 : q' = .extended [[p, p]] := by rw [hq'.eq]; simp [query, tokens, hw', hb, hp, groups, collapse]
  obtain ⟨e, h1, h2⟩ := decision h hq.ok s
  obtain ⟨e', h3, h4⟩ := decision h hq'.ok s
  obtain ⟨_, hd⟩ := hd
  obtain ⟨_, hd'⟩ := hd'
  obtain ⟨_, h1⟩ := h1
  obtain ⟨_, h3⟩ := h3
  rw [hd] at h1
  rw [hd'] at h3
  cases h1
  cases h3
  rw [e1] at h2
  rw [e2] at h4
  simp only [QueryMatches, ht, false_or] at h2
  simp only [QueryMatches, PatternMatches, forall_eq, List.mem_cons, List.not_mem_nil, or_false, or_self,
    exists_eq_left, hi, if_true] at h4
  cases hx : d.isSome <;> cases hy : d'.isSome <;> simp_all

/-- `!'foo` and `!'foo | !'foo`. -/
example : (wordPattern Concrete.U "!'foo".toList).any (fun p => p.isInverse && decide (p.matchType = .fuzzy)) = true ∧
    Returns Concrete.U (Concrete.metric .v2) (Concrete.parse "!'foo") "xfoo".toList (some ⟨56⟩) ∧
    Returns Concrete.U (Concrete.metric .v2) (Concrete.parse "!'foo | !'foo") "xfoo".toList none ∧
    Returns Concrete.U (Concrete.metric .v2) (Concrete.parse "!'foo") "of".toList none ∧
    Returns Concrete.U (Concrete.metric .v2) (Concrete.parse "!'foo | !'foo") "of".toList (some ⟨0⟩) :=
  ⟨by decide +kernel, Concrete.returns (by decide +kernel), Concrete.returns (by decide +kernel),
    Concrete.returns (by decide +kernel), Concrete.returns (by decide +kernel)⟩

/-- **C87**, for any query: an alternative `p` that matches only candidates that some alternative before it matches can be left out. -/
theorem C87_alternative (h : Reachable U a m st) (hq : QueryOk U (.extended (cs₁ ++ (c₁ ++ p :: c₂) :: cs₂)))
    (hp : PatternMatches U st p s → ∃ x ∈ c₁, PatternMatches U st x s) (hne : c₁ ++ c₂ ≠ []) :
    (Returns U m (.extended (cs₁ ++ (c₁ ++ p :: c₂) :: cs₂)) s d ↔ Returns U m (.extended (cs₁ ++ (c₁ ++ c₂) :: cs₂)) s d) ∧
    (ReturnsRanges U m (.extended (cs₁ ++ (c₁ ++ p :: c₂) :: cs₂)) s buf buf' d ↔
      ReturnsRanges U m (.extended (cs₁ ++ (c₁ ++ c₂) :: cs₂)) s buf buf' d) := by
  have hc := hq (c₁ ++ p :: c₂) (by simp)
  refine same h hq ?_ ?_
  · intro c' hc'
    simp only [List.mem_append, List.mem_cons] at hc'
    rcases hc' with hc' | rfl | hc'
    · exact hq c' (by simp [hc'])
    · exact ⟨hne, fun x hx => hc.2 x (by simp only [List.mem_append, List.mem_cons] at hx ⊢; tauto)⟩
    · exact hq c' (by simp [hc'])
  · rw [result_extended, result_extended]
    exact condsHit_replace (condHit_drop (fun x hx => hc.2 x (by simp [hx])) (hc.2 p (by simp)) hp)

/-- **C87**, for any query: only the first of several equal alternatives of a condition counts. -/
theorem C87_repeated (h : Reachable U a m st) (hq : QueryOk U (.extended (cs₁ ++ (c₁ ++ p :: c₂) :: cs₂))) (hp : p ∈ c₁) :
    (Returns U m (.extended (cs₁ ++ (c₁ ++ p :: c₂) :: cs₂)) s d ↔ Returns U m (.extended (cs₁ ++ (c₁ ++ c₂) :: cs₂)) s d) ∧
    (ReturnsRanges U m (.extended (cs₁ ++ (c₁ ++ p :: c₂) :: cs₂)) s buf buf' d ↔
      ReturnsRanges U m (.extended (cs₁ ++ (c₁ ++ c₂) :: cs₂)) s buf buf' d) :=
  C87_alternative h hq (fun hm => ⟨p, hp, hm⟩) (fun he => by simp [(List.append_eq_nil_iff.mp he).1] at hp)

/-- `foo | ^x | foo` against `foo | ^x`, in a candidate that `foo` matches. -/
example : Concrete.parse "foo | ^x | foo" = .extended ([] ++ (([mkPattern Concrete.U false .fuzzy "foo".toList,
      mkPattern Concrete.U false .prefixExact "x".toList] ++ mkPattern Concrete.U false .fuzzy "foo".toList :: []) :: [])) ∧
    ReturnsRanges Concrete.U (Concrete.metric .v2) (Concrete.parse "foo | ^x | foo") "xfo_o".toList [] [⟨1, 3⟩, ⟨4, 5⟩]
      (some ⟨57⟩) ∧
    ReturnsRanges Concrete.U (Concrete.metric .v2) (Concrete.parse "foo | ^x") "xfo_o".toList [] [⟨1, 3⟩, ⟨4, 5⟩]
      (some ⟨57⟩) :=
  ⟨by decide +kernel, Concrete.returnsRanges (by decide +kernel), Concrete.returnsRanges (by decide +kernel)⟩

/-! ### Conditions -/

/-- **C88, full statement.** A condition written once more leaves the decision and the highlighted bytes as they are, and adds to the
distance what the condition alone is worth. -/
def C88 : Prop :=
  ∀ (U : Unicode) (a : Algo) (m : Metric) (st : Settings) (cs : List Condition) (c : Condition) (s : List Char)
    (new new₁ rs : List Range) (d d₁ x : Option FzfDistance), Reachable U a m st → QueryOk U (.extended cs) → c ∈ cs →
    ReturnsRanges U m (.extended cs) s [] new₁ d₁ → ReturnsRanges U m (.extended [c]) s [] rs x →
    ReturnsRanges U m (.extended (cs ++ [c])) s [] new d →
    (d₁ = none → d = none) ∧ (∀ e, d₁ = some e → ∃ y, x = some y ∧ d = some ⟨e.score + y.score⟩) ∧ new = new₁

/-- **C88 is false.** `'b 'd ^abcde` highlights `ab` and `d` of `abcde`, with `^abcde` written once more `abcd`. -/
theorem C88_false : ¬ C88 := by
  intro h
  have h1 := (h Concrete.U .v2 (Concrete.metric .v2) defaultSettings
    [[mkPattern Concrete.U false .exact "b".toList], [mkPattern Concrete.U false .exact "d".toList],
      [mkPattern Concrete.U false .prefixExact "abcde".toList]] [mkPattern Concrete.U false .prefixExact "abcde".toList]
    "abcde".toList [⟨0, 4⟩] [⟨0, 2⟩, ⟨3, 4⟩] [⟨0, 5⟩] (some ⟨312⟩) (some ⟨172⟩) (some ⟨140⟩) (Concrete.reachable ..)
    (Concrete.queryOk (by decide +kernel)) (by simp) (Concrete.returnsRanges (by decide +kernel))
    (Concrete.returnsRanges (by decide +kernel)) (Concrete.returnsRanges (by decide +kernel))).2.2
  cases h1

/-- The parser produces those queries. -/
example : Concrete.parse "'b 'd ^abcde" = .extended
    [[mkPattern Concrete.U false .exact "b".toList], [mkPattern Concrete.U false .exact "d".toList],
      [mkPattern Concrete.U false .prefixExact "abcde".toList]] := by decide +kernel

/-- **C88**, the distance. -/
theorem C88_distance (h : Reachable U a m st) (hq : QueryOk U (.extended cs)) (hc : c ∈ cs) {d₁ x : Option FzfDistance}
    (h₁ : Returns U m (.extended cs) s d₁) (hx : Returns U m (.extended [c]) s x) (hd : Returns U m (.extended (cs ++ [c])) s d) :
    (d₁ = none → d = none) ∧ (∀ e, d₁ = some e → ∃ y, x = some y ∧ d = some ⟨e.score + y.score⟩) := by
  have hq₂ : QueryOk U (.extended (cs ++ [c])) := by
    intro c' hc'
    rcases List.mem_append.mp hc' with hc' | hc'
    · exact hq c' hc'
    · rw [List.mem_singleton] at hc'; exact hc' ▸ hq c hc
  have hq₁ : QueryOk U (.extended [c]) := fun c' hc' => by rw [List.mem_singleton] at hc'; exact hc' ▸ hq c hc
  rw [returns_iff h hq, result_extended] at h₁
  rw [returns_iff h hq₁, result_extended] at hx
  rw [returns_iff h hq₂, result_extended] at hd
  constructor
  · intro he
    have h0 : (condsHit U (pureOf a) st s cs).2 = none := by
      rw [he] at h₁
      exact Option.map_eq_none_iff.mp h₁.symm
    rw [hd, condsHit_again h0, h0]
    rfl
  · intro e he
    rw [he] at h₁
    obtain ⟨z, hz, rfl⟩ := Option.map_eq_some_iff.mp h₁.symm
    have hs : (condsHit U (pureOf a) st s cs).2.isSome = true := by rw [hz]; rfl
    obtain ⟨y, hy⟩ := Option.isSome_iff_exists.mp (condsHit_member hc hs)
    have h1 : condsHit U (pureOf a) st s [c] = (y.1, some y.2) := by simp [condsHit, hy]
    rw [condsHit_append hs, h1, hz] at hd
    rw [h1] at hx
    exact ⟨_, hx, hd⟩

/-- **C88**, the highlighted bytes, for any further condition: nothing changes if and only if everything that the further condition
highlights alone is highlighted without it. -/
theorem C88_highlights (h : Reachable U a m st) (hq : QueryOk U (.extended (cs ++ [c]))) {d₁ : FzfDistance}
    (h₁ : ReturnsRanges U m (.extended cs) s [] new₁ (some d₁)) (hr : ReturnsRanges U m (.extended [c]) s [] rs d')
    (hd : ReturnsRanges U m (.extended (cs ++ [c])) s [] new d) :
    new = new₁ ↔ ∀ b, Covers rs b → Covers new₁ b := by
  have hq₀ : QueryOk U (.extended cs) := fun c hc => hq c (by simp [hc])
  have hq₁ : QueryOk U (.extended [c]) := fun c' hc' => hq c' (List.mem_append_right _ hc')
  have hcok : ∀ p ∈ c, PatternOk U p := (hq c (by simp)).2
  obtain ⟨rfl, _⟩ := (returnsRanges_iff h hq).mp hd
  obtain ⟨rfl, hs⟩ := (returnsRanges_iff h hq₀).mp h₁
  obtain ⟨rfl, _⟩ := (returnsRanges_iff h hq₁).mp hr
  have hsome : (condsHit U (pureOf a) st s cs).2.isSome = true := by
    rw [result_extended] at hs
    cases hx : (condsHit U (pureOf a) st s cs).2 with
    | none => rw [hx] at hs; simp at hs
    | some x => rfl
  have hsl : ∀ r ∈ (condsHit U (pureOf a) st s cs).1, Slice s r :=
    condsHit_slice (fun c hc p hp => ((hq₀ c hc).2 p hp).1)
  have hsep : Sep (insertAll [] (condsHit U (pureOf a) st s cs).1) :=
    sep_insertAll sep_nil (fun r hr => (hsl r hr).lt)
  have hsl' := insertAll_slice sep_nil (by simp) hsl
  simp only [List.nil_append, covers_def, result_extended, condsHit_append hsome, insertAll_append]
  cases hc : condHit U (pureOf a) st s c with
  | none =>
    have h1 : condsHit U (pureOf a) st s [c] = ([], none) := by simp [condsHit, hc]
    rw [h1]
    simp
  | some x =>
    have h1 : condsHit U (pureOf a) st s [c] = (x.1, some x.2) := by simp [condsHit, hc]
    obtain ⟨p, hpc, hx⟩ := List.exists_of_findSome?_eq_some hc
    rw [h1, insertAll_patHit (hcok p hpc).1 hx hsep hsl']
    simp only [patHit_alone (hcok p hpc).1 hx]

/-- **C88**, the highlighted bytes, when the condition is the first one of the query or is matched by an alternative that is fuzzy or
negated. What is missing: the other conditions, for which C88 is false; for them C88_highlights says when the highlighted bytes change. -/
theorem C88_highlights_partial (h : Reachable U a m st) (hq : QueryOk U (.extended cs)) {d₁ : FzfDistance}
    (hc : cs.head? = some c ∨ (c ∈ cs ∧ ∃ p, FirstMatch U st s c p ∧ (p.isInverse = true ∨ p.matchType = .fuzzy)))
    (h₁ : ReturnsRanges U m (.extended cs) s [] new₁ (some d₁)) (hd : ReturnsRanges U m (.extended (cs ++ [c])) s [] new d) :
    new = new₁ := by
  have hmem : c ∈ cs := hc.elim List.mem_of_mem_head? (·.1)
  have hq₂ : QueryOk U (.extended (cs ++ [c])) := by
    intro c' hc'
    rcases List.mem_append.mp hc' with hc' | hc'
    · exact hq c' hc'
    · rw [List.mem_singleton] at hc'; exact hc' ▸ hq c hmem
  have hq₁ : QueryOk U (.extended [c]) := fun c' hc' => hq₂ c' (List.mem_append_right _ hc')
  obtain ⟨m', _, hr⟩ := callR h hq₁ s []
  refine (C88_highlights h hq₂ h₁ ⟨m', hr⟩ hd).mpr ?_
  obtain ⟨rfl, hs⟩ := (returnsRanges_iff h hq).mp h₁
  have hsome : (condsHit U (pureOf a) st s cs).2.isSome = true := by
    rw [result_extended] at hs
    cases hx : (condsHit U (pureOf a) st s cs).2 with
    | none => rw [hx] at hs; simp at hs
    | some x => rfl
  have hcok : ∀ p ∈ c, PatternOk U p := (hq c hmem).2
  have hsl : ∀ r ∈ (condsHit U (pureOf a) st s cs).1, Slice s r :=
    condsHit_slice (fun c hc p hp => ((hq c hc).2 p hp).1)
  obtain ⟨x, hx⟩ := Option.isSome_iff_exists.mp (condsHit_member hmem hsome)
  have h1 : condsHit U (pureOf a) st s [c] = (x.1, some x.2) := by simp [condsHit, hx]
  obtain ⟨p, hpc, hpx⟩ := List.exists_of_findSome?_eq_some hx
  have hxs := patHit_slice (hcok p hpc).1 hpx
  intro b
  simp only [List.nil_append, covers_def, result_extended, h1, patHit_alone (hcok p hpc).1 hpx]
  intro hb
  rcases hc with hc | ⟨_, p', hf, hk⟩
  · obtain ⟨cs', rfl⟩ : ∃ cs', cs = c :: cs' := by
      cases cs with
      | nil => simp at hc
      | cons y cs' => exact ⟨cs', by simp only [List.head?_cons, Option.some.injEq] at hc; rw [hc]⟩
    simp only [condsHit, hx, insertAll_append] at hsl ⊢
    exact insertAll_mono (sep_insertAll sep_nil fun r hr => (hxs r hr).lt) (fun r hr => (hsl r (by simp [hr])).lt)
      ((patHit_alone (hcok p hpc).1 hpx).mpr hb)
  · obtain ⟨y, hy, hy'⟩ := firstMatch_hit (a := a) hcok hf
    rw [hx] at hy'
    obtain rfl := Option.some.inj hy'
    rcases patHit_shape (hcok p' hf.mem).1 hy with ⟨_, h2⟩ | ⟨_, _, is, h2, h3⟩ | ⟨h2, h3, _⟩
    · rw [h2] at hb; simp at hb
    · obtain ⟨l₁, l₂, rfl⟩ := List.append_of_mem hmem
      have h4 := condsHit_prefix hsome
      simp only [condsHit_append h4, condsHit, hx, insertAll_append] at hsl ⊢
      have h5 : Sep (insertAll [] (condsHit U (pureOf a) st s l₁).1) :=
        sep_insertAll sep_nil fun r hr => (hsl r (by simp [hr])).lt
      refine insertAll_mono (sep_insertAll h5 fun r hr => (hxs r hr).lt) (fun r hr => (hsl r (by simp [hr])).lt) ?_
      rw [h3, insertAll_chars h5 (insertAll_slice sep_nil (by simp) fun r hr => hsl r (by simp [hr])) h2]
      rw [h3, covered_chars] at hb
      exact .inr hb
    · rcases hk with hk | hk
      · rw [hk] at h2; cases h2
      · exact absurd hk h3

/-- `ab c | 'd` and `ab c | 'd ab` in `xaby_d`: the first condition written once more. -/
example : ReturnsRanges Concrete.U (Concrete.metric .v2) (Concrete.parse "ab c | 'd") "xaby_d".toList []
      [⟨1, 3⟩, ⟨5, 6⟩] (some ⟨68⟩) ∧
    ReturnsRanges Concrete.U (Concrete.metric .v2) (Concrete.parse "ab") "xaby_d".toList [] [⟨1, 3⟩] (some ⟨36⟩) ∧
    ReturnsRanges Concrete.U (Concrete.metric .v2) (Concrete.parse "ab c | 'd ab") "xaby_d".toList []
      [⟨1, 3⟩, ⟨5, 6⟩] (some ⟨104⟩) :=
  ⟨Concrete.returnsRanges (by decide +kernel), Concrete.returnsRanges (by decide +kernel),
    Concrete.returnsRanges (by decide +kernel)⟩

end Norm.Props
