import Verif.Proofs.Relations
import Verif.Props.Concrete

/-!
# Panics, histories and the ranges buffer

Properties C12–C14, C25–C29, C39, C47 and C49. -/

namespace Norm.Props

open Spec

variable {U : Unicode} {a : Algo} {m : Metric} {st : Settings} {q : FzfQuery} {t : List Char}

/-! ### The two calls -/

/-- **C12.** `distance` and `distance_and_ranges` return the same value. -/
theorem C12_same_distance (h : Reachable U a m st) (hq : Parsed U t q ∨ ParsedRaw U t q) (s : List Char)
    (buf : List Range) : ∃ d buf', Returns U m q s d ∧ ReturnsRanges U m q s buf buf' d := by
  have hok : QueryOk U q := by rcases hq with h | h; exacts [h.ok, h.ok]
  exact ⟨_, _, (returns_iff h hok).mpr rfl, (returnsRanges_iff h hok).mpr ⟨rfl, rfl⟩⟩

example : Returns Concrete.U (Concrete.metric .v2) (Concrete.parse "ab c") "abcab".toList (some ⟨78⟩) ∧
    ReturnsRanges Concrete.U (Concrete.metric .v2) (Concrete.parse "ab c") "abcab".toList [⟨9, 9⟩]
      [⟨9, 9⟩, ⟨0, 3⟩] (some ⟨78⟩) :=
  ⟨Concrete.returns (by decide +kernel), Concrete.returnsRanges (by decide +kernel)⟩

/-- **C13.** `distance_and_ranges` only appends to the buffer. -/
theorem C13_append_only (h : Reachable U a m st) (hq : Parsed U t q ∨ ParsedRaw U t q) (s : List Char)
    (buf : List Range) : ∃ new d, ReturnsRanges U m q s buf (buf ++ new) d := by
  have hok : QueryOk U q := by rcases hq with h | h; exacts [h.ok, h.ok]
  exact ⟨_, _, (returnsRanges_iff h hok).mpr ⟨rfl, rfl⟩⟩

example : ReturnsRanges Concrete.U (Concrete.metric .v2) (Concrete.parse "b c") "cab".toList [⟨7, 8⟩]
    ([⟨7, 8⟩] ++ [⟨0, 1⟩, ⟨2, 3⟩]) (some ⟨52⟩) :=
  Concrete.returnsRanges (by decide +kernel)

/-- **C14, full statement.** -/
def C14 : Prop :=
  ∀ (U : Unicode) (a : Algo) (m : Metric) (st : Settings) (t : List Char) (q : FzfQuery),
    Reachable U a m st → Parsed U t q →
    ∀ s buf buf', ReturnsRanges U m q s buf buf' none → buf' = buf

/-- **C14 is false.** `a z` does not match `abx`, but the range of `a` is left in the buffer. -/
theorem C14_false : ¬ C14 := by
  intro h
  have h1 := h Concrete.U .v1 (Concrete.metric .v1) defaultSettings "a z".toList (Concrete.parse "a z")
    (Concrete.reachable ..) (Concrete.parsed _) "abx".toList [] [⟨0, 1⟩] (Concrete.returnsRanges (by decide +kernel))
  cases h1

/-- **C14** for non-extended queries and queries with at most one condition. What is missing: queries with several
conditions, for which the statement is false; `C14_leftover` says what they leave in the buffer. -/
theorem C14_none_untouched_partial (h : Reachable U a m st) (hq : QueryOk U q)
    (hone : ∀ cs, q = .extended cs → cs.length ≤ 1) (s : List Char) (buf buf' : List Range)
    (hd : ReturnsRanges U m q s buf buf' none) : buf' = buf := by
  obtain ⟨rfl, h2⟩ := (returnsRanges_iff h hq).mp hd
  have : (result U a st s q).1 = [] := by
    cases q with
    | notExtended p =>
      by_cases ht : p.text = []
      · simp [result, queryHit, FzfQuery.isEmpty, Pattern.isEmpty, ht]
      · rw [result_notExtended ht] at h2 ⊢
        cases hx : pureOf a (posBonus U st.scheme s) (st.eqOf p) p.text s with
        | none => rfl
        | some x => rw [hx] at h2; simp at h2
    | extended cs =>
      rw [result_extended] at h2 ⊢
      cases cs with
      | nil => rfl
      | cons c cs =>
        have : cs = [] := by
          have := hone _ rfl
          simpa using this
        subst this
        simp only [condsHit] at h2 ⊢
        cases hc : condHit U (pureOf a) st s c with
        | none => rfl
        | some x => rw [hc] at h2; simp at h2
  simp [this]

example : ReturnsRanges Concrete.U (Concrete.metric .v2) (Concrete.parse "ac | 'bd") "abe".toList [⟨3, 4⟩] [⟨3, 4⟩] none :=
  Concrete.returnsRanges (by decide +kernel)

/-- What a failing query leaves in the buffer: the ranges of the conditions before the first one that fails. -/
theorem C14_leftover (h : Reachable U a m st) {cs₁ cs₂ : List Condition} {c : Condition}
    (hq : QueryOk U (.extended (cs₁ ++ c :: cs₂))) (s : List Char) (buf : List Range)
    (h₁ : ∀ c ∈ cs₁, ∃ p ∈ c, PatternMatches U st p s) (h₂ : ∀ p ∈ c, ¬ PatternMatches U st p s) :
    ∃ buf' d, ReturnsRanges U m (.extended (cs₁ ++ c :: cs₂)) s buf buf' none ∧
      ReturnsRanges U m (.extended cs₁) s buf buf' (some d) := by
  have hq₁ : QueryOk U (.extended cs₁) := fun c hc => hq c (by simp [hc])
  have hc : condHit U (pureOf a) st s c = none := by
    have := condHit_isSome (st := st) (s := s) (accepts a) (hq c (by simp)).2
    cases hh : condHit U (pureOf a) st s c with
    | none => rfl
    | some x =>
      rw [hh] at this
      obtain ⟨p, hp, hp'⟩ := this.mp rfl
      exact absurd hp' (h₂ p hp)
  have key : ∀ cs₁ : List Condition, (condsHit U (pureOf a) st s (cs₁ ++ c :: cs₂)).1 = (condsHit U (pureOf a) st s cs₁).1 ∧
      (condsHit U (pureOf a) st s (cs₁ ++ c :: cs₂)).2 = none := by
    intro cs₁
    induction cs₁ with
    | nil => simp [condsHit, hc]
    | cons d cs₁ ih =>
      simp only [List.cons_append, condsHit]
      cases condHit U (pureOf a) st s d with
      | none => simp
      | some x => simp [ih]
  have hs := (result_isSome (a := a) (st := st) (s := s) hq₁).mpr h₁
  rw [result_extended] at hs
  obtain ⟨d, hd⟩ := Option.isSome_iff_exists.mp hs
  refine ⟨_, FzfDistance.fromScore d, (returnsRanges_iff h hq).mpr ⟨rfl, ?_⟩, (returnsRanges_iff h hq₁).mpr ⟨?_, ?_⟩⟩
  · rw [result_extended, (key cs₁).2]; rfl
  · rw [result_extended, result_extended, (key cs₁).1]
  · rw [result_extended, hd]; rfl

/-- `a 'b z y`: the range of `ab` is left. -/
example : (∃ c₁ c₂ c₃ c₄, Concrete.parse "a 'b z y" = .extended ([c₁, c₂] ++ c₃ :: [c₄]) ∧
      Concrete.parse "a 'b" = .extended [c₁, c₂]) ∧
    ReturnsRanges Concrete.U (Concrete.metric .v1) (Concrete.parse "a 'b z y") "xaby".toList [] [⟨1, 3⟩] none ∧
    ReturnsRanges Concrete.U (Concrete.metric .v1) (Concrete.parse "a 'b") "xaby".toList [] [⟨1, 3⟩] (some ⟨32⟩) :=
  ⟨⟨[mkPattern Concrete.U false .fuzzy ['a']], [mkPattern Concrete.U false .exact ['b']],
      [mkPattern Concrete.U false .fuzzy ['z']], [mkPattern Concrete.U false .fuzzy ['y']], by decide +kernel, by decide +kernel⟩,
    Concrete.returnsRanges (by decide +kernel), Concrete.returnsRanges (by decide +kernel)⟩

/-! ### No panics -/

/-- **C25.** `parse` returns for every string, in every parser state. -/
theorem C25_parse_total (U : Unicode) (P : FzfParser) (t : List Char) : ∃ P' q, P.parse U t = .ok (P', q) := by
  obtain ⟨P', _, h⟩ := FzfParser.parse_eq U P t
  exact ⟨P', _, h⟩

example : ((FzfParser.new.parse Concrete.U "a\\ b | c !d$ |".toList).mapR (fun x => (patterns x.2).map (·.text))) =
    .ok ["a b".toList, "c".toList, "d".toList] := by decide +kernel

/-- **C26, full statement.** -/
def C26 : Prop :=
  ∀ (U : Unicode) (P : FzfParser) (t : List Char), ReachableParser U P → ∃ P' q, P.parseNotExtended U t = .ok (P', q)

/-- **C26 is false.** A new parser panics on 65 characters: `parse_not_extended` does not grow its buffer. -/
theorem C26_false : ¬ C26 := by
  intro h
  obtain ⟨P', q, h1⟩ := h Concrete.U FzfParser.new (List.replicate 65 'a') .new
  rw [FzfParser.parseNotExtended_panic _ _ _ (by decide)] at h1
  cases h1

theorem reachableParser_chars {P : FzfParser} (h : ReachableParser U P) : 64 ≤ P.chars.length := by
  induction h with
  | new => decide
  | @parse P P' t q _ hp ih =>
    obtain ⟨P'', h1, h2⟩ := FzfParser.parse_eq U P t
    rw [h2] at hp; cases hp
    omega
  | @parseNotExtended P P' t q _ hp ih =>
    by_cases hl : t.length ≤ P.chars.length
    · obtain ⟨P'', h1, h2⟩ := FzfParser.parseNotExtended_ok U P t hl
      rw [h2] at hp; cases hp
      omega
    · rw [FzfParser.parseNotExtended_panic U P t (by omega)] at hp
      cases hp
  | unwound _ hu ih => exact Nat.le_trans ih hu.chars

/-- **C26** for queries of at most 64 characters, and for queries that are not longer (in characters) than the longest
one (in bytes) parsed before with `parse`. What is missing: longer queries, for which the statement is false. -/
theorem C26_parse_not_extended_partial {P : FzfParser} (h : ReachableParser U P) (t : List Char) :
    (t.length ≤ 64 → ∃ P' q, P.parseNotExtended U t = .ok (P', q)) ∧
    (∀ (P₀ : FzfParser) (t₀ : List Char) (q₀ : FzfQuery), P₀.parse U t₀ = .ok (P, q₀) → t.length ≤ byteLen t₀ → ∃ P' q, P.parseNotExtended U t = .ok (P', q)) := by
  have key : t.length ≤ P.chars.length → ∃ P' q, P.parseNotExtended U t = .ok (P', q) := by
    intro hl
    obtain ⟨P', _, h1⟩ := FzfParser.parseNotExtended_ok U P t hl
    exact ⟨P', _, h1⟩
  refine ⟨fun hl => key (Nat.le_trans hl (reachableParser_chars h)), ?_⟩
  intro P₀ t₀ q₀ hp hl
  obtain ⟨P'', h1, h2⟩ := FzfParser.parse_eq U P₀ t₀
  rw [h2] at hp; cases hp
  refine key ?_
  have := strLen_eq_byteLen t₀
  omega

/-- After parsing 100 characters, 80 can be parsed with `parse_not_extended`. -/
example : ∃ P₀ q₀ P' q, FzfParser.new.parse Concrete.U (List.replicate 100 'a') = .ok (P₀, q₀) ∧
    P₀.parseNotExtended Concrete.U (List.replicate 80 'b') = .ok (P', q) := by
  obtain ⟨P₀, q₀, h⟩ := C25_parse_total Concrete.U FzfParser.new (List.replicate 100 'a')
  obtain ⟨P', q, h'⟩ := (C26_parse_not_extended_partial (.parse .new h) (List.replicate 80 'b')).2 _ _ _ h (by decide +kernel)
  exact ⟨P₀, q₀, P', q, h, h'⟩

/-- Exactly when `parse_not_extended` panics. -/
theorem C26_panics_iff (U : Unicode) (P : FzfParser) (t : List Char) :
    P.parseNotExtended U t = .panic ↔ P.chars.length < t.length := by
  constructor
  · intro h
    by_contra hl
    obtain ⟨P', _, h1⟩ := FzfParser.parseNotExtended_ok U P t (by omega)
    rw [h1] at h; cases h
  · exact FzfParser.parseNotExtended_panic U P t

example : ((FzfParser.new.parseNotExtended Concrete.U "a | b".toList).mapR (fun x => (patterns x.2).map (·.text))) =
    .ok ["a | b".toList] := by decide +kernel

/-- **C27.** Every call on every reachable metric with every parsed query returns. -/
theorem C27_distance_total (h : Reachable U a m st) (hq : Parsed U t q ∨ ParsedRaw U t q) (s : List Char)
    (buf : List Range) : (∃ m' d, m.distance U q s = .ok (m', d) ∧ Reachable U a m' st) ∧
      (∃ m' buf' d, m.distanceAndRanges U q s buf = .ok (m', buf', d) ∧ Reachable U a m' st) := by
  have hok : QueryOk U q := by rcases hq with h | h; exacts [h.ok, h.ok]
  obtain ⟨m', h1, h2⟩ := call h hok s
  obtain ⟨m'', h3, h4⟩ := callR h hok s buf
  exact ⟨⟨m', _, h2, h1⟩, m'', _, _, h4, h3⟩

/-- Two calls in sequence on the same metric. -/
example : ∃ m' m'' d d' buf', (Concrete.metric .v2).distance Concrete.U (Concrete.parse "ab") "a b".toList = .ok (m', d) ∧
    m'.distanceAndRanges Concrete.U (Concrete.parse "x | äb$") "xäxb".toList [] = .ok (m'', buf', d') := by
  obtain ⟨⟨m', d, h1, h2⟩, _⟩ := C27_distance_total (Concrete.reachable .v2 ..) (Or.inl (Concrete.parsed "ab")) "a b".toList []
  obtain ⟨_, m'', buf', d', h3, _⟩ := C27_distance_total h2 (Or.inl (Concrete.parsed "x | äb$")) "xäxb".toList []
  exact ⟨m', m'', d, d', buf', h1, h3⟩

/-! ### Histories -/

/-- **C28.** The results depend on the settings, the query, the candidate and the buffer only. -/
theorem C28_history_independent {m₁ m₂ : Metric} (h₁ : Reachable U a m₁ st) (h₂ : Reachable U a m₂ st)
    (hq : Parsed U t q ∨ ParsedRaw U t q) (s : List Char) (buf : List Range) :
    ∃ d buf', Returns U m₁ q s d ∧ Returns U m₂ q s d ∧
      ReturnsRanges U m₁ q s buf buf' d ∧ ReturnsRanges U m₂ q s buf buf' d := by
  have hok : QueryOk U q := by rcases hq with h | h; exacts [h.ok, h.ok]
  exact ⟨_, _, (returns_iff h₁ hok).mpr rfl, (returns_iff h₂ hok).mpr rfl, (returnsRanges_iff h₁ hok).mpr ⟨rfl, rfl⟩,
    (returnsRanges_iff h₂ hok).mpr ⟨rfl, rfl⟩⟩

/-- A metric that has already been used, with settings equal to the defaults again. -/
example : ∃ m', Reachable Concrete.U .v2 m' defaultSettings ∧
    ∃ d buf', Returns Concrete.U m' (Concrete.parse "äb") "xäxb".toList d ∧
      Returns Concrete.U (Concrete.metric .v2) (Concrete.parse "äb") "xäxb".toList d ∧
      ReturnsRanges Concrete.U m' (Concrete.parse "äb") "xäxb".toList [] buf' d ∧
      ReturnsRanges Concrete.U (Concrete.metric .v2) (Concrete.parse "äb") "xäxb".toList [] buf' d := by
  obtain ⟨⟨m', d, h1, h2⟩, _⟩ := C27_distance_total (Concrete.reachable .v2 .sensitive true .path)
    (Or.inl (Concrete.parsed "long query")) "xxlong quxery".toList []
  have h3 : Reachable Concrete.U .v2 (((m'.setCaseSensitivity .smart).setCandidateNormalization false).setScoringScheme
    .default) defaultSettings := .setScoringScheme _ (.setCandidateNormalization _ (.setCaseSensitivity _ h2))
  exact ⟨_, h3, C28_history_independent h3 (Concrete.reachable ..) (Or.inl (Concrete.parsed _)) _ _⟩

/-- **C29.** The parsed query depends on the string only. -/
theorem C29_parse_history_independent {q₁ q₂ : FzfQuery} :
    (Parsed U t q₁ → Parsed U t q₂ → q₁ = q₂) ∧ (ParsedRaw U t q₁ → ParsedRaw U t q₂ → q₁ = q₂) :=
  ⟨fun h₁ h₂ => h₁.eq.trans h₂.eq.symm, fun h₁ h₂ => h₁.eq.trans h₂.eq.symm⟩

example : ∃ P' P'' q, ReachableParser Concrete.U P' ∧ P'.parse Concrete.U "x".toList = .ok (P'', q) ∧
    FzfParser.new ≠ P' := by
  obtain ⟨P', h1, h2⟩ := FzfParser.parse_eq Concrete.U FzfParser.new (List.replicate 100 'a')
  obtain ⟨P'', q, h3⟩ := C25_parse_total Concrete.U P' "x".toList
  refine ⟨P', P'', q, .parse .new h2, h3, ?_⟩
  intro h
  rw [← h] at h1
  revert h1
  decide +kernel

/-- **C49.** A metric behaves as a new one on which the last written settings have been set, in any order, and its settings are
determined. -/
theorem C49_last_write_wins (h : Reachable U a m st) :
    (∀ st', Reachable U a m st' → st' = st) ∧
    Reachable U a ((((Metric.new a).setScoringScheme st.scheme).setCandidateNormalization st.normalization).setCaseSensitivity
      st.caseSensitivity) st ∧
    ∀ q s buf, QueryOk U q → ∃ d buf', ReturnsRanges U m q s buf buf' d ∧
      ReturnsRanges U ((((Metric.new a).setScoringScheme st.scheme).setCandidateNormalization
        st.normalization).setCaseSensitivity st.caseSensitivity) q s buf buf' d := by
  have h2 : Reachable U a ((((Metric.new a).setScoringScheme st.scheme).setCandidateNormalization
      st.normalization).setCaseSensitivity st.caseSensitivity) st := by
    cases st
    exact .setCaseSensitivity _ (.setCandidateNormalization _ (.setScoringScheme _ (st := defaultSettings) .new))
  refine ⟨fun st' h' => (reachable_has h').2.unique (reachable_has h).2, h2, ?_⟩
  intro q s buf hok
  exact ⟨_, _, (returnsRanges_iff h hok).mpr ⟨rfl, rfl⟩, (returnsRanges_iff h2 hok).mpr ⟨rfl, rfl⟩⟩

/-- The settings matter: case sensitivity, normalization and the scheme each change some result. -/
example : Concrete.dist (Concrete.metric .v1) (Concrete.parse "a") "A" ≠
      Concrete.dist (Concrete.metric .v1 .sensitive) (Concrete.parse "a") "A" ∧
    Concrete.dist (Concrete.metric .v1) (Concrete.parse "a") "ä" ≠
      Concrete.dist (Concrete.metric .v1 .smart true) (Concrete.parse "a") "ä" ∧
    Concrete.dist (Concrete.metric .v1) (Concrete.parse "a") "/a" ≠
      Concrete.dist (Concrete.metric .v1 .smart false .history) (Concrete.parse "a") "/a" := by decide +kernel

/-! ### V1 and V2 on queries without fuzzy patterns -/

/-- **C47.** -/
theorem C47_no_fuzzy_same {m₁ m₂ : Metric} (h₁ : Reachable U .v1 m₁ st) (h₂ : Reachable U .v2 m₂ st)
    (hq : Parsed U t q) (hk : ∀ p ∈ patterns q, p.matchType ≠ .fuzzy) (s : List Char) (buf : List Range) :
    ∃ d buf', Returns U m₁ q s d ∧ Returns U m₂ q s d ∧
      ReturnsRanges U m₁ q s buf buf' d ∧ ReturnsRanges U m₂ q s buf buf' d := by
  have hok := hq.ok
  have hr : result U .v1 st s q = result U .v2 st s q := by
    cases q with
    | notExtended p => exact absurd (queryOk_upper hok).2 (hk p (by simp [patterns]))
    | extended cs =>
      rw [result_extended, result_extended]
      refine condsHit_congr fun c hc p hp => ?_
      have := hk p (by simp only [patterns, List.mem_flatten]; exact ⟨c, hc, hp⟩)
      unfold patHit rawHit
      cases hm : p.matchType <;> simp_all
  refine ⟨_, _, (returns_iff h₁ hok).mpr rfl, (returns_iff h₂ hok).mpr (by rw [hr]),
    (returnsRanges_iff h₁ hok).mpr ⟨rfl, rfl⟩, (returnsRanges_iff h₂ hok).mpr (by rw [hr]; exact ⟨rfl, rfl⟩)⟩

example : ∃ d buf', Returns Concrete.U (Concrete.metric .v1) (Concrete.parse "'b ^a !z | c$") "abc".toList d ∧
    Returns Concrete.U (Concrete.metric .v2) (Concrete.parse "'b ^a !z | c$") "abc".toList d ∧
    ReturnsRanges Concrete.U (Concrete.metric .v1) (Concrete.parse "'b ^a !z | c$") "abc".toList [] buf' d ∧
    ReturnsRanges Concrete.U (Concrete.metric .v2) (Concrete.parse "'b ^a !z | c$") "abc".toList [] buf' d :=
  C47_no_fuzzy_same (Concrete.reachable ..) (Concrete.reachable ..) (Concrete.parsed _) (by decide +kernel) _ _
example : ReturnsRanges Concrete.U (Concrete.metric .v1) (Concrete.parse "'b ^a !z | c$") "abc".toList []
    [⟨0, 2⟩] (some ⟨52⟩) := Concrete.returnsRanges (by decide +kernel)

/-! ### The ASCII fast path -/

/-- The body of `Fzf::distance` after the candidate has been converted (`/repo/src/metrics/fzf/fzf.rs:155-172`), for a
non-empty query. -/
def onCandidate {σ : Type} (U : Unicode) (I : FzfImpl σ) (R : Bool) (m : σ) (q : FzfQuery) (c : Candidate)
    (buf : List Range) : Res (σ × List Range × Option FzfDistance) := do
  let (m, ranges, s) ←
    match q with
    | .notExtended p => I.fuzzy R m p c (MatchedRanges.ofVec buf)
    | .extended cs => I.scoreConditions U R c cs m (MatchedRanges.ofVec buf) 0
  return (m, ranges.ranges, s.map FzfDistance.fromScore)

/-- `Fzf::distance` converts the candidate and runs `onCandidate`; ASCII candidates are converted to bytes. -/
theorem distance_onCandidate {σ : Type} (U : Unicode) (I : FzfImpl σ) (R : Bool) (m : σ) (q : FzfQuery)
    (s : List Char) (buf : List Range) (hq : q.isEmpty = false) :
    I.distance U R m q s buf =
      if strIsAscii s then onCandidate U I R m q (.ascii (strBytes s)) buf
      else I.allocChars m s >>= fun x => onCandidate U I R x.1 q (.unicode x.2) buf := by
  unfold FzfImpl.distance onCandidate
  rw [if_neg (by simp [hq])]
  dsimp only
  by_cases hs : strIsAscii s = true
  · rw [if_pos hs, if_pos hs]
    cases q <;> rfl
  · rw [if_neg hs, if_neg hs]
    cases q <;> cases I.allocChars m s <;> rfl

theorem onCandidate_eq {σ : Type} {I : FzfImpl σ} {has : σ → Settings → Prop} {pf : PureFuzzy}
    (hI : Refines U I has pf) (R : Bool) {m : σ} (hm : has m st) (hok : QueryOk U q) (hemp : q.isEmpty = false)
    {c : Candidate} (hwf : c.WF) (buf : List Range) :
    (onCandidate U I R m q c buf).mapR (·.2) =
      .ok (buf ++ (if R then insertAll [] (queryHit U pf st c.toChars q).1 else []),
        (queryHit U pf st c.toChars q).2.map FzfDistance.fromScore) := by
  have hbuf : MatchedRanges.ofVec buf = ⟨buf ++ [], buf.length⟩ := by simp [MatchedRanges.ofVec]
  have hqh : queryHit U pf st c.toChars q = match q with
      | .notExtended p =>
        (match pf (posBonus U st.scheme c.toChars) (st.eqOf p) p.text c.toChars with
        | none => ([], none)
        | some x => (x.1.map (charRange c.toChars), some x.2))
      | .extended cs => condsHit U pf st c.toChars cs := by
    unfold queryHit
    rw [if_neg (by simp [hemp])]
    cases q <;> rfl
  rw [hqh]
  unfold onCandidate
  rw [hbuf]
  cases q with
  | notExtended p =>
    have hp : p.text ≠ [] := by
      intro h; simp [FzfQuery.isEmpty, Pattern.isEmpty, h] at hemp
    obtain ⟨m', _, hf⟩ := hI.fuzzy R m st p c buf [] hm hp hwf sep_nil
    dsimp only
    rw [hf]
    cases pf (posBonus U st.scheme c.toChars) (st.eqOf p) p.text c.toChars <;> simp [Res.mapR]
  | extended cs =>
    obtain ⟨m', _, hf⟩ := scoreConditions_eq hI R hwf buf cs [] 0 m sep_nil hm (queryOk_nonEmpty hok)
    dsimp only
    rw [hf]
    simp [condsOut, Res.mapR]

/-- **C39, V1.** For an ASCII candidate the byte representation gives the result of the character representation. -/
theorem C39_ascii_path_v1 {m : FzfV1} (h : Reachable U .v1 (.v1 m) st) (hok : QueryOk U q) (hemp : q.isEmpty = false)
    (s : List Char) (hs : strIsAscii s = true) (R : Bool) (buf : List Range) :
    ∃ r, (onCandidate U (FzfV1.impl U) R m q (.ascii (strBytes s)) buf).mapR (·.2) = .ok r ∧
      (onCandidate U (FzfV1.impl U) R m q (.unicode s) buf).mapR (·.2) = .ok r := by
  obtain ⟨h1, h2⟩ := ascii_candidate hs
  have hm : m.Has st := (reachable_has h).2
  refine ⟨_, onCandidate_eq (FzfV1.refines U) R hm hok hemp h1 buf, ?_⟩
  rw [onCandidate_eq (FzfV1.refines U) R hm hok hemp (c := .unicode s) (by simp [Candidate.WF]) buf, h2]
  rfl

/-- **C39, V2.** -/
theorem C39_ascii_path_v2 {m : FzfV2} (h : Reachable U .v2 (.v2 m) st) (hok : QueryOk U q) (hemp : q.isEmpty = false)
    (s : List Char) (hs : strIsAscii s = true) (R : Bool) (buf : List Range) :
    ∃ r, (onCandidate U (FzfV2.impl U) R m q (.ascii (strBytes s)) buf).mapR (·.2) = .ok r ∧
      (onCandidate U (FzfV2.impl U) R m q (.unicode s) buf).mapR (·.2) = .ok r := by
  obtain ⟨h1, h2⟩ := ascii_candidate hs
  have hm : m.Has st := (reachable_has h).2
  refine ⟨_, onCandidate_eq (FzfV2.refines U) R hm hok hemp h1 buf, ?_⟩
  rw [onCandidate_eq (FzfV2.refines U) R hm hok hemp (c := .unicode s) (by simp [Candidate.WF]) buf, h2]
  rfl

example : ∃ r, (onCandidate Concrete.U (FzfV2.impl Concrete.U) true FzfV2.new (Concrete.parse "aB 'c")
      (.ascii (strBytes "xaBbc".toList)) []).mapR (·.2) = .ok r ∧
    (onCandidate Concrete.U (FzfV2.impl Concrete.U) true FzfV2.new (Concrete.parse "aB 'c") (.unicode "xaBbc".toList)
      []).mapR (·.2) = .ok r :=
  C39_ascii_path_v2 (st := defaultSettings) .new (Concrete.parsed _).ok (by decide +kernel) _ (by decide +kernel) _ _
example : ReturnsRanges Concrete.U (Concrete.metric .v2) (Concrete.parse "aB 'c") "xaBbc".toList []
    [⟨1, 3⟩, ⟨4, 5⟩] (some ⟨55⟩) := Concrete.returnsRanges (by decide +kernel)

end Norm.Props
