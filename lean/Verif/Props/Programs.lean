import Verif.Proofs.Typing
import Verif.Props.Decision
import Verif.Props.Ranges
import Verif.Props.State

/-!
# Programs that use the API

Properties C73–C75: the fuzz target, and searching a list as in the example and the documentation. -/

namespace Norm.Props

open Spec

variable {U : Unicode} {a : Algo} {m : Metric} {st : Settings} {q q' : FzfQuery} {s t : List Char}

/-! ### The fuzz target -/

theorem fuzzHalf_ok (h : Reachable U a m st) (hq : Parsed U t q) (o : CaseSensitivity × Bool × FzfScheme)
    {buf : List Range} (hb : ∀ r ∈ buf, IsSlice s r) :
    ∃ m' st' buf', Reachable U a m' st' ∧ (∀ r ∈ buf', IsSlice s r) ∧ fuzzHalf U q s o m buf = .ok (m', buf') := by
  have h' := ((h.setCandidateNormalization o.2.1).setCaseSensitivity o.1).setScoringScheme o.2.2
  obtain ⟨_, m', buf', d, h1, h2⟩ := C27_distance_total h' (Or.inl hq) s buf
  have hs : ∀ r ∈ buf', IsSlice s r := by
    obtain ⟨new, rfl, hn⟩ := C16_slices h' hq.ok ⟨m', h1⟩
    intro r hr
    rcases List.mem_append.mp hr with hr | hr
    · exact hb r hr
    · exact (hn r hr).2.2
  refine ⟨m', _, buf', h2, hs, ?_⟩
  rw [fuzzHalf]
  simp only [h1, Res.bind_ok, sliceAll_ok hs, Res.pure_def]

theorem fuzzLoop_ok (hq : Parsed U t q) (os : List (CaseSensitivity × Bool × FzfScheme)) {a₁ a₂ : Algo}
    {m₁ m₂ : Metric} {st₁ st₂ : Settings} (h₁ : Reachable U a₁ m₁ st₁) (h₂ : Reachable U a₂ m₂ st₂)
    {buf : List Range} (hb : ∀ r ∈ buf, IsSlice s r) :
    ∃ buf', (∀ r ∈ buf', IsSlice s r) ∧ fuzzLoop U q s os m₁ m₂ buf = .ok buf' := by
  induction os generalizing m₁ m₂ st₁ st₂ buf with
  | nil => exact ⟨buf, hb, rfl⟩
  | cons o os ih =>
    obtain ⟨_, _, _, h3, hb', e1⟩ := fuzzHalf_ok h₁ hq o hb
    obtain ⟨_, _, _, h4, hb'', e2⟩ := fuzzHalf_ok h₂ hq o hb'
    obtain ⟨buf', hb3, e3⟩ := ih h3 h4 hb''
    refine ⟨buf', hb3, ?_⟩
    rw [fuzzLoop, e1, Res.bind_ok]
    simp only [e2, Res.bind_ok, e3]

/-- **C73.** The fuzz target finds nothing: for every query string and every candidate it runs to its end without a
panic. It goes through the settings on the same two metrics, appends to the same buffer, and slices the candidate with
every range in the buffer after every call. -/
theorem C73_fuzz (U : Unicode) (query candidate : List Char) : ∃ ranges, fuzzTarget U query candidate = .ok ranges := by
  obtain ⟨P', q, h⟩ := C25_parse_total U .new query
  obtain ⟨buf', _, e⟩ := fuzzLoop_ok (s := candidate) ⟨_, P', .new, h⟩ fuzzOptions
    (Reachable.new (U := U) (a := .v1)) (Reachable.new (U := U) (a := .v2)) (buf := []) (by simp)
  refine ⟨buf', ?_⟩
  rw [fuzzTarget, h, Res.bind_ok]
  exact e

/-- The query has an uppercase letter, so the candidate matches under the six settings that ignore the case. -/
example : (fuzzTarget Concrete.U "Ab".toList "aäb".toList).mapR List.length = .ok 20 := by decide +kernel

/-! ### Searching a list -/

/-- **C74.** A search returns the candidates that match, the best first. -/
theorem C74_search (h : Reachable U a m st) (hq : Parsed U t q ∨ ParsedRaw U t q) (l : List (List Char)) :
    ∃ m' r, Reachable U a m' st ∧ searchList U q l m = .ok (m', r) ∧ SearchResult U a st q l r := by
  have hok : QueryOk U q := by rcases hq with h | h; exacts [h.ok, h.ok]
  obtain ⟨r, hr⟩ := hits_exists (a := a) (st := st) hok l
  obtain ⟨m', h1, h2⟩ := filterList_hits h hok hr
  refine ⟨m', sortByDistance r, h1, ?_, ⟨r, hr, sortByDistance_perm r, sortByDistance_filter r⟩,
    sortByDistance_sorted r⟩
  rw [searchList, h2, Res.bind_ok]
  rfl

/-- The results of a search are determined by the query, the list and the settings. -/
theorem C74_unique {l : List (List Char)} {r r' : List (List Char × FzfDistance)} (h : SearchResult U a st q l r)
    (h' : SearchResult U a st q l r') : r = r' := by
  obtain ⟨⟨x, hx, _, e⟩, hs⟩ := h
  obtain ⟨⟨x', hx', _, e'⟩, hs'⟩ := h'
  cases hits_unique hx hx'
  exact sorted_ext hs hs' (fun d => (e d).trans (e' d).symm)

/-- What was searched for before, and where, does not matter. -/
theorem C74_history {m₁ m₂ m₁' m₂' : Metric} (h₁ : Reachable U a m₁ st) (h₂ : Reachable U a m₂ st)
    (hq : Parsed U t q ∨ ParsedRaw U t q) (l : List (List Char)) {r₁ r₂ : List (List Char × FzfDistance)}
    (e₁ : searchList U q l m₁ = .ok (m₁', r₁)) (e₂ : searchList U q l m₂ = .ok (m₂', r₂)) : r₁ = r₂ := by
  obtain ⟨_, _, _, e, hr₁⟩ := C74_search h₁ hq l
  rw [e] at e₁; cases e₁
  obtain ⟨_, _, _, e, hr₂⟩ := C74_search h₂ hq l
  rw [e] at e₂; cases e₂
  exact C74_unique hr₁ hr₂

/-- The order of the list matters for candidates with equal scores only: permuting the list permutes the results, and
the scores are the same at every place. -/
theorem C74_permutation {l l' : List (List Char)} (hl : l.Perm l') {r r' : List (List Char × FzfDistance)}
    (h : SearchResult U a st q l r) (h' : SearchResult U a st q l' r') : r.Perm r' ∧ r.map (·.2) = r'.map (·.2) := by
  obtain ⟨⟨x, hx, hp, _⟩, hs⟩ := h
  obtain ⟨⟨x', hx', hp', _⟩, hs'⟩ := h'
  have hr : r.Perm r' := hp.trans ((hits_perm hl hx hx').trans hp'.symm)
  exact ⟨hr, scores_ext hr hs hs'⟩

/-- The example of the repository, `examples/cities.rs`. -/
example : (searchList Concrete.U (Concrete.parse "aa")
    ["Geneva".toList, "Ulaanbaatar".toList, "New York City".toList, "Adelaide".toList] (.new .v2)).mapR
      (fun x => x.2.map (·.1)) = .ok ["Adelaide".toList, "Ulaanbaatar".toList] := by decide +kernel

/-- Two candidates with equal scores stay in the order of the list. -/
example : (searchList Concrete.U (Concrete.parse "ab | c") ["xc".toList, "yc".toList, "d".toList, "ab".toList, "xc".toList]
    (.new .v1)).mapR (fun x => x.2) =
      .ok [("ab".toList, ⟨62⟩), ("xc".toList, ⟨16⟩), ("yc".toList, ⟨16⟩), ("xc".toList, ⟨16⟩)] := by decide +kernel

/-! ### Typing a query -/

/-- **C75, full statement.** Appending to a query string narrows the results. -/
def C75 : Prop :=
  ∀ (U : Unicode) (a : Algo) (st : Settings) (t u : List Char) (q q' : FzfQuery),
    Parsed U t q → Parsed U (t ++ u) q' → Narrower U a st q' q

theorem not_narrower {q q' : FzfQuery} {s : String} {d : FzfDistance}
    (h' : Concrete.dist (fresh a st) q' s = .ok (some d)) (h : Concrete.dist (fresh a st) q s = .ok none) :
    ¬ Narrower Concrete.U a st q' q := by
  intro hn
  obtain ⟨d', h1⟩ := hn _ _ (Concrete.returns h')
  cases returns_unique h1 (Concrete.returns h)

/-- Cases in which appending to the query string `t` of a metric with the default settings adds results: an
alternative, a longer negated word, characters after a `$`, an escaped space, and a word after a negated fuzzy pattern
that was alone. -/
theorem C75_cases : ∀ t u, (t, u) ∈ [("a", " | b"), ("!a", "b"), ("ab$", "c"), ("a\\", " b"), ("!'a", " b")] →
    ¬ Narrower Concrete.U .v1 defaultSettings (Concrete.parse (t ++ u)) (Concrete.parse t) := by
  intro t u h
  simp only [List.mem_cons, Prod.mk.injEq, List.not_mem_nil, or_false] at h
  rcases h with ⟨rfl, rfl⟩ | ⟨rfl, rfl⟩ | ⟨rfl, rfl⟩ | ⟨rfl, rfl⟩ | ⟨rfl, rfl⟩
  · exact not_narrower (s := "b") (d := ⟨36⟩) (by decide +kernel) (by decide +kernel)
  · exact not_narrower (s := "a") (d := ⟨0⟩) (by decide +kernel) (by decide +kernel)
  · exact not_narrower (s := "ab$c") (d := ⟨114⟩) (by decide +kernel) (by decide +kernel)
  · exact not_narrower (s := "a b") (d := ⟨88⟩) (by decide +kernel) (by decide +kernel)
  · exact not_narrower (s := "b") (d := ⟨36⟩) (by decide +kernel) (by decide +kernel)

/-- **C75 is false**: `a` does not match `b`, but `a | b` does. -/
theorem C75_false : ¬ C75 := fun h =>
  C75_cases "a" " | b" (by simp) (h _ _ _ _ _ _ _ (Concrete.parsed "a") (Concrete.parsed ("a" ++ " | b")))

/-- **C75, for queries that are not extended.** -/
theorem C75_raw_partial {t u : List Char} (hq : ParsedRaw U t q) (hq' : ParsedRaw U (t ++ u) q') :
    Narrower U a st q' q := fun s _ hd =>
  C44_deletion (fresh_reachable a st) hq' hq (List.sublist_append_left t u) s hd

/-- **C75, a further word**: appending a space and more words narrows the results, unless the space is escaped, a bar
stands between the words, or the query was a single negated fuzzy pattern (whose negation is ignored while it is
alone, C08). Missing for the full statement: these cases, where it is false. -/
theorem C75_word_partial {t u : List Char} (hq : Parsed U t q) (hq' : Parsed U (t ++ ' ' :: u) q')
    (hesc : t.getLast? ≠ some '\\') (ht : (tokens U (words t)).getLast? ≠ some .bar)
    (hu : (tokens U (words u)).head? ≠ some .bar) (hn : ∀ p, q = .notExtended p → p.isInverse = false) :
    Narrower U a st q' q := by
  refine narrower_of hq'.ok hq.ok (fun s hs => ?_)
  have e : tokens U (words (t ++ ' ' :: u)) = tokens U (words t) ++ tokens U (words u) := by
    rw [words, pieces_append_space t u hesc, List.filter_append]
    exact List.filterMap_append ..
  rw [hq'.eq, query, e] at hs
  rw [hq.eq] at hn ⊢
  exact queryMatches_more ⟨_, rfl⟩ ⟨_, e.symm⟩ ht hu hn hs

/-- **C75, a longer word**: appending characters other than spaces to the last word of a query narrows the results if
the word is a pattern that is not negated and does not end with the sigil `$`. Missing for the full statement: negated
words and words that end with `$`, for which it is false. -/
theorem C75_typing_partial {t u w text : List Char} {ps : List (List Char)} {sg : Sigil} (hq : Parsed U t q)
    (hq' : Parsed U (t ++ u) q') (hw : Pieces t (ps ++ [w])) (hbar : w ≠ ['|']) (hd : Decorates w false sg false text)
    (htext : text ≠ []) (hu : ' ' ∉ u) : Narrower U a st q' q := by
  refine narrower_of hq'.ok hq.ok (fun s hs => ?_)
  have e1 : pieces t = ps ++ [w] := by rw [← hw.render]; exact pieces_of_render _ hw.nonempty hw.separated
  have e2 := pieces_append_last hu t ps w e1
  obtain ⟨v, dol, hd'⟩ := decorates_append hd htext u
  have hbar' : w ++ u ≠ ['|'] := by
    intro h
    cases w with
    | nil =>
      have := hd.word
      cases sg with
      | none => exact htext (by simpa [Sigil.chars] using this.symm)
      | quote => simp [Sigil.chars] at this
      | caret => simp [Sigil.chars] at this
    | cons c w =>
      simp only [List.cons_append, List.cons.injEq, List.append_eq_nil_iff] at h
      exact hbar (by rw [h.1, h.2.1])
  have tok : ∀ (w text : List Char) (dol : Bool), w ≠ ['|'] → Decorates w false sg dol text → text ≠ [] →
      tokens U (ps ++ [w]) = tokens U ps ++ [.pat (mkPattern U false (kind false dol sg) text)] := by
    intro w text dol h1 h2 h3
    rw [tokens, List.filterMap_append]
    congr 1
    simp [h1, wordPattern_of_decorates h2, h3]
  have t1 := tok w text false hbar hd htext
  have t2 := tok (w ++ u) (text ++ v) dol hbar' hd' (by simp [htext])
  rw [hq'.eq, query_eq_pieces e2, t2] at hs
  rw [hq.eq, query_eq_pieces e1, t1]
  exact queryMatches_last ⟨_, t1.symm⟩ ⟨_, t2.symm⟩ rfl rfl rawMatches_append hs

/-- **C75, the first characters of a word**: appending characters other than spaces to a query string that ends with a
space, or with a word of sigils only, narrows the results, unless a bar precedes the word or the word becomes one, or
the query was a single negated fuzzy pattern. -/
theorem C75_start_partial {t u w : List Char} {ps : List (List Char)} {inv dol : Bool} {sg : Sigil} (hq : Parsed U t q)
    (hq' : Parsed U (t ++ u) q') (hw : Pieces t (ps ++ [w])) (hd : Decorates w inv sg dol []) (hbar : w ++ u ≠ ['|'])
    (ht : (tokens U (words t)).getLast? ≠ some .bar) (hn : ∀ p, q = .notExtended p → p.isInverse = false)
    (hu : ' ' ∉ u) : Narrower U a st q' q := by
  refine narrower_of hq'.ok hq.ok (fun s hs => ?_)
  have e1 : pieces t = ps ++ [w] := by rw [← hw.render]; exact pieces_of_render _ hw.nonempty hw.separated
  have e2 := pieces_append_last hu t ps w e1
  have hb : w ≠ ['|'] := by
    rintro rfl
    have := decorates_unique hd (t' := ['|']) (i' := false) (d' := false) (sg' := .none)
      ⟨rfl, by simp, by simp, by simp [Sigil.chars], by simp⟩
    simp at this
  have t1 : tokens U (ps ++ [w]) = tokens U ps := by
    rw [tokens, List.filterMap_append]
    simp [hb, wordPattern_of_decorates hd, tokens]
  have t2 : tokens U (ps ++ [w ++ u]) = tokens U ps ++ tokens U [w ++ u] := List.filterMap_append ..
  have hy : (tokens U [w ++ u]).head? ≠ some .bar := by
    simp only [tokens, List.filterMap_cons, List.filterMap_nil, hbar, if_false]
    cases wordPattern U (w ++ u) <;> simp
  rw [words, tokens_pieces, e1, t1] at ht
  rw [hq'.eq, query_eq_pieces e2, t2] at hs
  rw [hq.eq, query_eq_pieces e1, t1] at hn ⊢
  exact queryMatches_more ⟨_, rfl⟩ ⟨_, t2.symm⟩ ht hy hn hs

theorem lone_negated {q : FzfQuery} (h : (match q with | .notExtended p => !p.isInverse | .extended _ => true) = true) :
    ∀ p, q = .notExtended p → p.isInverse = false := by
  rintro p rfl
  simpa using h

theorem parsed_as {t : String} {t' : List Char} (h : t' = t.toList) : Parsed Concrete.U t' (Concrete.parse t) := by
  rw [h]; exact Concrete.parsed t

/-- The hypotheses are met by typing `x 'b`, ` c`, and by typing `x '`, `b`, `x$`; the last of these queries matches
something. -/
example : Narrower Concrete.U .v2 defaultSettings (Concrete.parse "x 'b c") (Concrete.parse "x 'b") :=
  C75_word_partial (t := "x 'b".toList) (u := "c".toList) (Concrete.parsed _) (parsed_as (by decide)) (by decide)
    (by decide +kernel) (by decide +kernel) (lone_negated (by decide +kernel))
example : Narrower Concrete.U .v2 defaultSettings (Concrete.parse "x 'b") (Concrete.parse "x '") :=
  C75_start_partial (t := "x '".toList) (u := "b".toList) (w := "'".toList) (ps := ["x".toList]) (inv := false)
    (dol := false) (sg := .quote) (Concrete.parsed _) (parsed_as (by decide)) ⟨by decide, by decide, by decide⟩
    ⟨by decide, by decide, by decide, by decide, by decide⟩ (by decide) (by decide +kernel)
    (lone_negated (by decide +kernel)) (by decide)
example : Narrower Concrete.U .v2 defaultSettings (Concrete.parse "x 'bx$") (Concrete.parse "x 'b") :=
  C75_typing_partial (t := "x 'b".toList) (u := "x$".toList) (w := "'b".toList) (ps := ["x".toList]) (sg := .quote)
    (text := "b".toList) (Concrete.parsed _) (parsed_as (by decide)) ⟨by decide, by decide, by decide⟩ (by decide)
    ⟨by decide, by decide, by decide, by decide, by decide⟩ (by decide) (by decide)
example : Narrower Concrete.U .v2 defaultSettings (rawQuery Concrete.U "ab".toList) (rawQuery Concrete.U "a".toList) :=
  C75_raw_partial (t := "a".toList) (u := "b".toList) (Concrete.parsedRaw "a" (by decide)) (Concrete.parsedRaw "ab" (by decide))
example : Returns Concrete.U (fresh .v2 defaultSettings) (Concrete.parse "x 'bx$") "abx".toList (some ⟨52⟩) :=
  Concrete.returns (by decide +kernel)

/-- So it is enough to search again among the results when the query got narrower: this gives the same candidates with
the same distances as searching the whole list. -/
theorem C75_among {l : List (List Char)} {r r₁ r₂ : List (List Char × FzfDistance)} (hn : Narrower U a st q' q)
    (h : SearchResult U a st q l r) (h₁ : SearchResult U a st q' (r.map (·.1)) r₁) (h₂ : SearchResult U a st q' l r₂) :
    r₁.Perm r₂ ∧ r₁.map (·.2) = r₂.map (·.2) := by
  obtain ⟨⟨x, hx, hp, _⟩, _⟩ := h
  obtain ⟨⟨x₁, hx₁, hp₁, _⟩, hs₁⟩ := h₁
  obtain ⟨⟨x₂, hx₂, hp₂, _⟩, hs₂⟩ := h₂
  have e := hits_perm (hp.map _) hx₁ (hits_among hn hx hx₂)
  have hr : r₁.Perm r₂ := hp₁.trans (e.trans hp₂.symm)
  exact ⟨hr, scores_ext hr hs₁ hs₂⟩

/-- Searching for `a`, then among the results for `ab`. -/
example : (searchList Concrete.U (Concrete.parse "a") ["b".toList, "xab".toList, "a".toList, "ab".toList] (.new .v1)).mapR
      (fun x => x.2.map (·.1)) = .ok ["a".toList, "ab".toList, "xab".toList] ∧
    (searchList Concrete.U (Concrete.parse "ab") ["a".toList, "ab".toList, "xab".toList] (.new .v1)).mapR (·.2) =
      .ok [("ab".toList, ⟨62⟩), ("xab".toList, ⟨36⟩)] ∧
    (searchList Concrete.U (Concrete.parse "ab") ["b".toList, "xab".toList, "a".toList, "ab".toList] (.new .v1)).mapR (·.2) =
      .ok [("ab".toList, ⟨62⟩), ("xab".toList, ⟨36⟩)] := by
  decide +kernel

end Norm.Props
