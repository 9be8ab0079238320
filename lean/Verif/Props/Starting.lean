import Verif.Proofs.Starting
import Verif.Props.Outcome

/-!
# Candidates that start with a word

Property C92: for candidates that `^w` matches, the exact pattern `'w` gives the same result, and so does the fuzzy `w` with FzfV1
(with FzfV2 it scores at least as much); for candidates that `^w$` matches, `^w` and `w$` do. -/

namespace Norm.Props

open Spec

variable {U : Unicode} {a : Algo} {m : Metric} {st : Settings} {q : FzfQuery} {s w : List Char} {p : Pattern}
  {buf b : List Range} {d : Option FzfDistance} {x : FzfDistance}

/-- The query of one pattern, without `!`. -/
private abbrev one (U : Unicode) (k : MatchType) (w : List Char) : FzfQuery := single (mkPattern U false k w)

private theorem one_pattern (hw : w ≠ []) (k : MatchType) : PatternOk U (mkPattern U false k w) := ⟨hw, rfl⟩

private theorem one_ok (hw : w ≠ []) (k : MatchType) : QueryOk U (one U k w) := queryOk_single (one_pattern hw k)

private theorem one_hit (k : MatchType) : patHit U (pureOf a) st s (mkPattern U false k w) = rawHit U (pureOf a) st s (mkPattern U false k w) := by
  unfold patHit
  simp [mkPattern]

/-- The result of a block. -/
private theorem block (hw : w ≠ []) {k : MatchType} (hk : k ≠ .fuzzy) {i : Nat} (hb : BlockAt U st.scheme (Cmp U st w) w s k i) :
    result U a st s (one U k w) =
      ([byteRange s i (i + w.length)], some (alignScore (posBonus U st.scheme s) (List.range' i w.length))) := by
  have hs := (rawHit_isSome (st := st) (s := s) (accepts a) (one_pattern (U := U) hw k)).mpr (blockAt_matches hb)
  obtain ⟨x, hx⟩ := Option.isSome_iff_exists.mp hs
  obtain ⟨j, h2, -, rfl⟩ := rawHit_block (p := mkPattern U false k w) hk (one_pattern hw k) hx
  obtain rfl : i = j := blockAt_unique (one_pattern hw k) hb h2
  rw [result_single, one_hit, hx]
  rfl

/-- If the query of a block matches, there is one. -/
private theorem block_exists (hw : w ≠ []) {k : MatchType} (hk : k ≠ .fuzzy) (h : (result U a st s (one U k w)).2.isSome = true) :
    ∃ i, BlockAt U st.scheme (Cmp U st w) w s k i := by
  rw [result_single_score, one_hit, Option.isSome_map] at h
  obtain ⟨x, hx⟩ := Option.isSome_iff_exists.mp h
  obtain ⟨j, h2, -⟩ := rawHit_block (p := mkPattern U false k w) hk (one_pattern hw k) hx
  exact ⟨j, h2⟩

private theorem matched {q : FzfQuery} (h : Reachable U a m st) (hq : QueryOk U q) (hd : Returns U m q s (some x)) :
    (result U a st s q).2.isSome = true := by
  have := (returns_iff h hq).mp hd
  cases hr : (result U a st s q).2 with
  | none => rw [hr] at this; cases this
  | some _ => rfl

/-- The block of the exact pattern. -/
private theorem exact_block (hU : ∀ c t, Listed c t → classOf U st.scheme c ≠ .number) (hw : w ≠ []) {i : Nat}
    (hb : BlockAt U st.scheme (Cmp U st w) w s .prefixExact i) :
    ∃ e, BlockAt U st.scheme (Cmp U st w) w s .exact e ∧ (leading w < w.length → e = i) ∧
      alignScore (posBonus U st.scheme s) (List.range' e w.length) = alignScore (posBonus U st.scheme s) (List.range' i w.length) := by
  obtain ⟨e, h1, h2, h3, h4, h5⟩ := prefix_block (S := st.scheme) hw hb.1 hb.2
  refine ⟨e, ?_, h3, h4⟩
  obtain ⟨q, qs, rfl⟩ := List.exists_cons_of_ne_nil hw
  have hr := rel_eqOf st (one_pattern (U := U) hw .exact).upper
  have hs := seenCls_ok (U := U) (eq := st.eqOf (mkPattern U false .exact (q :: qs))) st.scheme q qs s
  rw [hr] at hs
  refine ⟨_, hs, prefix_best hU hs h1 (fun j hj => ?_) h5⟩
  obtain ⟨l, hl, hle⟩ := h2 _ (alignment_range (occursAt_get hj))
  rw [List.mem_range'_1] at hl
  simp only [List.length_cons] at hl hle
  omega

/-- **C92.** If `^w` matches, `'w` returns the same distance. -/
theorem C92_exact (h : Reachable U a m st) (hU : ∀ c t, Listed c t → classOf U st.scheme c ≠ .number) (hw : w ≠ [])
    (hd : Returns U m (single (mkPattern U false .prefixExact w)) s (some x)) :
    Returns U m (single (mkPattern U false .exact w)) s (some x) := by
  obtain ⟨i, hb⟩ := block_exists hw (by decide) (matched h (one_ok hw _) hd)
  obtain ⟨e, he, -, h2⟩ := exact_block hU hw hb
  have hd := (returns_iff h (one_ok hw _)).mp hd
  rw [block hw (by decide) hb] at hd
  rw [returns_iff h (one_ok hw _), block hw (by decide) he, hd, h2]

/-- The listed characters are no numbers in the concrete classification. -/
private theorem listed_number (S : FzfScheme) : ∀ c t, Listed c t → classOf Concrete.U S c ≠ .number := by
  have : ∀ e ∈ variants, ∀ c ∈ e.2.toList, classOf Concrete.U S c ≠ .number := by cases S <;> decide +kernel
  rintro c t ⟨e, he, -, hc⟩
  exact this e he c hc

/-- The word occurs again further on; a number is not preferred by the exact search at its first occurrence. -/
example : (∀ c t, Listed c t → classOf Concrete.U .default c ≠ .number) ∧
    Returns Concrete.U (Concrete.metric .v2) (single (mkPattern Concrete.U false .prefixExact "1a".toList)) "  1ab 1a".toList (some ⟨53⟩) ∧
    Returns Concrete.U (Concrete.metric .v2) (single (mkPattern Concrete.U false .exact "1a".toList)) "  1ab 1a".toList (some ⟨53⟩) :=
  ⟨listed_number .default, Concrete.returns (by decide +kernel), C92_exact (Concrete.reachable .v2 .smart false .default)
    (listed_number .default) (by decide) (Concrete.returns (by decide +kernel))⟩

/-- **C92**, the ranges: they are the same as well, unless the word consists of spaces. -/
theorem C92_exact_ranges (h : Reachable U a m st) (hU : ∀ c t, Listed c t → classOf U st.scheme c ≠ .number)
    (hw : ∃ c ∈ w, c ≠ ' ') (hd : ReturnsRanges U m (single (mkPattern U false .prefixExact w)) s buf b (some x)) :
    ReturnsRanges U m (single (mkPattern U false .exact w)) s buf b (some x) := by
  have hne : w ≠ [] := by rintro rfl; simp at hw
  have hlt := leading_lt hw
  have hd' := hd
  rw [returnsRanges_iff h (one_ok hne _)] at hd
  obtain ⟨i, hb⟩ := block_exists hne (by decide) (matched h (one_ok hne _) ((returns_iff h (one_ok hne _)).mpr hd.2))
  obtain ⟨e, he, h1, -⟩ := exact_block hU hne hb
  obtain rfl := h1 hlt
  rw [block hne (by decide) hb] at hd
  rw [returnsRanges_iff h (one_ok hne _), block hne (by decide) he]
  exact hd

example : ReturnsRanges Concrete.U (Concrete.metric .v2) (single (mkPattern Concrete.U false .exact "1a".toList)) "  1ab 1a".toList []
    [⟨2, 4⟩] (some ⟨53⟩) :=
  C92_exact_ranges (Concrete.reachable .v2 .smart false .default) (listed_number .default) ⟨'1', by decide⟩
    (Concrete.returnsRanges (by decide +kernel))

/-- Words of spaces are highlighted at different places. -/
example : ReturnsRanges Concrete.U (Concrete.metric .v2) (single (mkPattern Concrete.U false .prefixExact " ".toList)) "  a".toList []
      [⟨1, 2⟩] (some ⟨36⟩) ∧
    ReturnsRanges Concrete.U (Concrete.metric .v2) (single (mkPattern Concrete.U false .exact " ".toList)) "  a".toList []
      [⟨0, 1⟩] (some ⟨36⟩) :=
  ⟨Concrete.returnsRanges (by decide +kernel), Concrete.returnsRanges (by decide +kernel)⟩

/-- **C92**, the fuzzy word with FzfV1: the same distance. -/
theorem C92_fuzzy (h : Reachable U .v1 m st) (hf : FuzzyFor q p) (hq : QueryOk U q) (hw : p.text ≠ [])
    (hd : Returns U m (single (mkPattern U false .prefixExact p.text)) s (some x)) : Returns U m q s (some x) := by
  obtain ⟨i, hb⟩ := block_exists hw (by decide) (matched h (one_ok hw _) hd)
  obtain ⟨e, h1, h2, -, h4, -⟩ := prefix_block (S := st.scheme) hw hb.1 hb.2
  have hd := (returns_iff h (one_ok hw _)).mp hd
  rw [block hw (by decide) hb] at hd
  rw [returns_iff h hq, result_fuzzy hf hw, v1_block hf hq hw h1 h2, hd, h4]

/-- **C92**, the fuzzy word with FzfV1: the same ranges, unless the word consists of spaces. -/
theorem C92_fuzzy_ranges (h : Reachable U .v1 m st) (hf : FuzzyFor q p) (hq : QueryOk U q) (hw : ∃ c ∈ p.text, c ≠ ' ')
    (hd : ReturnsRanges U m (single (mkPattern U false .prefixExact p.text)) s buf b (some x)) : ReturnsRanges U m q s buf b (some x) := by
  have hne : p.text ≠ [] := by intro h; simp [h] at hw
  have hlt := leading_lt hw
  rw [returnsRanges_iff h (one_ok hne _)] at hd
  obtain ⟨i, hb⟩ := block_exists hne (by decide) (matched h (one_ok hne _) ((returns_iff h (one_ok hne _)).mpr hd.2))
  obtain ⟨e, h1, h2, h3, -⟩ := prefix_block (S := st.scheme) hne hb.1 hb.2
  obtain rfl := h3 hlt
  rw [block hne (by decide) hb] at hd
  rw [returnsRanges_iff h hq, result_fuzzy hf hne, v1_block hf hq hne h1 h2]
  simp only
  rw [insertAll_block (fun h => hne (List.length_eq_zero_iff.mp h)) (occursAt_lt h1)]
  exact hd

example : ReturnsRanges Concrete.U (Concrete.metric .v1) (Concrete.parse "1a") "  1ab 1a".toList [] [⟨2, 4⟩] (some ⟨53⟩) :=
  C92_fuzzy_ranges (p := mkPattern Concrete.U false .fuzzy "1a".toList) (Concrete.reachable .v1 .smart false .default)
    (.inl (by decide +kernel)) (Concrete.parsed _).ok ⟨'1', by decide⟩ (Concrete.returnsRanges (by decide +kernel))

example : Returns Concrete.U (Concrete.metric .v1) (Concrete.parse "\\ ") "  a".toList (some ⟨36⟩) :=
  C92_fuzzy (p := mkPattern Concrete.U false .fuzzy " ".toList) (Concrete.reachable .v1 .smart false .default)
    (.inl (by decide +kernel)) (Concrete.parsed _).ok (by decide) (Concrete.returns (by decide +kernel))

/-- **C92**, the fuzzy word with FzfV2: at least the same score, unless the word starts with a space. -/
theorem C92_fuzzy_v2 (h : Reachable U .v2 m st) (hf : FuzzyFor q p) (hq : QueryOk U q) (hw : p.text ≠ []) (hsp : p.text.head? ≠ some ' ')
    (hd : Returns U m (single (mkPattern U false .prefixExact p.text)) s (some x)) :
    ∃ y, Returns U m q s (some y) ∧ x.score ≤ y.score := by
  obtain ⟨i, hb⟩ := block_exists hw (by decide) (matched h (one_ok hw _) hd)
  have hd := (returns_iff h (one_ok hw _)).mp hd
  rw [block hw (by decide) hb] at hd
  cases hd
  have hR := fuzzyFor_rel (st := st) hf hq
  have ho : OccursAt (rel (st.eqOf p)) p.text s i := by rw [hR]; exact hb.1
  obtain ⟨y, hy⟩ := fuzzy_exists h hf hq hw (alignment_range (occursAt_get ho))
  obtain ⟨z, hz, rfl⟩ := fuzzy_returns h hf hq hw hy
  exact ⟨_, hy, v2Result_leftmost (fun j => posBonus_nonneg U st.scheme s j) hw ho
    (fun ps ha => by rw [hR] at ha; exact prefix_first hsp hb.2 ha) hz⟩

/-- The same score, and a greater one. -/
example : Returns Concrete.U (Concrete.metric .v2) (single (mkPattern Concrete.U false .prefixExact "-ab".toList)) "-ab - ab".toList
      (some ⟨80⟩) ∧
    Returns Concrete.U (Concrete.metric .v2) (Concrete.parse "-ab") "-ab - ab".toList (some ⟨83⟩) ∧
    Returns Concrete.U (Concrete.metric .v2) (single (mkPattern Concrete.U false .prefixExact "1a".toList)) "  1ab 1a".toList (some ⟨53⟩) ∧
    Returns Concrete.U (Concrete.metric .v2) (Concrete.parse "1a") "  1ab 1a".toList (some ⟨53⟩) :=
  ⟨Concrete.returns (by decide +kernel), Concrete.returns (by decide +kernel), Concrete.returns (by decide +kernel),
    Concrete.returns (by decide +kernel)⟩

/-- **C92**: if `^w$` matches, `^w` and `w$` return the same distance and ranges. -/
theorem C92_equal (h : Reachable U a m st) (hw : w ≠ [])
    (hd : ReturnsRanges U m (single (mkPattern U false .equalExact w)) s buf b (some x)) :
    ReturnsRanges U m (single (mkPattern U false .prefixExact w)) s buf b (some x) ∧
    ReturnsRanges U m (single (mkPattern U false .suffixExact w)) s buf b (some x) := by
  rw [returnsRanges_iff h (one_ok hw _)] at hd
  obtain ⟨i, hb⟩ := block_exists hw (by decide) (matched h (one_ok hw _) ((returns_iff h (one_ok hw _)).mpr hd.2))
  rw [block hw (by decide) hb] at hd
  have h1 : BlockAt U st.scheme (Cmp U st w) w s .prefixExact i := ⟨hb.1, hb.2.1⟩
  have h2 : BlockAt U st.scheme (Cmp U st w) w s .suffixExact i := ⟨hb.1, hb.2.2⟩
  rw [returnsRanges_iff h (one_ok hw _), returnsRanges_iff h (one_ok hw _), block hw (by decide) h1, block hw (by decide) h2]
  exact ⟨hd, hd⟩

example : ReturnsRanges Concrete.U (Concrete.metric .v1) (single (mkPattern Concrete.U false .equalExact "ab".toList)) " ab ".toList []
      [⟨1, 3⟩] (some ⟨62⟩) ∧
    ReturnsRanges Concrete.U (Concrete.metric .v1) (single (mkPattern Concrete.U false .prefixExact "ab".toList)) " ab ".toList []
      [⟨1, 3⟩] (some ⟨62⟩) ∧
    ReturnsRanges Concrete.U (Concrete.metric .v1) (single (mkPattern Concrete.U false .suffixExact "ab".toList)) " ab ".toList []
      [⟨1, 3⟩] (some ⟨62⟩) :=
  have h := Concrete.returnsRanges (m := Concrete.metric .v1) (q := single (mkPattern Concrete.U false .equalExact "ab".toList)) (s := " ab ")
    (buf := []) (buf' := [⟨1, 3⟩]) (d := some ⟨62⟩) (by decide +kernel)
  ⟨h, C92_equal (Concrete.reachable .v1 .smart false .default) (by decide) h⟩

end Norm.Props
