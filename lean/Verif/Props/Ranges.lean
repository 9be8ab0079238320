import Verif.Proofs.Highlighted
import Verif.Proofs.Highlights
import Verif.Props.Concrete

/-!
# The ranges appended by `distance_and_ranges`

Properties C15–C22. A position `i` is *highlighted* when the bytes of the candidate's `i`-th character
(`charRange s i`) are covered by the appended ranges. -/

namespace Norm.Props

open Spec

variable {U : Unicode} {a : Algo} {m : Metric} {st : Settings} {q : FzfQuery} {p : Pattern} {s t : List Char}

/-! ### Shape of the ranges -/

/-- **C15.** The appended ranges are non-empty, sorted and separated by at least one byte. -/
theorem C15_disjoint (h : Reachable U a m st) (hq : QueryOk U q) {buf buf' : List Range} {d : Option FzfDistance}
    (hd : ReturnsRanges U m q s buf buf' d) :
    ∃ new, buf' = buf ++ new ∧ (∀ r ∈ new, r.start < r.stop) ∧ new.Pairwise (fun x y => x.stop < y.start) := by
  obtain ⟨rfl, _⟩ := (returnsRanges_iff h hq).mp hd
  have := sep_insertAll sep_nil (fun r hr => (result_slice (a := a) (st := st) (s := s) hq r hr).lt)
  exact ⟨_, rfl, this.1, this.2⟩

/-- **C16.** Every appended range consists of whole characters of the candidate. -/
theorem C16_slices (h : Reachable U a m st) (hq : QueryOk U q) {buf buf' : List Range} {d : Option FzfDistance}
    (hd : ReturnsRanges U m q s buf buf' d) :
    ∃ new, buf' = buf ++ new ∧ ∀ r ∈ new, r.start < r.stop ∧ r.stop ≤ byteLen s ∧
      ∃ x y z, s = x ++ y ++ z ∧ r.start = byteLen x ∧ r.stop = byteLen (x ++ y) := by
  obtain ⟨rfl, _⟩ := (returnsRanges_iff h hq).mp hd
  refine ⟨_, rfl, ?_⟩
  intro r hr
  have hs := insertAll_slice sep_nil (by simp) (result_slice (a := a) (st := st) (s := s) hq) r hr
  have hlt := hs.lt
  obtain ⟨i, j, hij, hj, rfl⟩ := hs
  have e : s.take i ++ (s.drop i).take (j - i) = s.take j := by
    rw [← List.take_add, Nat.add_sub_cancel' (by omega)]
  refine ⟨hlt, ?_, s.take i, (s.drop i).take (j - i), s.drop j, ?_, rfl, ?_⟩
  · have := byteLen_take_le (s := s) hj
    rwa [List.take_length] at this
  · rw [e, List.take_append_drop]
  · rw [e]; rfl

/-- Several conditions, multi-byte characters and adjacent ranges: `ä` takes the bytes 1–3. -/
example : ReturnsRanges Concrete.U (Concrete.metric .v1) (Concrete.parse "'äb c e") "xäbcde".toList [⟨9, 3⟩]
    [⟨9, 3⟩, ⟨1, 5⟩, ⟨6, 7⟩] (some ⟨68⟩) := Concrete.returnsRanges (by decide +kernel)

/-! ### Fuzzy queries, FzfV1 -/

/-- **C17, C21 and C22.** What FzfV1 highlights for a fuzzy query is an alignment `ps` of the query; it ends
as early as any alignment can, starts as late as one ending there can, and is the leftmost of those starting there; the
score is the documented score of exactly this alignment. -/
theorem C17_C21_C22_v1 (h : Reachable U .v1 m st) (hf : FuzzyFor q p) (hq : QueryOk U q) (hp : p.text ≠ [])
    {buf buf' : List Range} {d : FzfDistance} (hd : ReturnsRanges U m q s buf buf' (some d)) :
    ∃ ps new, buf' = buf ++ new ∧ Alignment (Cmp U st p.text) p.text s ps ∧
      (∀ b, Covers new b ↔ ∃ i ∈ ps, (charRange s i).start ≤ b ∧ b < (charRange s i).stop) ∧
      (∃ first last, ps.head? = some first ∧ ps.getLast? = some last ∧
        (∀ ps', Alignment (Cmp U st p.text) p.text s ps' → ∃ i ∈ ps', last ≤ i) ∧
        (∀ ps', Alignment (Cmp U st p.text) p.text s ps' → (∀ i ∈ ps', i ≤ last) → ∃ i ∈ ps', i ≤ first) ∧
        (∀ ps', Alignment (Cmp U st p.text) p.text s ps' → (∀ i ∈ ps', first ≤ i) → List.Forall₂ (· ≤ ·) ps ps')) ∧
      d = ⟨alignScore (posBonus U st.scheme s) ps⟩ := by
  obtain ⟨x, new, hx, rfl, hc, rfl⟩ := fuzzy_call h hf hq hp hd
  rw [← fuzzyFor_rel hf hq]
  simp only [pureOf, v1Result, Option.map_eq_some_iff] at hx
  obtain ⟨g, hg, rfl⟩ := hx
  obtain ⟨i, l, h1, h2, h3, h4, h5⟩ := v1Align_some hp hg
  refine ⟨g, new, rfl, h4, hc, ⟨i, l, h2, h3, ?_, ?_, ?_⟩, rfl⟩
  · intro ps' ha
    obtain ⟨j, hj, hle⟩ := h5.least ps' ha
    exact ⟨j, hj, by omega⟩
  · intro ps' ha hall
    exact h5.greatest ps' ha (fun i hi => by have := hall i hi; omega)
  · intro ps' ha hall
    obtain ⟨g', hg', hle⟩ := greedyFrom_least ha hall
    rw [h1] at hg'
    cases hg'
    exact hle

/-- **C17.** The characters FzfV1 highlights for a fuzzy query spell the query. -/
theorem C17_v1_spells (h : Reachable U .v1 m st) (hf : FuzzyFor q p) (hq : QueryOk U q) (hp : p.text ≠ [])
    {buf buf' : List Range} {d : FzfDistance} (hd : ReturnsRanges U m q s buf buf' (some d)) :
    ∃ ps new, buf' = buf ++ new ∧ Alignment (Cmp U st p.text) p.text s ps ∧
      ∀ b, Covers new b ↔ ∃ i ∈ ps, (charRange s i).start ≤ b ∧ b < (charRange s i).stop := by
  obtain ⟨ps, new, h1, h2, h3, _⟩ := C17_C21_C22_v1 h hf hq hp hd
  exact ⟨ps, new, h1, h2, h3⟩

/-- **C21.** FzfV1's window: it ends at the earliest possible position and starts at the latest; of the alignments in it, the leftmost
is highlighted. -/
theorem C21_v1_window (h : Reachable U .v1 m st) (hf : FuzzyFor q p) (hq : QueryOk U q) (hp : p.text ≠ [])
    {buf buf' : List Range} {d : FzfDistance} (hd : ReturnsRanges U m q s buf buf' (some d)) :
    ∃ ps new first last, buf' = buf ++ new ∧ Alignment (Cmp U st p.text) p.text s ps ∧
      (∀ b, Covers new b ↔ ∃ i ∈ ps, (charRange s i).start ≤ b ∧ b < (charRange s i).stop) ∧
      ps.head? = some first ∧ ps.getLast? = some last ∧
      (∀ ps', Alignment (Cmp U st p.text) p.text s ps' → ∃ i ∈ ps', last ≤ i) ∧
      (∀ ps', Alignment (Cmp U st p.text) p.text s ps' → (∀ i ∈ ps', i ≤ last) → ∃ i ∈ ps', i ≤ first) ∧
      (∀ ps', Alignment (Cmp U st p.text) p.text s ps' → (∀ i ∈ ps', first ≤ i) → List.Forall₂ (· ≤ ·) ps ps') := by
  obtain ⟨ps, new, h1, h2, h3, ⟨f, l, h4, h5, h6, h7⟩, _⟩ := C17_C21_C22_v1 h hf hq hp hd
  exact ⟨ps, new, f, l, h1, h2, h3, h4, h5, h6, h7⟩

/-- **C22.** FzfV1's score is the documented score of the highlighted alignment. -/
theorem C22_v1_score (h : Reachable U .v1 m st) (hf : FuzzyFor q p) (hq : QueryOk U q) (hp : p.text ≠ [])
    {buf buf' : List Range} {d : FzfDistance} (hd : ReturnsRanges U m q s buf buf' (some d)) :
    ∃ ps new, buf' = buf ++ new ∧ Alignment (Cmp U st p.text) p.text s ps ∧
      (∀ b, Covers new b ↔ ∃ i ∈ ps, (charRange s i).start ≤ b ∧ b < (charRange s i).stop) ∧
      d = ⟨alignScore (posBonus U st.scheme s) ps⟩ := by
  obtain ⟨ps, new, h1, h2, h3, _, h5⟩ := C17_C21_C22_v1 h hf hq hp hd
  exact ⟨ps, new, h1, h2, h3, h5⟩

/-- `abc` in `aabxacbc`: the window ends at the first possible `c` and starts at the second `a`, which is the latest
start. The score is that of the alignment `[1, 2, 5]`. -/
example : ReturnsRanges Concrete.U (Concrete.metric .v1) (Concrete.parse "abc") "aabxacbc".toList []
      [⟨1, 3⟩, ⟨5, 6⟩] (some ⟨48⟩) ∧
    FuzzyFor (Concrete.parse "abc") (mkPattern Concrete.U false .fuzzy "abc".toList) ∧
    alignScore (posBonus Concrete.U .default "aabxacbc".toList) [1, 2, 5] = 48 :=
  ⟨Concrete.returnsRanges (by decide +kernel), .inl (by decide +kernel), by decide +kernel⟩

/-! ### Fuzzy queries, FzfV2 -/

/-- **C18, full statement.** -/
def C18 : Prop :=
  ∀ (U : Unicode) (m : Metric) (st : Settings) (q : FzfQuery) (p : Pattern) (s : List Char), Reachable U .v2 m st →
    FuzzyFor q p → QueryOk U q → p.text ≠ [] → ∀ buf buf' d, ReturnsRanges U m q s buf buf' (some d) →
    ∃ ps new, buf' = buf ++ new ∧ Alignment (Cmp U st p.text) p.text s ps ∧
      ∀ b, Covers new b ↔ ∃ i ∈ ps, (charRange s i).start ≤ b ∧ b < (charRange s i).stop

/-- **C18 is false.** `ab` in `aab` highlights only the first `a`: the score 36 of the first row's best cell is not
exceeded in the second row. -/
theorem C18_false : ¬ C18 := by
  intro h
  obtain ⟨ps, new, h1, h2, h3⟩ := h Concrete.U (Concrete.metric .v2) defaultSettings (Concrete.parse "ab")
    (mkPattern Concrete.U false .fuzzy "ab".toList) "aab".toList (Concrete.reachable ..) (.inl (by decide +kernel))
    (Concrete.parsed _).ok (by decide) [] [⟨0, 1⟩] ⟨36⟩ (Concrete.returnsRanges (by decide +kernel))
  simp only [List.nil_append] at h1
  subst h1
  have hlen := h2.length_eq
  have hinc := h2.increasing
  match ps, hlen, hinc with
  | [i, j], _, hinc =>
    have hlt : i < j := by simpa using hinc
    have hj : j < 3 := alignment_lt h2 j (by simp)
    have hc := (h3 j).mpr ⟨j, by simp, ?_⟩
    · simp only [Covers, List.mem_singleton, exists_eq_left] at hc
      omega
    · have : j = 0 ∨ j = 1 ∨ j = 2 := by omega
      rcases this with rfl | rfl | rfl <;> decide

/-- **C18** when the leftmost alignment of the query skips few characters: what FzfV2 highlights spells a non-empty
prefix of the query, and the whole query whenever the score exceeds what a shorter one can score. What is missing:
the remaining characters of the query (`C18_false`), and long gaps (`C18_gap`). -/
theorem C18_v2_spells_partial (h : Reachable U .v2 m st) (hf : FuzzyFor q p) (hq : QueryOk U q) (hp : p.text ≠ [])
    (hgap : ∀ g, Alignment (Cmp U st p.text) p.text s g →
      (∀ ps, Alignment (Cmp U st p.text) p.text s ps → List.Forall₂ (· ≤ ·) g ps) →
      ∀ k i j, g[0]? = some i → g[k]? = some j → 3 * (j - i - k) < 16 * (k + 1))
    {buf buf' : List Range} {d : FzfDistance} (hd : ReturnsRanges U m q s buf buf' (some d)) :
    ∃ k ps new, 1 ≤ k ∧ k ≤ p.text.length ∧ buf' = buf ++ new ∧
      Alignment (Cmp U st p.text) (p.text.take k) s ps ∧
      (∀ b, Covers new b ↔ ∃ i ∈ ps, (charRange s i).start ≤ b ∧ b < (charRange s i).stop) ∧
      (26 * ((p.text.length : Int) - 1) + 10 < d.score → k = p.text.length) := by
  obtain ⟨x, new, hx, rfl, hc, rfl⟩ := fuzzy_call h hf hq hp hd
  rw [← fuzzyFor_rel hf hq] at hgap ⊢
  obtain ⟨k, l, h1, h2, h3, h4, h5⟩ := v2Result_spells (posBonus_nonneg U st.scheme s) (posBonus_le U st.scheme s) hp
    hgap hx
  refine ⟨k, l, new, h1, h2, rfl, h4, ?_, h5⟩
  intro b
  rw [hc, h3]
  simp

/-- **C18** for candidates at most 10 characters longer than the query: see `C18_v2_spells_partial`. -/
theorem C18_v2_short_partial (h : Reachable U .v2 m st) (hf : FuzzyFor q p) (hq : QueryOk U q) (hp : p.text ≠ [])
    (hs : s.length ≤ p.text.length + 10)
    {buf buf' : List Range} {d : FzfDistance} (hd : ReturnsRanges U m q s buf buf' (some d)) :
    ∃ k ps new, 1 ≤ k ∧ k ≤ p.text.length ∧ buf' = buf ++ new ∧
      Alignment (Cmp U st p.text) (p.text.take k) s ps ∧
      (∀ b, Covers new b ↔ ∃ i ∈ ps, (charRange s i).start ≤ b ∧ b < (charRange s i).stop) ∧
      (26 * ((p.text.length : Int) - 1) + 10 < d.score → k = p.text.length) :=
  C18_v2_spells_partial h hf hq hp (fun _ hg _ _ _ _ hi hj => gap_of_short hs hg hi hj) hd

/-- **C18** for one-character queries, without restriction. -/
theorem C18_v2_one_partial (h : Reachable U .v2 m st) (hf : FuzzyFor q p) (hq : QueryOk U q)
    (hp : p.text.length = 1)
    {buf buf' : List Range} {d : FzfDistance} (hd : ReturnsRanges U m q s buf buf' (some d)) :
    ∃ ps new, buf' = buf ++ new ∧ Alignment (Cmp U st p.text) p.text s ps ∧
      ∀ b, Covers new b ↔ ∃ i ∈ ps, (charRange s i).start ≤ b ∧ b < (charRange s i).stop := by
  have hne : p.text ≠ [] := by intro h; simp [h] at hp
  obtain ⟨k, ps, new, h1, h2, h3, h4, h5, _⟩ := C18_v2_spells_partial h hf hq hne (by
    intro g hg _ k i j hi hj
    have hl := hg.length_eq
    obtain ⟨hk, _⟩ := List.getElem?_eq_some_iff.mp hj
    have : k = 0 := by omega
    subst this
    rw [hi] at hj
    have := Option.some.inj hj
    omega) hd
  rw [List.take_of_length_le (by omega)] at h4
  exact ⟨ps, new, h3, h4, h5⟩

/-- **C18** without restriction: what FzfV2 highlights are at least one and at most `k + 1` characters, the last of which matches the
query's character at `k`. What is missing: the characters before it match characters of the query (`C18_gap`), all of them
(`C18_false`). -/
theorem C18_v2_any_partial (h : Reachable U .v2 m st) (hf : FuzzyFor q p) (hq : QueryOk U q) (hp : p.text ≠ [])
    {buf buf' : List Range} {d : FzfDistance} (hd : ReturnsRanges U m q s buf buf' (some d)) :
    ∃ k i ps new c e, buf' = buf ++ new ∧ (ps ++ [i]).Pairwise (· < ·) ∧ ps.length ≤ k ∧ p.text[k]? = some e ∧ s[i]? = some c ∧
      Cmp U st p.text e c ∧
      ∀ b, Covers new b ↔ ∃ j ∈ ps ++ [i], (charRange s j).start ≤ b ∧ b < (charRange s j).stop := by
  obtain ⟨x, new, hx, rfl, hc, rfl⟩ := fuzzy_call h hf hq hp hd
  rw [← fuzzyFor_rel hf hq]
  obtain ⟨k, i, l, c, hk, h1, h2, h3, h4, h5⟩ := v2Result_last (posBonus_nonneg U st.scheme s) hp hx
  rw [h1] at h4 h5 hc
  refine ⟨k, i, l.reverse, new, c, p.text[k], rfl, ?_, ?_, by simp [hk], h2, ?_, fun b => ?_⟩
  · rw [← List.reverse_cons, List.pairwise_reverse]
    exact h4
  · simpa using h5
  · simpa [rel, List.getD_eq_getElem?_getD, hk] using h3
  · rw [hc b]
    simp [or_comm]

/-- `ab` in `aab` highlights the first `a` only, which is the query's character at 0. -/
example : ReturnsRanges Concrete.U (Concrete.metric .v2) (Concrete.parse "ab") "aab".toList [] [⟨0, 1⟩] (some ⟨36⟩) :=
  Concrete.returnsRanges (by decide +kernel)

/-- A call that meets the hypotheses, whose score forces the whole query to be highlighted. -/
example : ReturnsRanges Concrete.U (Concrete.metric .v2) (Concrete.parse "o/b") "foo/bar".toList [] [⟨2, 5⟩] (some ⟨61⟩) ∧
    "foo/bar".toList.length ≤ "o/b".toList.length + 10 :=
  ⟨Concrete.returnsRanges (by decide +kernel), by decide⟩

example : ReturnsRanges Concrete.U (Concrete.metric .v2) (Concrete.parse "abc") "abc".toList [] [⟨0, 3⟩] (some ⟨88⟩) ∧
    26 * ((3 : Int) - 1) + 10 < 88 :=
  ⟨Concrete.returnsRanges (by decide +kernel), by decide⟩

/-- Without the restriction on gaps, FzfV2 can highlight characters that match no character of the query: `abcdefg`
in `za`, 60 times `x`, `bcdefg` highlights the last `x` instead of `b`. -/
theorem C18_gap : ∃ buf' d, ReturnsRanges Concrete.U (Concrete.metric .v2) (Concrete.parse "abcdefg")
      ("zaxxxxxxxxxxxxxxxxxxxxxxxxxxxxxxxxxxxxxxxxxxxxxxxxxxxxxxxxxxxxbcdefg").toList [] buf' (some d) ∧
    Covers buf' 61 ∧ ("zaxxxxxxxxxxxxxxxxxxxxxxxxxxxxxxxxxxxxxxxxxxxxxxxxxxxxxxxxxxxxbcdefg").toList[61]? = some 'x' ∧
    ¬ Covers buf' 62 ∧ ("zaxxxxxxxxxxxxxxxxxxxxxxxxxxxxxxxxxxxxxxxxxxxxxxxxxxxxxxxxxxxxbcdefg").toList[62]? = some 'b' := by
  refine ⟨[⟨1, 2⟩, ⟨61, 62⟩, ⟨63, 68⟩], ⟨93⟩, Concrete.returnsRanges (by decide +kernel), ?_, by decide, ?_, by decide⟩
  · exact ⟨⟨61, 62⟩, by decide, by decide, by decide⟩
  · simp [Covers]

/-! ### Exact, prefix, suffix and equality patterns -/

/-- **C19.** One such pattern appends one range, which covers one occurrence of the pattern's text; the score is the
documented score of these positions. The occurrence found for `^` starts after the leading spaces that the
candidate has in excess of the pattern's, and the one found for `$` ends before the trailing spaces in excess. -/
theorem C19_block (h : Reachable U a m st) (hp : PatternOk U p) (hk : p.matchType ≠ .fuzzy) (hi : p.isInverse = false)
    {buf buf' : List Range} {d : FzfDistance} (hd : ReturnsRanges U m (single p) s buf buf' (some d)) :
    ∃ i, buf' = buf ++ [byteRange s i (i + p.text.length)] ∧ OccursAt (Cmp U st p.text) p.text s i ∧
      d = ⟨alignScore (posBonus U st.scheme s) (List.range' i p.text.length)⟩ ∧
      (p.matchType = .prefixExact ∨ p.matchType = .equalExact → i + leading p.text = leading s) ∧
      (p.matchType = .suffixExact ∨ p.matchType = .equalExact →
        s.length - (i + p.text.length) + trailing p.text = trailing s) := by
  obtain ⟨rfl, h2⟩ := (returnsRanges_iff h (queryOk_single hp)).mp hd
  rw [result_single] at h2 ⊢
  unfold patHit at h2 ⊢
  simp only [hi, Bool.false_eq_true, if_false] at h2 ⊢
  cases hh : rawHit U (pureOf a) st s p with
  | none => rw [hh] at h2; simp at h2
  | some x =>
    obtain ⟨i, h3, rfl, h5, h6, _⟩ := block_hit hk hp hh
    rw [hh] at h2
    exact ⟨i, rfl, h3, Option.some.inj h2, h5, h6⟩

example : ReturnsRanges Concrete.U (Concrete.metric .v2) (single (mkPattern Concrete.U false .equalExact "ab".toList))
      "  ab ".toList [] [⟨2, 4⟩] (some ⟨62⟩) ∧
    ReturnsRanges Concrete.U (Concrete.metric .v2) (single (mkPattern Concrete.U false .suffixExact "bc".toList))
      "abcbc ".toList [] [⟨3, 5⟩] (some ⟨36⟩) ∧
    Concrete.parse "bc$" = single (mkPattern Concrete.U false .suffixExact "bc".toList) :=
  ⟨Concrete.returnsRanges (by decide +kernel), Concrete.returnsRanges (by decide +kernel), by decide +kernel⟩

/-! ### Several conditions -/

/-- **C20, full statement.** `ps` are the first matching alternatives of the conditions, `rss` the ranges appended for
each of them alone. -/
def C20 : Prop :=
  ∀ (U : Unicode) (a : Algo) (m : Metric) (st : Settings) (cs : List Condition) (ps : List Pattern)
    (rss : List (List Range)) (s : List Char) (new : List Range) (d : FzfDistance),
    Reachable U a m st → QueryOk U (.extended cs) → List.Forall₂ (FirstMatch U st s) cs ps →
    List.Forall₂ (fun p rs => ∃ d, ReturnsRanges U m (single p) s [] rs d) ps rss →
    ReturnsRanges U m (.extended cs) s [] new (some d) → ∀ b, Covers new b ↔ ∃ rs ∈ rss, Covers rs b

/-- **C20 is false.** `'b 'abc` in `abc`: the block `abc` is merged into the range of `b` and loses its last byte. -/
theorem C20_false : ¬ C20 := by
  intro h
  have h1 := (h Concrete.U .v1 (Concrete.metric .v1) defaultSettings
    [[mkPattern Concrete.U false .exact "b".toList], [mkPattern Concrete.U false .exact "abc".toList]]
    [mkPattern Concrete.U false .exact "b".toList, mkPattern Concrete.U false .exact "abc".toList]
    [[⟨1, 2⟩], [⟨0, 3⟩]] "abc".toList [⟨0, 2⟩] ⟨104⟩ (Concrete.reachable ..) (Concrete.queryOk (by decide +kernel))
    (.cons ⟨[], [], rfl, by simp, ?_⟩ (.cons ⟨[], [], rfl, by simp, ?_⟩ .nil))
    (.cons ⟨some ⟨16⟩, Concrete.returnsRanges (by decide +kernel)⟩
      (.cons ⟨some ⟨88⟩, Concrete.returnsRanges (by decide +kernel)⟩ .nil))
    (Concrete.returnsRanges (by decide +kernel)) 2).mpr ⟨[⟨0, 3⟩], by simp, ⟨0, 3⟩, by simp, by decide, by decide⟩
  · simp [Covers] at h1
  · exact ⟨1, ['a'], ['b'], ['c'], rfl, rfl, .cons (.inl rfl) .nil⟩
  · exact ⟨0, [], "abc".toList, [], rfl, rfl, .cons (.inl rfl) (.cons (.inl rfl) (.cons (.inl rfl) .nil))⟩

/-- The parser produces that query. -/
example : Concrete.parse "'b 'abc" = .extended
    [[mkPattern Concrete.U false .exact "b".toList], [mkPattern Concrete.U false .exact "abc".toList]] := by
  decide +kernel

theorem single_ranges (h : Reachable U a m st) {cs : List Condition} {ps : List Pattern} {rss : List (List Range)}
    (hok : ∀ c ∈ cs, ∀ p ∈ c, PatternOk U p) (hps : List.Forall₂ (FirstMatch U st s) cs ps)
    (hrs : List.Forall₂ (fun p rs => ∃ d, ReturnsRanges U m (single p) s [] rs d) ps rss) (b : Nat) :
    (∃ p ∈ ps, ∃ x, patHit U (pureOf a) st s p = some x ∧ Covered x.1 b) ↔ ∃ rs ∈ rss, Covers rs b := by
  induction hps generalizing rss with
  | nil => cases hrs; simp
  | @cons c p cs ps hf hps ih =>
    cases hrs with
    | @cons _ rs _ rss hr hrs =>
      have hp := hok c (by simp) p hf.mem
      have hpm : PatternMatches U st p s := by obtain ⟨_, _, _, _, hm⟩ := hf; exact hm
      obtain ⟨d, hr⟩ := hr
      obtain ⟨x, hx, rfl, _⟩ := single_call h hp hpm hr
      have := ih (fun c hc => hok c (by simp [hc])) hrs
      simp only [List.mem_cons, exists_eq_or_imp, this, hx, List.nil_append, covers_def, patHit_alone hp.1 hx]
      constructor
      · rintro (⟨y, hy, h⟩ | h)
        · cases hy; exact .inl h
        · exact .inr h
      · rintro (h | h)
        · exact .inl ⟨x, rfl, h⟩
        · exact .inr h

/-- **C20**, one half, for every query: only bytes highlighted for some condition are covered. What is missing: the
other half, which is false (`C20_false`); see `C20_union_partial`. -/
theorem C20_sound_partial (h : Reachable U a m st) {cs : List Condition} {ps : List Pattern} {rss : List (List Range)}
    (hq : QueryOk U (.extended cs)) (hps : List.Forall₂ (FirstMatch U st s) cs ps)
    (hrs : List.Forall₂ (fun p rs => ∃ d, ReturnsRanges U m (single p) s [] rs d) ps rss) {new : List Range}
    {d : Option FzfDistance} (hd : ReturnsRanges U m (.extended cs) s [] new d) (b : Nat) (hb : Covers new b) :
    ∃ rs ∈ rss, Covers rs b := by
  have hok := fun c hc => (hq c hc).2
  rw [← single_ranges h hok hps hrs b]
  obtain ⟨rfl, _⟩ := (returnsRanges_iff h hq).mp hd
  rw [List.nil_append, covers_def, result_extended] at hb
  have hne := fun r hr => (condsHit_slice (U := U) (a := a) (st := st) (s := s)
    (fun c hc p hp => (hok c hc p hp).1) r hr).lt
  rcases insertAll_sound sep_nil hne hb with h1 | ⟨r, hr, hr'⟩
  · simp at h1
  · rw [(condsHit_ranges hok hps).1, List.mem_flatten] at hr
    obtain ⟨l, hl, hr⟩ := hr
    simp only [List.mem_map] at hl
    obtain ⟨p, hp, rfl⟩ := hl
    cases hx : patHit U (pureOf a) st s p with
    | none => rw [hx] at hr; simp at hr
    | some x =>
      rw [hx] at hr
      exact ⟨p, hp, x, hx, r, hr, hr'⟩

/-- **C20**, for every query: what is highlighted for the first conditions stays highlighted. What is missing: the blocks
of later conditions. -/
theorem C20_kept_partial (h : Reachable U a m st) {cs₁ cs₂ : List Condition} (hq : QueryOk U (.extended (cs₁ ++ cs₂)))
    (h₁ : QueryMatches U st (.extended cs₁) s) {new₁ new : List Range} {d₁ d : Option FzfDistance}
    (hd₁ : ReturnsRanges U m (.extended cs₁) s [] new₁ d₁) (hd : ReturnsRanges U m (.extended (cs₁ ++ cs₂)) s [] new d)
    (b : Nat) (hb : Covers new₁ b) : Covers new b := by
  have hq₁ : QueryOk U (.extended cs₁) := fun c hc => hq c (by simp [hc])
  have hs := (result_isSome (a := a) (st := st) (s := s) hq₁).mpr h₁
  obtain ⟨rfl, _⟩ := (returnsRanges_iff h hq).mp hd
  obtain ⟨rfl, _⟩ := (returnsRanges_iff h hq₁).mp hd₁
  rw [result_extended] at hs hb ⊢
  have hsl : ∀ cs' : List Condition, (∀ c ∈ cs', c ∈ cs₁ ++ cs₂) → ∀ r ∈ (condsHit U (pureOf a) st s cs').1, r.start < r.stop :=
    fun cs' hc r hr => (condsHit_slice (fun c hc' p hp => ((hq c (hc c hc')).2 p hp).1) r hr).lt
  rw [List.nil_append, covers_def] at hb ⊢
  rw [condsHit_append hs, insertAll_append]
  exact insertAll_mono (sep_insertAll sep_nil (hsl cs₁ (by simp +contextual))) (hsl cs₂ (by simp +contextual)) hb

/-- **C20** when no block is inserted around a hole: the first matching alternative of each condition is fuzzy,
or negated, or the bytes of its block that the preceding conditions have highlighted, other than the block's first byte,
extend to the end of the block. What is missing: other blocks, for which the statement is false
(`C20_false`). -/
theorem C20_union_partial (h : Reachable U a m st) {cs : List Condition} {ps : List Pattern} {rss : List (List Range)}
    (hq : QueryOk U (.extended cs)) (hps : List.Forall₂ (FirstMatch U st s) cs ps)
    (hrs : List.Forall₂ (fun p rs => ∃ d, ReturnsRanges U m (single p) s [] rs d) ps rss)
    (hg : ∀ (l₁ : List Condition) (c : Condition) (l₂ : List Condition) (p : Pattern), cs = l₁ ++ c :: l₂ →
      FirstMatch U st s c p → p.isInverse = true ∨ p.matchType = .fuzzy ∨
        ∀ rs₁ d₁ rs d, ReturnsRanges U m (.extended l₁) s [] rs₁ d₁ → ReturnsRanges U m (single p) s [] rs d →
          ∀ r ∈ rs, ∀ b b', r.start < b → b ≤ b' → b' < r.stop → Covers rs₁ b → Covers rs₁ b')
    {new : List Range} {d : Option FzfDistance} (hd : ReturnsRanges U m (.extended cs) s [] new d) (b : Nat) :
    Covers new b ↔ ∃ rs ∈ rss, Covers rs b := by
  have hok := fun c hc => (hq c hc).2
  rw [← single_ranges h hok hps hrs b]
  obtain ⟨rfl, _⟩ := (returnsRanges_iff h hq).mp hd
  rw [List.nil_append, covers_def, result_extended]
  have := union_aux (U := U) (a := a) (st := st) (s := s) cs [] ps (by simpa using hok) (by rfl) hps ?_ b
  · simpa [condsHit] using this
  · intro l₁ c l₂ p x hcs hf hx
    have hp := hok c (by rw [hcs]; simp) p hf.mem
    rcases hg l₁ c l₂ p hcs hf with h1 | h1 | h1
    · exact .inl h1
    · exact .inr (.inl h1)
    · by_cases hk : p.matchType = .fuzzy
      · exact .inr (.inl hk)
      by_cases hi : p.isInverse = true
      · exact .inl hi
      refine .inr (.inr ?_)
      intro r hr b b' h2 h3 h4 h5
      have hq₁ : QueryOk U (.extended l₁) := fun c hc => hq c (by rw [hcs]; simp [hc])
      have e1 : ReturnsRanges U m (.extended l₁) s [] ([] ++ insertAll [] (condsHit U (pureOf a) st s ([] ++ l₁)).1)
          ((result U a st s (.extended l₁)).2.map FzfDistance.fromScore) :=
        (returnsRanges_iff h hq₁).mpr ⟨by rw [result_extended]; rfl, rfl⟩
      have e2 : ReturnsRanges U m (single p) s [] ([] ++ insertAll [] x.1) (some (FzfDistance.fromScore x.2)) :=
        (returnsRanges_iff h (queryOk_single hp)).mpr ⟨by rw [result_single, hx], by rw [result_single, hx]; rfl⟩
      refine h1 _ _ _ _ e1 e2 r ?_ b b' h2 h3 h4 h5
      rcases patHit_shape hp.1 hx with ⟨h6, _⟩ | ⟨_, h6, _⟩ | ⟨_, _, r', _, h6⟩
      · exact absurd h6 hi
      · exact absurd h6 hk
      · rw [h6] at hr ⊢
        simpa [pinsert] using hr

/-- **C20** when every condition but the first has only fuzzy and negated alternatives. -/
theorem C20_fuzzy_partial (h : Reachable U a m st) {c₀ : Condition} {cs : List Condition} {ps : List Pattern}
    {rss : List (List Range)} (hq : QueryOk U (.extended (c₀ :: cs)))
    (hps : List.Forall₂ (FirstMatch U st s) (c₀ :: cs) ps)
    (hrs : List.Forall₂ (fun p rs => ∃ d, ReturnsRanges U m (single p) s [] rs d) ps rss)
    (hg : ∀ c ∈ cs, ∀ p ∈ c, p.isInverse = true ∨ p.matchType = .fuzzy)
    {new : List Range} {d : Option FzfDistance} (hd : ReturnsRanges U m (.extended (c₀ :: cs)) s [] new d) (b : Nat) :
    Covers new b ↔ ∃ rs ∈ rss, Covers rs b := by
  refine C20_union_partial h hq hps hrs ?_ hd b
  intro l₁ c l₂ p hcs hf
  cases l₁ with
  | nil =>
    refine .inr (.inr ?_)
    intro rs₁ d₁ rs d h1 _ r _ b b' _ _ _ hb
    obtain ⟨rfl, _⟩ := (returnsRanges_iff h (q := .extended []) (by intro c hc; simp at hc)).mp h1
    rw [result_extended] at hb
    simp [condsHit, Covers] at hb
  | cons c' l₁ =>
    simp only [List.cons_append, List.cons.injEq] at hcs
    rcases hg c (by rw [hcs.2]; simp) p hf.mem with h1 | h1
    · exact .inl h1
    · exact .inr (.inl h1)

/-- **C53.** What a further condition adds to the highlighted bytes, for every query: all bytes highlighted for its first matching
alternative `p` alone if `p` is fuzzy; of the block of any other alternative, the bytes up to the end of the first range that starts after the
block's first byte. -/
theorem C53_next (h : Reachable U a m st) {cs : List Condition} {c : Condition} (hq : QueryOk U (.extended (cs ++ [c])))
    {new₁ new rs : List Range} {d₁ : FzfDistance} {d d' : Option FzfDistance}
    (hd₁ : ReturnsRanges U m (.extended cs) s [] new₁ (some d₁)) (hf : FirstMatch U st s c p)
    (hr : ReturnsRanges U m (single p) s [] rs d') (hd : ReturnsRanges U m (.extended (cs ++ [c])) s [] new d) (b : Nat) :
    Covers new b ↔ Covers new₁ b ∨ ∃ r ∈ rs, r.start ≤ b ∧ b < r.stop ∧
      (p.matchType = .fuzzy ∨ ∀ r' ∈ new₁, r.start < r'.start → b < r'.stop) := by
  have hq₁ : QueryOk U (.extended cs) := fun c hc => hq c (by simp [hc])
  have hcok : ∀ p ∈ c, PatternOk U p := (hq c (by simp)).2
  have hp := hcok p hf.mem
  obtain ⟨rfl, _⟩ := (returnsRanges_iff h hq).mp hd
  obtain ⟨rfl, hs⟩ := (returnsRanges_iff h hq₁).mp hd₁
  obtain ⟨rfl, _⟩ := (returnsRanges_iff h (queryOk_single hp)).mp hr
  have hsome : (condsHit U (pureOf a) st s cs).2.isSome = true := by
    rw [result_extended] at hs
    cases hx : (condsHit U (pureOf a) st s cs).2 with
    | none => rw [hx] at hs; simp at hs
    | some x => rfl
  obtain ⟨x, hx, hch⟩ := firstMatch_hit (a := a) hcok hf
  have hc : condsHit U (pureOf a) st s [c] = (x.1, some x.2) := by simp [condsHit, hch]
  have happ := condsHit_append (cs₂ := [c]) hsome
  rw [hc] at happ
  have hsl : ∀ r ∈ (condsHit U (pureOf a) st s cs).1, Slice s r :=
    condsHit_slice (fun c hc p hp => ((hq₁ c hc).2 p hp).1)
  have hsep : Sep (insertAll [] (condsHit U (pureOf a) st s cs).1) :=
    sep_insertAll sep_nil (fun r hr => (hsl r hr).lt)
  have hsl' := insertAll_slice sep_nil (by simp) hsl
  simp only [List.nil_append, covers_def, result_extended, result_single, hx, happ, insertAll_append]
  rcases patHit_shape hp.1 hx with ⟨_, h1⟩ | ⟨_, h0, is, h1, h2⟩ | ⟨_, h0, r, _, h1⟩
  · simp [h1]
  · rw [h2, insertAll_chars hsep hsl' h1]
    have := insertAll_chars (l := []) sep_nil (by simp) h1 (b := b)
    simp only [covered_nil, false_or] at this
    rw [← this]
    simp only [h0, true_or, and_true, Covered]
  · rw [h1]
    simp only [insertAll_cons, insertAll_nil, h0, false_or]
    simp only [pinsert, List.mem_singleton, exists_eq_left]
    exact ⟨pinsert_bound hsep, fun h => h.elim (pinsert_mono hsep) (fun h => pinsert_kept hsep h.1 h.2.1 h.2.2)⟩

/-- **C53**, negated alternatives highlight nothing. -/
theorem C53_negated (h : Reachable U a m st) (hp : PatternOk U p) (hi : p.isInverse = true) {rs : List Range}
    {d : Option FzfDistance} (hr : ReturnsRanges U m (single p) s [] rs d) : rs = [] := by
  obtain ⟨rfl, _⟩ := (returnsRanges_iff h (queryOk_single hp)).mp hr
  rw [result_single]
  unfold patHit
  rw [if_pos hi]
  cases rawHit U (pureOf a) st s p <;> simp

/-- `'b 'abc` in `abc`: byte 2 of the block `abc` is not highlighted, because the range of `b` starts after its first byte and ends before. -/
example : ReturnsRanges Concrete.U (Concrete.metric .v1) (Concrete.parse "'b 'abc") "abc".toList [] [⟨0, 2⟩] (some ⟨104⟩) ∧
    ReturnsRanges Concrete.U (Concrete.metric .v1) (single (mkPattern Concrete.U false .exact "b".toList)) "abc".toList []
      [⟨1, 2⟩] (some ⟨16⟩) ∧
    ReturnsRanges Concrete.U (Concrete.metric .v1) (single (mkPattern Concrete.U false .exact "abc".toList)) "abc".toList []
      [⟨0, 3⟩] (some ⟨88⟩) :=
  ⟨Concrete.returnsRanges (by decide +kernel), Concrete.returnsRanges (by decide +kernel),
    Concrete.returnsRanges (by decide +kernel)⟩

/-- Three conditions; the second one's first alternative does not match and highlights nothing. -/
example : Concrete.parse "'bc z | xd !w" = .extended
      [[mkPattern Concrete.U false .exact "bc".toList],
        [mkPattern Concrete.U false .fuzzy "z".toList, mkPattern Concrete.U false .fuzzy "xd".toList],
        [mkPattern Concrete.U true .exact "w".toList]] ∧
    ReturnsRanges Concrete.U (Concrete.metric .v2) (Concrete.parse "'bc z | xd !w") "axbcd".toList []
      [⟨1, 5⟩] (some ⟨64⟩) ∧
    ReturnsRanges Concrete.U (Concrete.metric .v2) (single (mkPattern Concrete.U false .exact "bc".toList))
      "axbcd".toList [] [⟨2, 4⟩] (some ⟨36⟩) ∧
    ReturnsRanges Concrete.U (Concrete.metric .v2) (single (mkPattern Concrete.U false .fuzzy "xd".toList))
      "axbcd".toList [] [⟨1, 2⟩, ⟨4, 5⟩] (some ⟨28⟩) :=
  ⟨by decide +kernel, Concrete.returnsRanges (by decide +kernel), Concrete.returnsRanges (by decide +kernel),
    Concrete.returnsRanges (by decide +kernel)⟩

end Norm.Props
