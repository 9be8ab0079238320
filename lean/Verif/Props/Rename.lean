import Verif.Proofs.Rename
import Verif.Proofs.Replaced
import Verif.Props.Outcome

/-!
# Other letters, other platforms

Property C93: which letters and digits a query and a candidate are written with does not matter, as long as equal ones stay equal and
different ones different. Property C94: what the platform and the version of Unicode may change. -/

namespace Norm.Props

open Spec

variable {U U' : Unicode} {a : Algo} {m m' : Metric} {st : Settings} {q : FzfQuery} {s t : List Char} {f : Char → Char}
  {buf b : List Range} {d : Option FzfDistance}

/-- **C93**, for `parse`: a string in other letters and digits stands for the same query in those letters and digits. -/
theorem C93_parse (hf : Exchanges f) (hq : Parsed U t q) : Parsed U (t.map f) (renameQuery U f q) := by
  rw [hq.eq, ← query_map hf.fixes]
  exact parsed_new U _

/-- **C93**, for `parse_not_extended`. -/
theorem C93_raw (hq : ParsedRaw U t q) : ParsedRaw U (t.map f) (renameQuery U f q) := by
  obtain ⟨P, P', hP, h⟩ := hq
  by_cases hl : t.length ≤ P.chars.length
  · obtain ⟨P₁, _, h1⟩ := FzfParser.parseNotExtended_ok U P t hl
    obtain ⟨P₂, _, h2⟩ := FzfParser.parseNotExtended_ok U P (t.map f) (by simpa using hl)
    rw [h1] at h
    cases h
    exact ⟨P, P₂, hP, h2⟩
  · rw [FzfParser.parseNotExtended_panic U P t (by omega)] at h
    cases h

/-- **C93.** Writing both the query and the candidate in other letters and digits does not change the distance. -/
theorem C93_distance (hU : KnowsCapitals U) (hf : Exchanges f) (h : Reachable U a m st) (h' : Reachable U a m' st) (hq : QueryOk U q)
    (hn : st.normalization = true → ∀ c ∈ s, ∀ l, ¬ Listed c l) :
    Returns U m' (renameQuery U f q) (s.map f) d ↔ Returns U m q s d := by
  rw [returns_iff h hq, returns_iff h' (renameQuery_ok hq), result_map hq fun p _ => hf.keeps hU hn p.text]

/-- **C93**, for the ranges. -/
theorem C93_ranges (hU : KnowsCapitals U) (hf : Exchanges f) (h : Reachable U a m st) (h' : Reachable U a m' st) (hq : QueryOk U q)
    (hn : st.normalization = true → ∀ c ∈ s, ∀ l, ¬ Listed c l) :
    ReturnsRanges U m' (renameQuery U f q) (s.map f) buf b d ↔ ReturnsRanges U m q s buf b d := by
  rw [returnsRanges_iff h hq, returnsRanges_iff h' (renameQuery_ok hq), result_map hq fun p _ => hf.keeps hU hn p.text]

/-- Exchange `a` with `b`, `A` with `B` and `1` with `2`. -/
private def swap (c : Char) : Char :=
  (([('a', 'b'), ('b', 'a'), ('A', 'B'), ('B', 'A'), ('1', '2'), ('2', '1')] : List (Char × Char)).lookup c).getD c

private theorem swap_other {c : Char} (h : c ∉ ['a', 'b', 'A', 'B', '1', '2']) : swap c = c := by
  simp only [List.mem_cons, List.not_mem_nil, or_false, not_or] at h
  simp [swap, List.lookup, beq_eq_false_iff_ne.mpr h.1, beq_eq_false_iff_ne.mpr h.2.1, beq_eq_false_iff_ne.mpr h.2.2.1,
    beq_eq_false_iff_ne.mpr h.2.2.2.1, beq_eq_false_iff_ne.mpr h.2.2.2.2.1, beq_eq_false_iff_ne.mpr h.2.2.2.2.2]

private theorem swap_exchanges : Exchanges swap := by
  have inv : ∀ c, swap (swap c) = c := by
    intro c
    by_cases h : c ∈ ['a', 'b', 'A', 'B', '1', '2']
    · revert c
      decide +kernel
    · rw [swap_other h, swap_other h]
  refine ⟨fun c d h => by rw [← inv c, h, inv], by decide +kernel, by decide +kernel, by decide +kernel, fun c h1 h2 h3 => swap_other ?_⟩
  have k1 : ∀ x ∈ ['a', 'b', 'A', 'B', '1', '2'], x ∈ "abcdefghijklmnopqrstuvwxyz".toList ∨ x ∈ "ABCDEFGHIJKLMNOPQRSTUVWXYZ".toList ∨
      x ∈ "0123456789".toList := by decide +kernel
  intro hc
  rcases k1 c hc with h | h | h
  · exact h1 h
  · exact h2 h
  · exact h3 h

private theorem knows : KnowsCapitals Concrete.U := by
  intro c hc
  have key : ∀ n : Fin 128, (Concrete.U.isUppercase (Char.ofNat n.val) = true ↔ Char.ofNat n.val ∈ "ABCDEFGHIJKLMNOPQRSTUVWXYZ".toList) := by
    decide +kernel
  simpa using key ⟨c.toNat, hc⟩

/-- `^ab 1 !C` in `abx1`, and `^ba 2 !C` in `bax2`. -/
example : KnowsCapitals Concrete.U ∧ Exchanges swap ∧ "^ab 1 !C".toList.map swap = "^ba 2 !C".toList ∧
    "abx1".toList.map swap = "bax2".toList ∧ renameQuery Concrete.U swap (Concrete.parse "^ab 1 !C") = Concrete.parse "^ba 2 !C" ∧
    ReturnsRanges Concrete.U (Concrete.metric .v2) (Concrete.parse "^ab 1 !C") "abx1".toList [] [⟨0, 2⟩, ⟨3, 4⟩] (some ⟨92⟩) ∧
    ReturnsRanges Concrete.U (Concrete.metric .v2) (Concrete.parse "^ba 2 !C") "bax2".toList [] [⟨0, 2⟩, ⟨3, 4⟩] (some ⟨92⟩) :=
  ⟨knows, swap_exchanges, by decide +kernel, by decide +kernel, by decide +kernel, Concrete.returnsRanges (by decide +kernel),
    Concrete.returnsRanges (by decide +kernel)⟩

/-- With normalization, the accented letters count as well: `a` matches `á`, and `b` does not. -/
example : Returns Concrete.U (Concrete.metric .v2 .smart true .default) (Concrete.parse "a") "á".toList (some ⟨32⟩) ∧
    Returns Concrete.U (Concrete.metric .v2 .smart true .default) (Concrete.parse "b") ("á".toList.map swap) none :=
  ⟨Concrete.returns (by decide +kernel), by
    have : "á".toList.map swap = "á".toList := by decide +kernel
    rw [this]
    exact Concrete.returns (by decide +kernel)⟩

/-- **C94**, for `parse`: if two versions of Unicode agree on which characters of a string are capitals, it stands for the same query. -/
theorem C94_parse (hu : ∀ c ∈ t, U'.isUppercase c = U.isUppercase c) (hq : Parsed U t q) : Parsed U' t q := by
  have hm : ∀ p ∈ patterns q, ∀ c ∈ p.text, U'.isUppercase c = U.isUppercase c := by
    rw [hq.eq]
    exact fun p hp c hc => hu c (query_text_mem hp c hc)
  have := query_map (U := U) (U' := U') (f := id) (fun _ _ _ => Iff.rfl) t
  rw [List.map_id, ← hq.eq, renameQuery_id hq.ok hm] at this
  rw [← this]
  exact parsed_new U' t

/-- **C94.** If two platforms and versions of Unicode agree on the capitals of the query and on the classes of the candidate's characters,
then they agree on the distance. -/
theorem C94_distance (h : Reachable U a m st) (h' : Reachable U' a m' st) (hq : QueryOk U q)
    (hu : ∀ p ∈ patterns q, ∀ c ∈ p.text, U'.isUppercase c = U.isUppercase c)
    (hc : ∀ c ∈ s, classOf U' st.scheme c = classOf U st.scheme c) : Returns U' m' q s d ↔ Returns U m q s d := by
  have hq' : QueryOk U' q := by
    rw [← renameQuery_id hq hu]
    exact renameQuery_ok hq
  rw [returns_iff h hq, returns_iff h' hq', result_id hq hu hc]

/-- **C94**, for the ranges. -/
theorem C94_ranges (h : Reachable U a m st) (h' : Reachable U' a m' st) (hq : QueryOk U q)
    (hu : ∀ p ∈ patterns q, ∀ c ∈ p.text, U'.isUppercase c = U.isUppercase c)
    (hc : ∀ c ∈ s, classOf U' st.scheme c = classOf U st.scheme c) :
    ReturnsRanges U' m' q s buf b d ↔ ReturnsRanges U m q s buf b d := by
  have hq' : QueryOk U' q := by
    rw [← renameQuery_id hq hu]
    exact renameQuery_ok hq
  rw [returnsRanges_iff h hq, returnsRanges_iff h' hq', result_id hq hu hc]

/-- **C94**, for ASCII: the version of Unicode does not matter, nor does the platform, except for candidates with a backslash under the
path scheme. -/
theorem C94_ascii (hU : KnowsCapitals U) (hU' : KnowsCapitals U') (ht : ∀ c ∈ t, c.toNat < 128) (hs : ∀ c ∈ s, c.toNat < 128)
    (hw : st.scheme = .path → '\\' ∈ s → U'.windows = U.windows) (h : Reachable U a m st) (h' : Reachable U' a m' st) (hq : Parsed U t q) :
    Parsed U' t q ∧ (∀ d, Returns U' m' q s d ↔ Returns U m q s d) ∧
      ∀ buf b d, ReturnsRanges U' m' q s buf b d ↔ ReturnsRanges U m q s buf b d := by
  have hu : ∀ c ∈ t, U'.isUppercase c = U.isUppercase c := fun c hc => by
    rw [Bool.eq_iff_iff, hU' c (ht c hc), hU c (ht c hc)]
  have hm : ∀ p ∈ patterns q, ∀ c ∈ p.text, U'.isUppercase c = U.isUppercase c := by
    rw [hq.eq]
    exact fun p hp c hc => hu c (query_text_mem hp c hc)
  have hc : ∀ c ∈ s, classOf U' st.scheme c = classOf U st.scheme c := fun c hc =>
    classOf_ascii (hs c hc) fun h1 h2 => hw h1 (h2 ▸ hc)
  exact ⟨C94_parse hu hq, fun _ => C94_distance h h' hq.ok hm hc, fun _ _ _ => C94_ranges h h' hq.ok hm hc⟩

/-- The Windows platform. -/
private def windows : Unicode := { Concrete.U with windows := true }

/-- `b` in `a/b` on two platforms, under the path scheme. -/
example : KnowsCapitals Concrete.U ∧ KnowsCapitals windows ∧ windows.windows ≠ Concrete.U.windows ∧
    Returns Concrete.U (Concrete.metric .v2 .smart false .path) (Concrete.parse "b") "a/b".toList (some ⟨34⟩) ∧
    Returns windows (Concrete.metric .v2 .smart false .path) (Concrete.parse "b") "a/b".toList (some ⟨34⟩) := by
  have h := Concrete.returns (m := Concrete.metric .v2 .smart false .path) (q := Concrete.parse "b") (s := "a/b") (d := some ⟨34⟩)
    (by decide +kernel)
  have hr : Reachable windows .v2 (Concrete.metric .v2 .smart false .path) ⟨.smart, false, .path⟩ :=
    .setScoringScheme .path (.setCandidateNormalization false (.setCaseSensitivity .smart .new))
  have := C94_ascii (U' := windows) (s := "a/b".toList) (st := ⟨.smart, false, .path⟩) knows knows (by decide +kernel) (by decide +kernel)
    (fun _ h => absurd h (by decide +kernel)) (Concrete.reachable .v2 .smart false .path) hr (Concrete.parsed "b")
  exact ⟨knows, knows, by decide, h, (this.2.1 _).mpr h⟩

/-- **C94**, the exception: a backslash separates the parts of a path on Windows only. -/
theorem C94_backslash : ∃ U U' : Unicode, KnowsCapitals U ∧ KnowsCapitals U' ∧ ∃ q m, Parsed U "b".toList q ∧ Parsed U' "b".toList q ∧
    Reachable U .v2 m ⟨.smart, false, .path⟩ ∧ Reachable U' .v2 m ⟨.smart, false, .path⟩ ∧
    Returns U m q "a\\b".toList (some ⟨32⟩) ∧ Returns U' m q "a\\b".toList (some ⟨34⟩) := by
  refine ⟨Concrete.U, windows, knows, knows, Concrete.parse "b", Concrete.metric .v2 .smart false .path, Concrete.parsed "b",
    C94_parse (U := Concrete.U) (fun _ _ => rfl) (Concrete.parsed "b"), Concrete.reachable .v2 .smart false .path, ?_, Concrete.returns (by decide +kernel), ?_⟩
  · exact .setScoringScheme .path (.setCandidateNormalization false (.setCaseSensitivity .smart .new))
  · have : ((Concrete.metric .v2 .smart false .path).distance windows (Concrete.parse "b") "a\\b".toList).mapR (·.2) = .ok (some ⟨34⟩) := by
      decide +kernel
    cases hm : (Concrete.metric .v2 .smart false .path).distance windows (Concrete.parse "b") "a\\b".toList with
    | panic => rw [hm] at this; cases this
    | ok x =>
      rw [hm] at this
      simp only [Res.mapR, Res.ok.injEq] at this
      exact ⟨x.1, by rw [hm, ← this]⟩

end Norm.Props
