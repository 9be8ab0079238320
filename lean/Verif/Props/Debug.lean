import Verif.Proofs.Debug
import Verif.Props.Concrete

/-!
# What is printed

Properties C66–C68. -/

namespace Norm.Props

open Spec

variable {U : Unicode} {a a' : Algo} {m m' : Metric} {st st' : Settings} {q q' : FzfQuery} {t t' : List Char}

/-! ### Metrics, parsers and distances -/

/-- **C66.** Whatever was called before, a metric prints its name and its three settings. -/
theorem C66_metric (h : Reachable U a m st) (f : Format) : m.debug f = metricText f.alternate a st := by
  obtain ⟨rfl, hs⟩ := reachable_has h
  cases m with
  | v1 m =>
    obtain ⟨h1, h2, h3⟩ := hs
    simp only [Metric.debug, FzfV1.debug, h3, fromInner_intoInner, h1, h2, Metric.algo]
    exact debugStruct_eq f .v1 st
  | v2 m =>
    obtain ⟨h1, h2, h3⟩ := hs
    simp only [Metric.debug, FzfV2.debug, h3, fromInner_intoInner, h1, h2, Metric.algo]
    exact debugStruct_eq f .v2 st

example : (Concrete.metric .v2 .sensitive true .path).debug ⟨false, fun _ => false⟩ =
    "FzfV2 { candidate_normalization: true, case_sensitivity: Sensitive, scoring_scheme: Path, .. }".toList :=
  (C66_metric (Concrete.reachable .v2 .sensitive true .path) ⟨false, fun _ => false⟩).trans (by decide +kernel)

/-- **C66.** Two metrics print alike if and only if they are of the same type and have the same settings. -/
theorem C66_settings {U' : Unicode} (h : Reachable U a m st) (h' : Reachable U' a' m' st') (f : Format) :
    m.debug f = m'.debug f ↔ a = a' ∧ st = st' := by
  rw [C66_metric h, C66_metric h']
  constructor
  · exact metricText_injective
  · rintro ⟨rfl, rfl⟩
    rfl

example (f : Format) : (Concrete.metric .v1 .smart).debug f ≠ (Concrete.metric .v1 .insensitive).debug f :=
  fun e => absurd ((C66_settings (Concrete.reachable .v1 .smart false .default)
    (Concrete.reachable .v1 .insensitive false .default) f).mp e).2 (by decide)

/-- **C66.** All parsers print alike. -/
theorem C66_parser (P : FzfParser) (f : Format) : P.debug f = "FzfParser { .. }".toList := by
  unfold FzfParser.debug debugStruct
  rw [if_pos (by rfl)]
  rfl

/-- **C66.** Two distances print alike if and only if they are equal. -/
theorem C66_distance (d d' : FzfDistance) (f : Format) : d.debug f = d'.debug f ↔ d = d' := by
  constructor
  · intro h
    obtain ⟨x⟩ := d
    obtain ⟨y⟩ := d'
    have : x = y := displayInt_injective (debugTuple1_injective h)
    rw [this]
  · rintro rfl
    rfl

example : FzfDistance.debug ⟨false, fun _ => false⟩ ⟨-12⟩ = "FzfDistance(-12)".toList := by decide +kernel

/-! ### Queries -/

/-- **C67.** What is printed for a query: the text of a lone fuzzy word; otherwise the texts of all patterns in quotes, those of
the same condition in parentheses. -/
theorem C67_output (h : Parsed U t q ∨ ParsedRaw U t q) (f : Format) :
    (∃ p, q = .notExtended p ∧ q.debug f = debugTuple1 f "FzfQuery".toList (debugStr f p.text)) ∨
    (∃ cs, q = .extended cs ∧ q.debug f =
      debugTuple1 f "FzfQuery".toList (debugStr f (conditionsText { f with alternate := false } (texts q)))) := by
  have hok : QueryOk U q := by rcases h with h | h; exacts [h.ok, h.ok]
  cases q with
  | notExtended p => exact .inl ⟨p, rfl, rfl⟩
  | extended cs =>
    refine .inr ⟨cs, rfl, ?_⟩
    unfold FzfQuery.debug
    simp only
    rw [condsText_eq, condsText_eq']
    · rfl
    · intro c hc
      obtain ⟨c', hc', rfl⟩ := List.mem_map.mp hc
      simpa using (hok c' hc').1

example : (Concrete.parse "foo").debug ⟨false, fun _ => false⟩ = "FzfQuery(\"foo\")".toList ∧
    (Concrete.parse "'foo").debug ⟨false, fun _ => false⟩ = "FzfQuery(\"\\\"foo\\\"\")".toList ∧
    (Concrete.parse "a ^b | !c").debug ⟨false, fun _ => false⟩ =
      "FzfQuery(\"\\\"a\\\" && (\\\"b\\\" || \\\"c\\\")\")".toList := by decide +kernel

/-- What is printed does not determine which candidates match: neither negations nor the kinds of the patterns are shown. -/
theorem C67_kinds_false : ¬ ∀ (U : Unicode) (t t' : List Char) (q q' : FzfQuery) (f : Format), Parsed U t q → Parsed U t' q' →
    q.debug f = q'.debug f → ∀ (a : Algo) (m : Metric) (st : Settings), Reachable U a m st → ∀ s d d', Returns U m q s d →
      Returns U m q' s d' → d.isSome = d'.isSome := by
  intro h
  have := h Concrete.U _ _ _ _ ⟨false, fun _ => false⟩ (Concrete.parsed "a b") (Concrete.parsed "a !b") (by decide +kernel)
    .v1 _ _ (Concrete.reachable .v1 .smart false .default) _ _ _
    (Concrete.returns (s := "ab") (d := some ⟨52⟩) (by decide +kernel))
    (Concrete.returns (s := "ab") (d := none) (by decide +kernel))
  revert this
  decide

/-- What is printed does not determine the texts either: a fuzzy word may look like two conditions. -/
theorem C67_false : ¬ ∀ (U : Unicode) (t t' : List Char) (q q' : FzfQuery) (f : Format), Parsed U t q → Parsed U t' q' →
    q.debug f = q'.debug f → texts q = texts q' := by
  intro h
  have := h Concrete.U _ _ _ _ ⟨false, fun _ => false⟩ (Concrete.parsed "\"a\"\\ &&\\ \"b\"") (Concrete.parsed "a b")
    (by decide +kernel)
  revert this
  decide +kernel

/-- **C67.** Queries that print alike have the same texts, if both or neither search for a single text, or if there are no
quotes in them. -/
theorem C67_texts_partial {U' : Unicode} (h : Parsed U t q ∨ ParsedRaw U t q) (h' : Parsed U' t' q' ∨ ParsedRaw U' t' q')
    (f : Format) (hp : (Plain q ↔ Plain q') ∨ ∀ c ∈ texts q ++ texts q', ∀ x ∈ c, '"' ∉ x)
    (he : q.debug f = q'.debug f) : texts q = texts q' := by
  have hok : QueryOk U q := by rcases h with h | h; exacts [h.ok, h.ok]
  have hok' : QueryOk U' q' := by rcases h' with h | h; exacts [h.ok, h.ok]
  have he := debugStr_injective (debugTuple1_injective he)
  have hne : ∀ {U : Unicode} {cs : List Condition}, QueryOk U (.extended cs) → ∀ c ∈ cs.map (·.map (·.text)), c ≠ [] := by
    intro U cs hok c hc
    obtain ⟨c', hc', rfl⟩ := List.mem_map.mp hc
    simpa using (hok c' hc').1
  have mixed : ∀ {U : Unicode} {p : Pattern} {cs : List Condition}, QueryOk U (.extended cs) →
      (∀ c ∈ texts (.notExtended p), ∀ x ∈ c, '"' ∉ x) →
      p.text = condsText { f with alternate := false } (cs.map (·.map (·.text))) →
      texts (.notExtended p) = texts (.extended cs) := by
    intro U p cs hok hq hpt
    by_cases hcs : cs = []
    · subst hcs
      have : p.text = [] := hpt
      simp [texts, this]
    · have := quote_mem_condsText (f := { f with alternate := false }) (hne hok) (by simpa using hcs)
      rw [← hpt] at this
      have hpne : p.text ≠ [] := fun e => by rw [e] at this; cases this
      exact absurd this (hq [p.text] (by simp [texts, hpne]) p.text (by simp))
  cases q with
  | notExtended p =>
    cases q' with
    | notExtended p' =>
      have : p.text = p'.text := he
      simp only [texts, this]
    | extended cs' =>
      rcases hp with hp | hp
      · exact (hp.mp trivial).elim
      · simp only at he
        rw [condsText_eq] at he
        exact mixed hok' (fun c hc => hp c (List.mem_append_left _ hc)) he
  | extended cs =>
    cases q' with
    | notExtended p' =>
      rcases hp with hp | hp
      · exact (hp.mpr trivial).elim
      · simp only at he
        rw [condsText_eq] at he
        exact (mixed hok (fun c hc => hp c (List.mem_append_right _ hc)) he.symm).symm
    | extended cs' =>
      simp only at he
      rw [condsText_eq, condsText_eq] at he
      exact condsText_injective (hne hok) (hne hok') he

example : texts (Concrete.parse "'a | b c\\ d") = [["a".toList, "b".toList], ["c d".toList]] ∧
    ¬ Plain (Concrete.parse "'a | b c\\ d") := by
  constructor
  · decide +kernel
  · rw [show Concrete.parse "'a | b c\\ d" = .extended [[_, _], [_]] from rfl]
    exact id

/-- **C67.** Queries for a single text that print alike return the same for every candidate. -/
theorem C67_plain_partial (h : Parsed U t q ∨ ParsedRaw U t q) (h' : Parsed U t' q' ∨ ParsedRaw U t' q')
    (hq : Plain q) (hq' : Plain q') (f : Format) (he : q.debug f = q'.debug f) (hm : Reachable U a m st) (s : List Char)
    (buf : List Range) : ∃ d buf', ReturnsRanges U m q s buf buf' d ∧ ReturnsRanges U m q' s buf buf' d := by
  have hok : QueryOk U q := by rcases h with h | h; exacts [h.ok, h.ok]
  have hok' : QueryOk U q' := by rcases h' with h | h; exacts [h.ok, h.ok]
  refine ⟨_, _, (returnsRanges_iff hm hok).mpr ⟨rfl, rfl⟩, ?_⟩
  have : result U a st s q = result U a st s q' := by
    cases q with
    | extended cs => exact hq.elim
    | notExtended p =>
      cases q' with
      | extended cs => exact hq'.elim
      | notExtended p' =>
        have he : p.text = p'.text := debugStr_injective (debugTuple1_injective he)
        have e : p = mkPattern U p.isInverse .fuzzy p.text := hok
        have e' : p' = mkPattern U p'.isInverse .fuzzy p'.text := hok'
        rw [e, e', he]
        rfl
  rw [this]
  exact (returnsRanges_iff hm hok').mpr ⟨rfl, rfl⟩

/-- `foo` and `!'foo` (see C08) print alike. -/
example : (Concrete.parse "foo").debug ⟨true, fun _ => false⟩ = (Concrete.parse "!'foo").debug ⟨true, fun _ => false⟩ ∧
    Concrete.parse "foo" ≠ Concrete.parse "!'foo" := by decide +kernel

/-! ### Types private to the crate -/

/-- **C68.** Printing a matrix of scores panics if and only if a score is negative; otherwise a table is printed, the lines of
which all have the same length. -/
theorem C68_matrix {M : Matrix Score} (hlen : M.slice.length = M.height * M.width) (hh : 0 < M.height) (hw : 0 < M.width) :
    (M.debug MatrixItem.score = .panic ↔ ∃ x ∈ M.slice, x < 0) ∧
    ((∀ x ∈ M.slice, 0 ≤ x) → ∃ n rows, rows.length = M.height ∧ Lines n rows ∧
      ((M.height = 1 ∧ M.debug MatrixItem.score = .ok (rows.flatMap (· ++ ['\n']))) ∨
       (1 < M.height ∧ ∃ top bottom, Lines n [top, bottom] ∧
        M.debug MatrixItem.score = .ok (top ++ ['\n'] ++ rows.flatMap (· ++ ['\n']) ++ bottom)))) := by
  refine ⟨⟨fun h => ?_, ?_⟩, fun h => Matrix.debug_ok (MatrixItem.score_ok h) hlen hh hw⟩
  · apply Classical.byContradiction
    intro hn
    have hnn : ∀ x ∈ M.slice, 0 ≤ x := fun x hx => Int.not_lt.mp (fun hlt => hn ⟨x, hx, hlt⟩)
    obtain ⟨n, rows, -, -, h1 | ⟨-, top, bottom, -, h1⟩⟩ := Matrix.debug_ok (MatrixItem.score_ok hnn) hlen hh hw
    · rw [h1.2] at h
      cases h
    · rw [h1] at h
      cases h
  · rintro ⟨x, hx, hlt⟩
    refine Matrix.debug_panic hlen hw hx ?_
    show (if x = 0 then Res.ok 1 else if x < 0 then .panic else .ok (ilog10 x.toNat + 1)) = _
    rw [if_neg (by rintro rfl; exact absurd hlt (by decide)), if_pos hlt]

example : (Matrix.mk [0, 16, 13, 0, 0, 8] 2 3).debug MatrixItem.score =
    .ok "┌        ┐\n│0  16 13│\n│0  0  8 │\n└        ┘".toList := by decide +kernel

/-- **C68.** Printing the matrix of run lengths does not panic. -/
theorem C68_matrix_usize {M : Matrix Nat} (hlen : M.slice.length = M.height * M.width) (hh : 0 < M.height) (hw : 0 < M.width) :
    ∃ n rows, rows.length = M.height ∧ Lines n rows ∧
      ((M.height = 1 ∧ M.debug MatrixItem.usize = .ok (rows.flatMap (· ++ ['\n']))) ∨
       (1 < M.height ∧ ∃ top bottom, Lines n [top, bottom] ∧
        M.debug MatrixItem.usize = .ok (top ++ ['\n'] ++ rows.flatMap (· ++ ['\n']) ++ bottom))) :=
  Matrix.debug_ok (MatrixItem.usize_ok _) hlen hh hw

example : (Matrix.mk [0, 1, 12] 1 3).debug MatrixItem.usize = .ok "[0  1  12]\n".toList := by decide +kernel

/-- Printing the ranges of a call does not separate them by commas: where a comma goes depends on the lengths of the ranges. -/
theorem C68_ranges_false : ¬ ∀ M : MatchedRanges, M.initialLen ≤ M.ranges.length → M.initialLen < M.ranges.length →
    M.debug = .ok ("[".toList ++ ", ".toList.intercalate ((M.ranges.take M.initialLen).map Range.debug) ++ " | ".toList ++
      ", ".toList.intercalate ((M.ranges.drop M.initialLen).map Range.debug) ++ "]".toList) := by
  intro h
  have := h ⟨[⟨0, 1⟩, ⟨2, 3⟩, ⟨4, 9⟩], 2⟩ (by decide) (by decide)
  revert this
  decide +kernel

/-- What is printed instead. -/
example : (MatchedRanges.mk [⟨0, 1⟩, ⟨2, 3⟩, ⟨4, 9⟩] 2).debug = .ok "[0..12..3 | 4..9, ]".toList := by decide +kernel

/-- **C68.** Printing ranges does not panic, and is that of the slice as long as nothing was inserted. -/
theorem C68_ranges_partial {M : MatchedRanges} (h : M.initialLen ≤ M.ranges.length) :
    ∃ out, M.debug = .ok out ∧
      (M.initialLen = M.ranges.length → out = "[".toList ++ ", ".toList.intercalate (M.ranges.map Range.debug) ++ "]".toList) := by
  unfold MatchedRanges.debug
  simp only [sliceToR, sliceFromR, if_pos h, Res.bind_ok]
  by_cases he : (M.ranges.drop M.initialLen).isEmpty
  · rw [if_pos he]
    refine ⟨_, rfl, fun hl => ?_⟩
    rw [hl, List.take_length]
    simp [debugRanges]
  · rw [if_neg he]
    refine ⟨_, rfl, fun hl => absurd ?_ he⟩
    rw [hl, List.drop_length]
    rfl

example : (MatchedRanges.ofVec [⟨0, 1⟩, ⟨2, 3⟩]).debug = .ok "[0..1, 2..3]".toList := by decide +kernel

/-- When the commas are right: every range but the last one is longer than its number, counted from 1, and the last one is not. -/
def CommasOk (l : List Range) : Prop := ∀ (i : Nat) (r : Range), l[i]? = some r → (i + 1 < r.stop - r.start ↔ i + 1 < l.length)

/-- **C68.** Once something was inserted, the ranges are separated by commas exactly if their lengths happen to be such. -/
theorem C68_ranges_iff {M : MatchedRanges} (h : M.initialLen < M.ranges.length) :
    M.debug = .ok ("[".toList ++ ", ".toList.intercalate ((M.ranges.take M.initialLen).map Range.debug) ++ " | ".toList ++
      ", ".toList.intercalate ((M.ranges.drop M.initialLen).map Range.debug) ++ "]".toList) ↔
    CommasOk (M.ranges.take M.initialLen) ∧ CommasOk (M.ranges.drop M.initialLen) := by
  have he : ¬ (M.ranges.drop M.initialLen).isEmpty := by
    rw [List.isEmpty_iff, List.drop_eq_nil_iff]
    omega
  unfold MatchedRanges.debug
  simp only [sliceToR, sliceFromR, if_pos (Nat.le_of_lt h), Res.bind_ok]
  rw [if_neg he]
  show Res.ok _ = Res.ok _ ↔ _
  rw [Res.ok.injEq]
  simp only [show "[".toList = ['['] from rfl, show "]".toList = [']'] from rfl, show " | ".toList = [' ', '|', ' '] from rfl,
    List.append_assoc, List.cons_append, List.nil_append, List.cons.injEq, true_and]
  rw [loop_iff (by simp) (by simp) 0]
  simp only [List.cons.injEq, true_and]
  rw [loop_iff (by simp) (by simp) 0]
  simp only [and_true, CommasOk, Nat.zero_add]

/-- Both happens. -/
example : (MatchedRanges.mk [⟨0, 2⟩, ⟨2, 4⟩, ⟨4, 5⟩] 2).debug = .ok "[0..2, 2..4 | 4..5]".toList ∧
    (CommasOk [⟨0, 2⟩, ⟨2, 4⟩] ∧ CommasOk [⟨4, 5⟩]) ∧ ¬ CommasOk [⟨0, 1⟩, ⟨2, 4⟩] := by
  have h : (MatchedRanges.mk [⟨0, 2⟩, ⟨2, 4⟩, ⟨4, 5⟩] 2).debug = .ok "[0..2, 2..4 | 4..5]".toList := by decide +kernel
  refine ⟨h, (C68_ranges_iff (M := ⟨[⟨0, 2⟩, ⟨2, 4⟩, ⟨4, 5⟩], 2⟩) (by decide)).mp h, fun h => ?_⟩
  have := (h 0 ⟨0, 1⟩ rfl).mpr (by decide)
  exact absurd this (by decide)

/-- **C68.** A candidate prints as its text does, whether it is stored as bytes or as characters. -/
theorem C68_candidate (f : Format) (s : List Char) :
    (strIsAscii s = true → (Candidate.ascii (strBytes s)).debug f = .ok (debugStr f s)) ∧
    (Candidate.unicode s).debug f = .ok (debugStr f s) := by
  refine ⟨fun h => ?_, rfl⟩
  obtain ⟨h1, h2⟩ := ascii_candidate h
  have h3 : (strBytes s).all (fun b => b < 128) = true :=
    List.all_eq_true.mpr fun b hb => decide_eq_true (UInt8.lt_iff_toNat_lt.mpr (h1 b hb))
  unfold Candidate.debug
  simp only [h3, if_true]
  rw [show (strBytes s).map byteToChar = s from h2]

/-- `a"b` in bytes. -/
example : (Candidate.ascii [97, 34, 98]).debug ⟨false, fun _ => false⟩ = .ok "\"a\\\"b\"".toList := by decide +kernel

end Norm.Props
