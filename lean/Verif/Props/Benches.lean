import Verif.Proofs.Bench
import Verif.Proofs.Grammar
import Verif.Proofs.UsizeParser
import Verif.Props.Grammar
import Verif.Props.State
import Verif.Props.Sizes

/-!
# Warm metrics, and the benchmarks

Properties C82–C84: how the time of a call depends on the calls before it, and what the benchmarks of `/repo/benches` measure, in the
steps that `Verif.Model.Timed` counts. -/

namespace Norm.Props

open Spec

variable {U : Unicode} {a : Algo} {m m' m₁ m₂ m₃ : Metric} {st : Settings} {q : FzfQuery} {t s : List Char}

/-! ### Calls -/

private theorem zero_for (a : Algo) : BufLens.For ⟨0, 0, 0, 0, 0⟩ a := by cases a <;> simp [BufLens.For]

/-- **C82.** The time of a call depends on the calls before it only through the lengths of the metric's buffers, not through what
they hold: if two metrics with the same settings have buffers of the same lengths, whatever calls have made them, a call takes the
same steps with both, and leaves buffers of the same lengths. The vector of ranges passed in makes no difference. -/
theorem C82_same (h : Reachable U a m st) (h' : Reachable U a m' st) (hs : sizes m = sizes m') (q : FzfQuery) (s : List Char)
    (buf buf' : List Range) :
    (m.timedDistance U q s).steps = (m'.timedDistance U q s).steps ∧
    (m.timedDistanceAndRanges U q s buf).steps = (m'.timedDistanceAndRanges U q s buf').steps := by
  have hs := similar_eq h h' hs
  exact ⟨(rel_timedDistance (c := True) (fun _ => rfl) U q s hs).1.1 trivial,
    (rel_timedRanges (c := True) (fun _ => rfl) U q s buf buf' hs).1.1 trivial⟩

/-- **C82**, the lengths afterwards. -/
theorem C82_same_sizes (h : Reachable U a m st) (h' : Reachable U a m' st) (hs : sizes m = sizes m') :
    (∀ d d', m.distance U q s = .ok (m₁, d) → m'.distance U q s = .ok (m₂, d') → sizes m₁ = sizes m₂) ∧
    ∀ buf buf' x y, m.distanceAndRanges U q s buf = .ok (m₁, x) → m'.distanceAndRanges U q s buf' = .ok (m₂, y) →
      sizes m₁ = sizes m₂ := by
  have hs := similar_eq h h' hs
  constructor
  · intro d d' e e'
    have hr := (rel_timedDistance (c := True) (fun _ => rfl) U q s hs).2
    rw [Metric.res_timedDistance, Metric.res_timedDistance, e, e'] at hr
    exact ((hr.1.sizes (zero_for _)).trans (BufLens.sup_zero _)).symm
  · intro buf buf' x y e e'
    have hr := (rel_timedRanges (c := True) (fun _ => rfl) U q s buf buf' hs).2
    rw [Metric.res_timedDistanceAndRanges, Metric.res_timedDistanceAndRanges, e, e'] at hr
    exact ((hr.1.sizes (zero_for _)).trans (BufLens.sup_zero _)).symm

/-- **C82**: with longer buffers a call takes no more steps. -/
theorem C82_longer (h : Reachable U a m st) (h' : Reachable U a m' st) (hs : (sizes m).Le (sizes m')) (q : FzfQuery) (s : List Char)
    (buf buf' : List Range) :
    (m'.timedDistance U q s).steps ≤ (m.timedDistance U q s).steps ∧
    (m'.timedDistanceAndRanges U q s buf').steps ≤ (m.timedDistanceAndRanges U q s buf).steps := by
  have hs := similar_le h h' hs
  exact ⟨(rel_timedDistance (c := False) (fun h => h.elim) U q s hs).1.2,
    (rel_timedRanges (c := False) (fun h => h.elim) U q s buf buf' hs).1.2⟩

/-- **C82**: a metric that has been used is never slower than a new one with the same settings. -/
theorem C82_used (h : Reachable U a m st) (h' : Reachable U a m' st) (hn : sizes m = sizes (Metric.new a)) (q : FzfQuery)
    (s : List Char) (buf buf' : List Range) :
    (m'.timedDistance U q s).steps ≤ (m.timedDistance U q s).steps ∧
    (m'.timedDistanceAndRanges U q s buf').steps ≤ (m.timedDistanceAndRanges U q s buf).steps := by
  refine C82_longer h h' ?_ q s buf buf'
  rw [hn]
  clear h hn
  induction h' with
  | new => exact .refl _
  | setCandidateNormalization x _ ih => rw [sizes_setCandidateNormalization]; exact ih
  | setCaseSensitivity x _ ih => rw [sizes_setCaseSensitivity]; exact ih
  | setScoringScheme x _ ih => rw [sizes_setScoringScheme]; exact ih
  | distance _ _ e ih =>
    obtain ⟨n, hn⟩ := exists_within _
    exact ih.trans (C65_distance hn e).1
  | distanceAndRanges _ _ e ih =>
    obtain ⟨n, hn⟩ := exists_within _
    exact ih.trans (C65_ranges hn e).1
  | unwound _ hu ih =>
    refine ih.trans ?_
    cases hu with
    | v1 h1 => exact ⟨h1, Nat.le_refl _, Nat.le_refl _, Nat.le_refl _, Nat.le_refl _⟩
    | v2 h1 h2 h3 h4 h5 => exact ⟨h1, h2, h4, h5, h3⟩

/-- **C82**: a call that is repeated makes no buffer longer, and takes no more steps than the first time. -/
theorem C82_again (h : Reachable U a m st) (hq : QueryOk U q) {d d' : Option FzfDistance} (e : m.distance U q s = .ok (m₁, d))
    (e' : m₁.distance U q s = .ok (m₂, d')) :
    sizes m₂ = sizes m₁ ∧ (m₁.timedDistance U q s).steps ≤ (m.timedDistance U q s).steps ∧
      (m₂.timedDistance U q s).steps = (m₁.timedDistance U q s).steps := by
  have h1 : Reachable U a m₁ st := .distance h hq e
  have h2 : Reachable U a m₂ st := .distance h1 hq e'
  obtain ⟨n, hn⟩ := exists_within q
  have hr := rel_timedDistance (c := False) (fun h => h.elim) U q s (similar_le h h1 (C65_distance hn e).1)
  obtain ⟨⟨-, h3⟩, h4⟩ := hr
  rw [Metric.res_timedDistance, Metric.res_timedDistance, e, e'] at h4
  have h5 := h4.1.sizes (sizes_for m₁)
  rw [BufLens.sup_of_le (.refl _)] at h5
  exact ⟨h5, h3, (C82_same h2 h1 h5 q s [] []).1⟩

/-- **C82**, the same with ranges, whatever vectors are passed in. -/
theorem C82_again_ranges (h : Reachable U a m st) (hq : QueryOk U q) {buf₁ buf₂ buf₃ buf₁' buf₂' : List Range} {d d' : Option FzfDistance}
    (e : m.distanceAndRanges U q s buf₁ = .ok (m₁, buf₁', d)) (e' : m₁.distanceAndRanges U q s buf₂ = .ok (m₂, buf₂', d')) :
    sizes m₂ = sizes m₁ ∧ (m₁.timedDistanceAndRanges U q s buf₂).steps ≤ (m.timedDistanceAndRanges U q s buf₁).steps ∧
      (m₂.timedDistanceAndRanges U q s buf₃).steps = (m₁.timedDistanceAndRanges U q s buf₂).steps := by
  have h1 : Reachable U a m₁ st := .distanceAndRanges h hq e
  have h2 : Reachable U a m₂ st := .distanceAndRanges h1 hq e'
  obtain ⟨n, hn⟩ := exists_within q
  have hr := rel_timedRanges (c := False) (fun h => h.elim) U q s buf₁ buf₂ (similar_le h h1 (C65_ranges hn e).1)
  obtain ⟨⟨-, h3⟩, h4⟩ := hr
  rw [Metric.res_timedDistanceAndRanges, Metric.res_timedDistanceAndRanges, e, e'] at h4
  have h5 := h4.1.sizes (sizes_for m₁)
  rw [BufLens.sup_of_le (.refl _)] at h5
  exact ⟨h5, h3, (C82_same h2 h1 h5 q s buf₃ buf₂).2⟩

/-- The metric after a call of `distance`. -/
def after (U : Unicode) (m : Metric) (q : FzfQuery) (s : List Char) : Metric :=
  match m.distance U q s with
  | .ok x => x.1
  | .panic => m

theorem after_reachable (h : Reachable U a m st) (hq : QueryOk U q) : Reachable U a (after U m q s) st := by
  obtain ⟨m', h', e⟩ := call h hq s
  rw [after, e]
  exact h'

/-- A call that leaves something in the buffers, but does not make them longer; the next call takes the same steps as with a new
metric. -/
example : sizes (after Concrete.U (Concrete.metric .v2) (Concrete.parse "ab") "xxaxxxb".toList) = sizes (Concrete.metric .v2) ∧
    ((after Concrete.U (Concrete.metric .v2) (Concrete.parse "ab") "xxaxxxb".toList).timedDistance Concrete.U (Concrete.parse "ab")
      "abab".toList).steps = 81 := by
  have h : sizes (after Concrete.U (Concrete.metric .v2) (Concrete.parse "ab") "xxaxxxb".toList) = sizes (Concrete.metric .v2) := by
    decide +kernel
  refine ⟨h, ?_⟩
  have h1 := Concrete.reachable .v2 .smart false .default
  rw [(C82_same (after_reachable h1 (Concrete.parsed "ab").ok) h1 h (Concrete.parse "ab") "abab".toList [] []).1]
  decide +kernel

/-- A call that makes the buffer for the candidate longer. The next one takes fewer steps than with a new metric. -/
example : (sizes (after Concrete.U (Concrete.metric .v1) (Concrete.parse "ab") (List.replicate 70 'ä' ++ "ab".toList))).candidate = 142 ∧
    ((after Concrete.U (Concrete.metric .v1) (Concrete.parse "ab") (List.replicate 70 'ä' ++ "ab".toList)).timedDistance Concrete.U
      (Concrete.parse "b") (List.replicate 70 'ä' ++ "ab".toList)).steps = 293 ∧
    ((Concrete.metric .v1).timedDistance Concrete.U (Concrete.parse "b") (List.replicate 70 'ä' ++ "ab".toList)).steps = 435 := by
  decide +kernel

/-! ### Benchmarks -/

private theorem bench_eq (U : Unicode) (t : List Char) :
    ∃ q, Parsed U t q ∧ ∀ n m cs buf, bench U n m t cs buf = benchIterations U q cs n m buf := by
  obtain ⟨P', _, h⟩ := FzfParser.parse_eq U FzfParser.new t
  refine ⟨_, ⟨_, P', .new, h⟩, fun n m cs buf => ?_⟩
  show Timed.bind _ _ = _
  rw [h]
  simp [Timed.bind, Timed.free]

/-- **C83.** What a benchmark reports is the time of a warm metric: whatever the query, the candidates and the metric, every
iteration but the first takes the same number of steps, and the first one takes at least as many, so that the time per iteration
tends to that number. -/
theorem C83_steps (h : Reachable U a m st) (t : List Char) (cs : List (List Char)) (buf : Option (List Range)) :
    ∃ first later, later ≤ first ∧ ∀ n, (bench U (n + 1) m t cs buf).steps = first + n * later := by
  obtain ⟨q, hq, e⟩ := bench_eq U t
  obtain ⟨f, l, z, hl, h⟩ := benchIterations_steps hq.ok cs h buf
  exact ⟨f, l, hl, fun n => by rw [e]; exact (h n).1⟩

/-- **C83**: no benchmark panics, however many iterations there are. The vector of ranges is never cleared: every iteration appends
the same ranges again, those that the calls would leave in empty vectors. -/
theorem C83_ranges (h : Reachable U a m st) (t : List Char) (cs : List (List Char)) :
    ∃ q news, Parsed U t q ∧ List.Forall₂ (fun s new => ∃ d, ReturnsRanges U m q s [] new d) cs news ∧
      (∀ n, ∃ m', Reachable U a m' st ∧ (bench U n m t cs none).res = .ok (m', none)) ∧
      ∀ n buf, ∃ m', Reachable U a m' st ∧
        (bench U n m t cs (some buf)).res = .ok (m', some (buf ++ (List.replicate n news.flatten).flatten)) := by
  obtain ⟨q, hq, e⟩ := bench_eq U t
  refine ⟨q, cs.map fun s => insertAll [] (result U a st s q).1, hq, ?_, fun n => ?_, fun n buf => ?_⟩
  · rw [List.forall₂_map_right_iff]
    exact List.forall₂_same.mpr fun s _ => ⟨_, (returnsRanges_iff h hq.ok).mpr ⟨by simp, rfl⟩⟩
  · obtain ⟨m', e', h'⟩ := benchIterations_ok hq.ok cs h none n
    exact ⟨m', h', by rw [e, e']; rfl⟩
  · obtain ⟨m', e', h'⟩ := benchIterations_ok hq.ok cs h (some buf) n
    exact ⟨m', h', by rw [e, e', List.flatMap_def]; rfl⟩

/-- A first iteration of 440 steps, and 298 steps for each of the others. -/
example : (bench Concrete.U 1 (Concrete.metric .v1) "ab".toList [List.replicate 70 'ä' ++ "ab".toList] none).steps = 440 ∧
    (bench Concrete.U 2 (Concrete.metric .v1) "ab".toList [List.replicate 70 'ä' ++ "ab".toList] none).steps = 440 + 298 ∧
    (bench Concrete.U 3 (Concrete.metric .v1) "ab".toList [List.replicate 70 'ä' ++ "ab".toList] none).steps = 440 + 2 * 298 := by
  decide +kernel

/-- Two iterations with two candidates. -/
example : (bench Concrete.U 2 (Concrete.metric .v2) "ab".toList ["äxaxb".toList, "ab".toList] (some [⟨7, 8⟩])).res.mapR (·.2) =
    .ok (some ([⟨7, 8⟩] ++ [⟨3, 4⟩, ⟨5, 6⟩, ⟨0, 2⟩] ++ [⟨3, 4⟩, ⟨5, 6⟩, ⟨0, 2⟩])) := by decide +kernel

/-- **C83**: hence the vector outgrows every bound, if any of the candidates has a range to report. -/
theorem C83_grows (h : Reachable U a m st) (t : List Char) (cs : List (List Char)) (buf : List Range)
    (hr : ∀ q, Parsed U t q → ∃ s ∈ cs, ∀ d, ¬ ReturnsRanges U m q s [] [] d) (N : Nat) :
    ∃ m' buf', (bench U N m t cs (some buf)).res = .ok (m', some buf') ∧ buf.length + N ≤ buf'.length := by
  obtain ⟨q, news, hq, hn, -, h⟩ := C83_ranges h t cs
  obtain ⟨m', -, e⟩ := h N buf
  refine ⟨m', _, e, ?_⟩
  have : 1 ≤ news.flatten.length := by
    obtain ⟨s, hs, hd⟩ := hr q hq
    by_contra hc
    have h0 : news.flatten = [] := List.length_eq_zero_iff.mp (by omega)
    obtain ⟨i, hi, rfl⟩ := List.getElem_of_mem hs
    have hi' : i < news.length := hn.length_eq ▸ hi
    obtain ⟨d, hd'⟩ := hn.get hi hi'
    have : news.get ⟨i, hi'⟩ = [] := List.flatten_eq_nil_iff.mp h0 _ (List.get_mem _ _)
    rw [this] at hd'
    exact hd d hd'
  rw [List.length_append, List.length_flatten]
  rw [List.map_replicate, List.sum_replicate_nat]
  have := Nat.mul_le_mul_left N this
  omega

/-- The parts of an id that tell the cases apart. -/
private theorem param_take (c : CaseSensitivity) (r : Bool) (x : Option (List Char)) :
    (param c r x).take 7 = match c with
      | .sensitive => "case_se".toList | .insensitive => "case_in".toList | .smart => "case_sm".toList := by
  have key : ∀ l l' : List Char, 7 ≤ l.length → (l ++ l').take 7 = l.take 7 := fun l l' h => by
    rw [List.take_append_of_le_length h]
  cases c <;> cases x <;> dsimp only [param] <;> (try rw [List.append_assoc]) <;> rw [key _ _ (by decide)] <;> decide

private theorem param_length (c : CaseSensitivity) (x : Option (List Char)) :
    (param c true x).length = (param c false x).length + 12 := by
  have h : "_with_ranges".toList.length = 12 := by decide
  unfold param
  cases x <;> simp only [List.length_append, if_pos, if_neg, Bool.false_eq_true, not_false_eq_true, List.length_nil, h]
  all_goals omega

/-- **C83**: a benchmark's id tells the case sensitivity and whether there are ranges, whatever the suffix. -/
theorem C83_ids {c c' : CaseSensitivity} {r r' : Bool} {x : Option (List Char)} (h : param c r x = param c' r' x) :
    c = c' ∧ r = r' := by
  have hc : c = c' := by
    have := congrArg (List.take 7) h
    rw [param_take, param_take] at this
    cases c <;> cases c' <;> first | rfl | exact absurd this (by decide)
  subst hc
  refine ⟨rfl, ?_⟩
  have := congrArg List.length h
  have := param_length c x
  cases r <;> cases r' <;> first | rfl | omega

example : param .smart true (some "x".toList) = "case_smart_with_ranges_x".toList := by decide

/-- **C83**: not if the suffixes differ. -/
theorem C83_ids_suffix (c : CaseSensitivity) :
    ∃ x, param c true none = param c false x := ⟨some "with_ranges".toList, by cases c <;> rfl⟩

/-- **C83**: a whole benchmark, with its six combinations, however often each of the closures is called: no panic, and different ids. -/
theorem C83_all (h : Reachable U a m st) (n : CaseSensitivity → Bool → Nat) (t : List Char) (cs : List (List Char))
    (x : Option (List Char)) :
    ∃ m' ids st', (benchAll U n t cs x benchCases m).res = .ok (m', ids) ∧ ids.Nodup ∧ ids.length = 6 ∧ Reachable U a m' st' := by
  have key : ∀ (l : List (CaseSensitivity × Bool)) (m : Metric) (st : Settings), Reachable U a m st →
      ∃ m' st', (benchAll U n t cs x l m).res = .ok (m', l.map fun y => param y.1 y.2 x) ∧ Reachable U a m' st' := by
    intro l
    induction l with
    | nil => exact fun m st h => ⟨m, st, rfl, h⟩
    | cons y l ih =>
      intro m st h
      obtain ⟨c, r⟩ := y
      have h1 : Reachable U a _ _ := .setCaseSensitivity c h
      obtain ⟨q, news, -, -, k1, k2⟩ := C83_ranges h1 t cs
      obtain ⟨m₁, z, e1, h2⟩ : ∃ m₁ z, (bench U (n c r) (m.setCaseSensitivity c) t cs (if r = true then some [] else none)).res =
          .ok (m₁, z) ∧ Reachable U a m₁ { st with caseSensitivity := c } := by
        cases r with
        | false => obtain ⟨m₁, h2, e⟩ := k1 (n c false); exact ⟨m₁, _, e, h2⟩
        | true => obtain ⟨m₁, h2, e⟩ := k2 (n c true) []; exact ⟨m₁, _, e, h2⟩
      obtain ⟨m₂, st', e2, h3⟩ := ih m₁ _ h2
      refine ⟨m₂, st', ?_, h3⟩
      simp only [benchAll, Timed.res_bind, e1, Res.bind_ok, e2, List.map_cons]
      rfl
  obtain ⟨m', st', e, h'⟩ := key benchCases m st h
  refine ⟨m', _, st', e, ?_, by simp [benchCases], h'⟩
  exact List.Pairwise.map _ (fun y y' hy he => hy (Prod.ext_iff.mpr (C83_ids he))) (show benchCases.Nodup by decide)

private theorem escape_plain {w : List Char} (h : ' ' ∉ w) : escape w = w := by
  induction w with
  | nil => rfl
  | cons c w ih =>
    simp only [List.mem_cons, not_or] at h
    rw [escape_cons, ih h.2, if_neg (Ne.symm h.1)]
    rfl

private theorem common_plain : ∀ x ∈ commonBenches, x.2.1 ≠ [] ∧ ' ' ∉ x.2.1 ∧ x.2.1 ≠ ['|'] ∧ x.2.1 <:+: x.2.2 ∧
    x.2.1.head? ≠ some '!' ∧ x.2.1.getLast? ≠ some '$' ∧ x.2.1.head? ≠ some '\'' ∧ x.2.1.head? ≠ some '^' := by
  decide +kernel

/-- **C83**: the benchmarks of `common.rs` have different names. Their queries are one fuzzy pattern each, occur in their candidates as they
are written, and match them with every case sensitivity (and all other settings). -/
theorem C83_common : (commonBenches.map (·.1)).Nodup ∧ ∀ x ∈ commonBenches, ∀ q, Parsed U x.2.1 q →
    q = .notExtended (mkPattern U false .fuzzy x.2.1) ∧ x.2.1 <:+: x.2.2 ∧
    ∀ a m st, Reachable U a m st → ∃ d, Returns U m q x.2.2 (some d) := by
  refine ⟨by decide +kernel, fun x hx q hq => ?_⟩
  obtain ⟨h1, h2, h3, h4, h5, h6, h7, h8⟩ := common_plain x hx
  have hw : words x.2.1 = [x.2.1] := by
    have := words_escape h1
    rwa [escape_plain h2] at this
  have hd : Decorates x.2.1 false .none false x.2.1 :=
    ⟨by simp [Sigil.chars], fun _ => h5, by simp, fun _ e => absurd e h6, fun _ => ⟨h7, h8⟩⟩
  have hp : wordPattern U x.2.1 = some (mkPattern U false .fuzzy x.2.1) := by
    rw [wordPattern_of_decorates hd, if_neg h1]; rfl
  have e : q = .notExtended (mkPattern U false .fuzzy x.2.1) := by
    rw [hq.eq, query_one_fuzzy hw h3 hp rfl]
  refine ⟨e, h4, fun a m st h => ?_⟩
  obtain ⟨d, hr, hd⟩ := decision h hq.ok x.2.2
  have hm : QueryMatches U st q x.2.2 := by
    subst e
    exact .inr ⟨_, h4.sublist, List.forall₂_same.mpr fun c _ => CharMatches.refl ..⟩
  obtain ⟨d, rfl⟩ := Option.isSome_iff_exists.mp (hd.mpr hm)
  exact ⟨d, hr⟩

example : commonBenches.length = 7 ∧ Returns Concrete.U (Concrete.metric .v2) (Concrete.parse "paradise") "paradisematic".toList
    (some ⟨218⟩) := ⟨by decide, Concrete.returns (by decide +kernel)⟩

/-! ### The benchmarks of the other kinds of patterns -/

/-- **C84**, what the comment in `/repo/benches/fzf_common.rs:25-26` is right about: without fuzzy patterns it does not matter
which metric is used. Their results are the same (C47), and so are the steps, if the buffers for the candidate are of the same length, as
they are for new metrics. -/
theorem C84_same (h₁ : Reachable U .v1 m₁ st) (h₂ : Reachable U .v2 m₂ st) (hl : (sizes m₁).candidate = (sizes m₂).candidate)
    (hq : Parsed U t q) (hk : ∀ p ∈ patterns q, p.matchType ≠ .fuzzy) (s : List Char) (buf buf' : List Range) :
    (∃ d, Returns U m₁ q s d ∧ Returns U m₂ q s d) ∧
    (m₁.timedDistance U q s).steps = (m₂.timedDistance U q s).steps ∧
    (m₁.timedDistanceAndRanges U q s buf).steps = (m₂.timedDistanceAndRanges U q s buf').steps := by
  refine ⟨?_, ?_⟩
  · obtain ⟨d, _, h1, h2, _⟩ := C47_no_fuzzy_same h₁ h₂ hq hk s []
    exact ⟨d, h1, h2⟩
  obtain ⟨e₁, k₁⟩ := reachable_has h₁
  obtain ⟨e₂, k₂⟩ := reachable_has h₂
  cases m₁ with
  | v2 _ => cases e₁
  | v1 x =>
  cases m₂ with
  | v1 _ => cases e₂
  | v2 y =>
  obtain ⟨a1, a2, a3⟩ := k₁
  obtain ⟨b1, b2, b3⟩ := k₂
  refine rel_timedV1V2 ⟨?_, a1.trans b1.symm, a2.trans b2.symm, a3.trans b3.symm⟩ q ?_ s buf buf'
  · exact hl.symm.trans (Nat.max_eq_right (Nat.zero_le _)).symm
  · cases q with
    | notExtended p => exact absurd (queryOk_upper hq.ok).2 (hk p (by simp [patterns]))
    | extended cs =>
      exact fun c hc p hp hf => absurd hf (hk p (by simp only [patterns, List.mem_flatten]; exact ⟨c, hc, hp⟩))

example : ((Concrete.metric .v1).timedDistance Concrete.U (Concrete.parse "'b ^a !z | c$") "abc".toList).steps =
    ((Concrete.metric .v2).timedDistance Concrete.U (Concrete.parse "'b ^a !z | c$") "abc".toList).steps :=
  (C84_same (Concrete.reachable ..) (Concrete.reachable ..) (by decide +kernel) (Concrete.parsed "'b ^a !z | c$")
    (by decide +kernel) _ [] []).2.1

/-- The benchmarks of `fzf_common.rs` with the kinds of patterns that they are named after. -/
def kindBenches : List ((List Char → Res (List Char × List Char)) × MatchType) :=
  [(exactBench, .exact), (prefixBench, .prefixExact), (suffixBench, .suffixExact), (equalBench, .equalExact)]

/-- **C84**, what the comment claims: the queries of these benchmarks have no fuzzy patterns, so that both metrics give the same
distances. -/
def C84 (U : Unicode) : Prop := ∀ b k, (b, k) ∈ kindBenches → ∀ t s q, b mediumText = .ok (t, s) → Parsed U t q →
  (∀ p ∈ patterns q, p.matchType ≠ .fuzzy) ∧
  ∀ m₁ m₂ st, Reachable U .v1 m₁ st → Reachable U .v2 m₂ st → ∃ d, Returns U m₁ q s d ∧ Returns U m₂ q s d

/-- **C84** is false: the text has spaces, and hence so have the queries, which parse to several patterns, most of them fuzzy. The
query of `exact` is `'re live the blin`, and its distance depends on the metric. -/
theorem C84_false : ¬ C84 Concrete.U := by
  intro h
  have h := h _ _ (List.mem_cons_self ..) "'re live the blin".toList mediumText _ (by decide +kernel) (Concrete.parsed _)
  exact absurd h.1 (by decide +kernel)

private theorem returns_medium {m : Metric} {q : FzfQuery} {d : Option FzfDistance}
    (h : (m.distance Concrete.U q mediumText).mapR (·.2) = .ok d) : Returns Concrete.U m q mediumText d := by
  obtain ⟨x, e, rfl⟩ := mapR_ok_inv h
  exact ⟨x.1, e⟩

private theorem suffix_v1 : ((Metric.new .v1).distance Concrete.U (Concrete.parse "antics, a large.$") mediumText).mapR (·.2) =
    .ok (some ⟨259⟩) := by decide +kernel

private theorem suffix_v2 : ((Metric.new .v2).distance Concrete.U (Concrete.parse "antics, a large.$") mediumText).mapR (·.2) =
    .ok (some ⟨338⟩) := by decide +kernel

/-- **C84**: the distances of the two metrics, for the query of `suffix`. -/
theorem C84_false_distances :
    suffixBench mediumText = .ok ("antics, a large.$".toList, mediumText) ∧
    Returns Concrete.U (Metric.new .v1) (Concrete.parse "antics, a large.$") mediumText (some ⟨259⟩) ∧
    Returns Concrete.U (Metric.new .v2) (Concrete.parse "antics, a large.$") mediumText (some ⟨338⟩) :=
  ⟨by decide +kernel, returns_medium suffix_v1, returns_medium suffix_v2⟩

/-- The slice of `text` that is between two of its bytes. -/
private theorem slice_mem {s w : List Char} {r : Range} (h : strSliceR s r = .ok w) :
    (∀ c ∈ w, c ∈ s) ∧ r.start + strLen w = r.stop := by
  obtain ⟨x, h1, h2⟩ := Res.bind_eq_ok.mp h
  obtain ⟨⟨u, v⟩, e1, rfl⟩ := mapR_ok_inv h1
  obtain ⟨⟨u', v'⟩, e2, rfl⟩ := mapR_ok_inv h2
  obtain ⟨e1, l1⟩ := Usize.strSplitR_ok _ _ _ e1
  obtain ⟨e2, l2⟩ := Usize.strSplitR_ok _ _ _ e2
  dsimp only at e1 e2 l1 l2 ⊢
  subst e1 e2
  refine ⟨fun c hc => by simp [hc], ?_⟩
  rw [← l1, ← l2, strLen_append]

private theorem to_mem {s w : List Char} {n : Nat} (h : strToR s n = .ok w) : (∀ c ∈ w, c ∈ s) ∧ strLen w = n := by
  obtain ⟨⟨u, v⟩, e1, rfl⟩ := mapR_ok_inv h
  obtain ⟨e1, l1⟩ := Usize.strSplitR_ok _ _ _ e1
  exact ⟨fun c hc => by rw [e1]; exact List.mem_append_left _ hc, l1⟩

private theorem from_mem {s w : List Char} {n : Nat} (h : strFromR s n = .ok w) : (∀ c ∈ w, c ∈ s) ∧ n + strLen w = strLen s := by
  obtain ⟨⟨u, v⟩, e1, rfl⟩ := mapR_ok_inv h
  obtain ⟨e1, l1⟩ := Usize.strSplitR_ok _ _ _ e1
  refine ⟨fun c hc => by rw [e1]; exact List.mem_append_right _ hc, ?_⟩
  rw [e1, strLen_append]
  show n + _ = _
  rw [← l1]

/-- Characters that mean nothing to the parser. -/
def PlainText (text : List Char) : Prop := ∀ c ∈ text, c ≠ ' ' ∧ c ≠ '\'' ∧ c ≠ '^' ∧ c ≠ '!' ∧ c ≠ '$'

/-- A word around a text without spaces is the whole query. -/
private theorem query_decorated {w x : List Char} {sg : Sigil} {dol : Bool} (hd : Decorates x false sg dol w) (hx : ' ' ∉ x)
    (hw : w ≠ []) (hk : kind false dol sg ≠ .fuzzy) (hq : Parsed U x q) : q = single (mkPattern U false (kind false dol sg) w) := by
  have hne : x ≠ [] := by
    intro h
    have := hd.word
    have := congrArg List.length this
    have h0 := List.length_pos_iff.mpr hw
    simp only [h, List.length_append, List.length_nil] at this
    omega
  have h1 : words x = [x] := by
    have := words_escape hne
    rwa [escape_plain hx] at this
  have hp : wordPattern U x = some (mkPattern U false (kind false dol sg) w) := by
    rw [wordPattern_of_decorates hd, if_neg hw]
  rw [hq.eq, query_one h1 hp hk]

/-- **C84**, made of a text without the parser's special characters, each of the queries is one pattern of the kind that the benchmark
is named after, so that the two metrics do the same. (Missing: texts with spaces, such as the one used.) -/
theorem C84_partial {b : List Char → Res (List Char × List Char)} {k : MatchType} (hb : (b, k) ∈ kindBenches) {text : List Char}
    (ht : PlainText text) (hts : b text = .ok (t, s)) (hq : Parsed U t q) :
    (∃ w, strLen w = 16 ∧ q = single (mkPattern U false k w)) ∧
    ∀ m₁ m₂ st, Reachable U .v1 m₁ st → Reachable U .v2 m₂ st → (∃ d, Returns U m₁ q s d ∧ Returns U m₂ q s d) ∧
      ((sizes m₁).candidate = (sizes m₂).candidate →
        (m₁.timedDistance U q s).steps = (m₂.timedDistance U q s).steps) := by
  have key : (∃ w, strLen w = 16 ∧ q = single (mkPattern U false k w)) ∧ k ≠ .fuzzy := by
    have hne : ∀ {w : List Char}, strLen w = 16 → w ≠ [] := by rintro w h rfl; cases h
    have hlast : ∀ {w : List Char}, (∀ c ∈ w, c ∈ text) → w.getLast? ≠ some '$' :=
      fun h e => (ht _ (h _ (List.mem_of_getLast? e))).2.2.2.2 rfl
    have hhead : ∀ {w : List Char}, (∀ c ∈ w, c ∈ text) → w.head? ≠ some '\'' ∧ w.head? ≠ some '^' ∧ w.head? ≠ some '!' :=
      fun h => ⟨fun e => (ht _ (h _ (List.mem_of_head? e))).2.1 rfl, fun e => (ht _ (h _ (List.mem_of_head? e))).2.2.1 rfl,
        fun e => (ht _ (h _ (List.mem_of_head? e))).2.2.2.1 rfl⟩
    have hsp : ∀ {w : List Char}, (∀ c ∈ w, c ∈ text) → ' ' ∉ w := fun h e => (ht _ (h _ e)).1 rfl
    have hcons : ∀ {w : List Char} (x : Char), (∀ c ∈ w, c ∈ text) → w ≠ [] → (x :: w).getLast? ≠ some '$' := by
      intro w x h hw
      rw [List.getLast?_cons]
      cases hl : w.getLast? with
      | none => exact absurd (List.getLast?_eq_none_iff.mp hl) hw
      | some y => exact fun e => hlast h (hl.trans e)
    unfold kindBenches at hb
    rcases hb with _ | ⟨_, _ | ⟨_, _ | ⟨_, _ | ⟨_, hb⟩⟩⟩⟩
    · obtain ⟨n, hn, h⟩ := Res.bind_eq_ok.mp hts
      obtain ⟨w, hw, h⟩ := Res.bind_eq_ok.mp h
      cases h
      obtain ⟨hw, hl⟩ := slice_mem hw
      have hl : strLen w = 16 := by simp only [queryLen16] at hl; omega
      refine ⟨⟨w, hl, ?_⟩, by decide⟩
      refine query_decorated (sg := .quote) (dol := false) ⟨by simp [Sigil.chars], by simp, by simp, ?_, by simp⟩ ?_ (hne hl) (by decide) hq
      · exact fun _ e => absurd e (hcons _ hw (hne hl))
      · simpa using hsp hw
    · obtain ⟨w, hw, h⟩ := Res.bind_eq_ok.mp hts
      cases h
      obtain ⟨hw, hl⟩ := to_mem hw
      refine ⟨⟨w, hl, ?_⟩, by decide⟩
      refine query_decorated (sg := .caret) (dol := false) ⟨by simp [Sigil.chars], by simp, by simp, ?_, by simp⟩ ?_ (hne hl) (by decide) hq
      · exact fun _ e => absurd e (hcons _ hw (hne hl))
      · simpa using hsp hw
    · obtain ⟨n, hn, h⟩ := Res.bind_eq_ok.mp hts
      obtain ⟨w, hw, h⟩ := Res.bind_eq_ok.mp h
      cases h
      obtain ⟨hw, hl⟩ := from_mem hw
      have hl : strLen w = 16 := by
        unfold subR at hn
        split at hn
        · cases hn
          simp only [queryLen16] at *
          omega
        · cases hn
      obtain ⟨h1, h2, h3⟩ := hhead hw
      refine ⟨⟨w, hl, ?_⟩, by decide⟩
      refine query_decorated (sg := .none) (dol := true) ⟨by simp [Sigil.chars], ?_, ?_, by simp, fun _ => ⟨h1, h2⟩⟩ ?_ (hne hl)
        (by decide) hq
      · intro _
        obtain ⟨c, l, rfl⟩ := List.exists_cons_of_ne_nil (hne hl)
        simpa using h3
      · exact fun _ => by simpa [Sigil.chars] using hne hl
      · simpa using hsp hw
    · obtain ⟨w, hw, h⟩ := Res.bind_eq_ok.mp hts
      cases h
      obtain ⟨hw, hl⟩ := to_mem hw
      refine ⟨⟨s, hl, ?_⟩, by decide⟩
      refine query_decorated (sg := .caret) (dol := true) ⟨by simp [Sigil.chars], by simp, by simp [Sigil.chars], by simp, by simp⟩ ?_
        (hne hl) (by decide) hq
      simpa using hsp hw
    · cases hb
  obtain ⟨⟨w, hw, e⟩, hk⟩ := key
  refine ⟨⟨w, hw, e⟩, fun m₁ m₂ st h₁ h₂ => ?_⟩
  have hf : ∀ p ∈ patterns q, p.matchType ≠ .fuzzy := by
    subst e
    intro p hp
    simp only [patterns, single, List.flatten_cons, List.flatten_nil, List.append_nil, List.mem_singleton] at hp
    subst hp
    exact hk
  refine ⟨?_, fun hl => (C84_same h₁ h₂ hl hq hf s [] []).2.1⟩
  obtain ⟨d, _, h1, h2, _⟩ := C47_no_fuzzy_same h₁ h₂ hq hf s []
  exact ⟨d, h1, h2⟩

/-- The query of `suffix` made of the alphabet. -/
example : PlainText "abcdefghijklmnopqrst".toList ∧
    suffixBench "abcdefghijklmnopqrst".toList = .ok ("efghijklmnopqrst$".toList, "abcdefghijklmnopqrst".toList) ∧
    ∃ w, strLen w = 16 ∧ Concrete.parse "efghijklmnopqrst$" = single (mkPattern Concrete.U false .suffixExact w) := by
  have h : PlainText "abcdefghijklmnopqrst".toList := by unfold PlainText; decide +kernel
  refine ⟨h, by decide +kernel, ?_⟩
  exact (C84_partial (b := suffixBench) (k := .suffixExact) (by simp [kindBenches]) h (t := "efghijklmnopqrst$".toList)
    (s := "abcdefghijklmnopqrst".toList) (by decide +kernel) (Concrete.parsed _)).1

end Norm.Props
