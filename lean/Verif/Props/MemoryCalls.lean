import Verif.Proofs.MemoryCalls
import Verif.Props.Memory
import Verif.Props.Outcome

/-!
# The references in a call

Property C63: a call with a query that refers to its parser's buffers, and a candidate that refers to the metric's own buffer
(`alloc_chars`, which stretches the lifetime of that borrow with `transmute`), gives what the same call gives with the values. The
model is `Model/MemoryCalls.lean`. -/

namespace Norm.Props
open Spec

variable {U : Unicode} {w : World} {i : Nat} {P : FzfParserR} {h : Heap} {q : FzfQueryR} {v : FzfQuery}

/-- **C63**, for `distance`. -/
theorem C63_distance (hq : QueryReads h q v) (m : Metric) (s : List Char) : m.distanceR U h q s = m.distance U v s := by
  cases m with
  | v1 m =>
    show Res.mapR _ _ = Res.mapR _ (FzfV1.distance U m v s)
    rw [distanceR_eq (v1_keeps U) (v1_alloc U) hq]
    unfold FzfV1.distance
    cases (FzfV1.impl U).distance U false m v s [] <;> rfl
  | v2 m =>
    show Res.mapR _ _ = Res.mapR _ (FzfV2.distance U m v s)
    rw [distanceR_eq (v2_keeps U) (v2_alloc U) hq]
    unfold FzfV2.distance
    cases (FzfV2.impl U).distance U false m v s [] <;> rfl

/-- **C63**, for `distance_and_ranges`. -/
theorem C63_ranges (hq : QueryReads h q v) (m : Metric) (s : List Char) (buf : List Range) :
    m.distanceAndRangesR U h q s buf = m.distanceAndRanges U v s buf := by
  cases m with
  | v1 m =>
    show Res.mapR _ _ = Res.mapR _ (FzfV1.distanceAndRanges U m v s buf)
    rw [distanceR_eq (v1_keeps U) (v1_alloc U) hq]
    rfl
  | v2 m =>
    show Res.mapR _ _ = Res.mapR _ (FzfV2.distanceAndRanges U m v s buf)
    rw [distanceR_eq (v2_keeps U) (v2_alloc U) hq]
    rfl

/-- What a call with a query and the string it was made from is to do: it returns the outcome of the query `v`. -/
def CallsReturn (U : Unicode) (h : Heap) (q : FzfQueryR) (v : FzfQuery) : Prop :=
  ∀ a m st, Reachable U a m st → ∀ s buf, ∃ H d new m₁ m₂, Outcome U a st s v H d ∧ Highlights s H new ∧
    m.distanceR U h q s = .ok (m₁, d) ∧ Reachable U a m₁ st ∧
    m.distanceAndRangesR U h q s buf = .ok (m₂, buf ++ new, d) ∧ Reachable U a m₂ st

theorem C63_calls (hq : QueryReads h q v) (hok : QueryOk U v) : CallsReturn U h q v := by
  intro a m st hm s buf
  have h2 := (returnsRanges_iff (s := s) (buf := buf) hm hok).mpr ⟨rfl, rfl⟩
  obtain ⟨m₁, h1⟩ := (returns_iff (s := s) hm hok).mpr rfl
  obtain ⟨H, new, ho, hh, e⟩ := (C57_ranges hm hok).mp h2
  obtain ⟨m₂, h2⟩ := h2
  rw [e] at h2
  refine ⟨H, _, new, m₁, m₂, ho, hh, ?_, .distance hm hok h1, ?_, .distanceAndRanges hm hok h2⟩
  · rw [C63_distance hq, h1]
  · rw [C63_ranges hq, h2]

/-- **C63**, from the string to the result. A program parses `t`, does anything with other parsers and any metrics, and then
calls either method: the call returns, and what it returns is the outcome of the query that `t` stands for. -/
theorem C63_parse (hw : ReachableWorld U w) (hP : w.parsers i = some P) (moves : Moves) (t : List Char) :
    ∃ h' P' q v, P.parse U w.heap moves t = .ok (h', P', q) ∧ StandsFor U t v ∧
      ∀ w', Steps U i ⟨h', update w.parsers i (some P')⟩ w' → CallsReturn U w'.heap q v := by
  obtain ⟨h', P', q, v, hp, hv, hr⟩ := C62_parse hw hP moves t
  exact ⟨h', P', q, v, hp, C57_parse.mp hv, fun w' hs => C63_calls (hr w' hs) hv.ok⟩

/-- **C63**, for a query from `parse_not_extended`. -/
theorem C63_parse_not_extended (hw : ReachableWorld U w) (hP : w.parsers i = some P) {t : List Char}
    {h' : Heap} {q : FzfQueryR} (hp : P.parseNotExtended U w.heap t = .ok (h', q)) :
    ∃ v, ParsedRaw U t v ∧ ∀ w', Steps U i ⟨h', w.parsers⟩ w' → CallsReturn U w'.heap q v := by
  obtain ⟨cs, _, h1, h2⟩ := C62_parse_not_extended hw hP t
  by_cases ht : t.length ≤ cs.length
  · obtain ⟨h'', q', v, hp', hv, hr⟩ := h2 ht
    rw [hp] at hp'
    cases hp'
    exact ⟨v, hv, fun w' hs => C63_calls (hr w' hs) hv.ok⟩
  · rw [h1 (by omega)] at hp
    cases hp

/-! ### Concrete cases -/

/-- Two conditions, the first with two alternatives. -/
def text : List Char := "ab | éa 'ü".toList

/-- The steps of a program: it parses `text` and matches it against `xéoaü`, which is copied into the metric's buffer and
read from there three times. -/
def run (a : Algo) (U : Unicode) : Res (List Range × Option FzfDistance × List Char) := do
  let (h', _, q) ← P0.parse U h0 ⟨true, true, true⟩ text
  let (m, buf, d) ← (Metric.new a).distanceAndRangesR U h' q "xéoaü".toList [⟨9, 10⟩]
  return (buf, d, match m with
    | .v1 m => m.candidateSlab.take 5
    | .v2 m => m.candidateSlab.take 5)

example : run .v1 Concrete.U = .ok ([⟨9, 10⟩, ⟨1, 3⟩, ⟨4, 7⟩], some ⟨77⟩, "xéoaü".toList) := by decide +kernel

example : run .v2 Concrete.U = .ok ([⟨9, 10⟩, ⟨1, 3⟩, ⟨4, 7⟩], some ⟨77⟩, "xéoaü".toList) := by decide +kernel

/-- The parser is cloned and the clone dropped between the parse and the call. -/
example : ∃ h' P' q h1 P1 v, P0.parse Concrete.U h0 ⟨true, true, true⟩ text = .ok (h', P', q) ∧
    P'.clone h' = .ok (h1, P1) ∧ StandsFor Concrete.U text v ∧
    CallsReturn Concrete.U (P1.drop h1) q v := by
  obtain ⟨h', P', q, v, hp, hv, hr⟩ := C63_parse (i := 0) (P := P0) (one_parser Concrete.U) rfl ⟨true, true, true⟩
    text
  have r1 := ReachableWorld.step (i := 0) (one_parser Concrete.U) (.parse (P := P0) rfl hp)
  obtain ⟨h1, P1, hc, _⟩ := C62_clone (i := 0) r1 rfl
  have s1 : Step Concrete.U 1 _ _ := .clone (w := ⟨h', update (update (fun _ => none) 0 (some P0)) 0 (some P')⟩) (j := 0) rfl rfl hc
  have s2 : Step Concrete.U 1 _ _ := .drop (w := ⟨h1, update (update (update (fun _ => none) 0 (some P0)) 0 (some P')) 1 (some P1)⟩) rfl
  have := hr _ (.step (.step .refl (by decide) s1) (by decide) s2)
  exact ⟨h', P', q, h1, P1, v, hp, hc, hv, this⟩

/-- The condition that the metric is not used again is needed, which the signature of `distance` makes sure of: a reference to the
candidate of one call reads differently after another. -/
example : ∃ m m' : FzfV1, FzfV1.new.allocChars "éa".toList = .ok (m, "éa".toList) ∧
    m.allocChars "üb".toList = .ok (m', "üb".toList) ∧
    (CandidateR.unicode 2).read m.candidateSlab = .ok (.unicode "éa".toList) ∧
    (CandidateR.unicode 2).read m'.candidateSlab = .ok (.unicode "üb".toList) := by
  obtain ⟨m, h1, h2⟩ := v1_alloc Concrete.U FzfV1.new "éa".toList
  obtain ⟨m', h3, h4⟩ := v1_alloc Concrete.U m "üb".toList
  refine ⟨m, m', h1, h3, ?_, ?_⟩
  · exact (congrArg (Res.bind · _) h2 : _)
  · exact (congrArg (Res.bind · _) h4 : _)

end Norm.Props
