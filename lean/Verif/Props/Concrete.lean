import Verif.Proofs.Calls

/-!
# Concrete cases

A concrete Unicode classification and helpers to evaluate calls on concrete strings. They serve the examples beside the
property theorems (which hold for every classification) and the counterexamples. -/

namespace Norm.Concrete

open Spec

/-- ASCII letters and digits; nothing else is classified, except that `'Ä'` is upper case and `'ä'` lower case. -/
def U : Unicode where
  isUppercase c := isAsciiUpper c || c == 'Ä'
  isLowercase c := isAsciiLower c || c == 'ä'
  isNumeric c := isAsciiDigit c
  isAlphabetic c := isAsciiUpper c || isAsciiLower c || c == 'Ä' || c == 'ä'
  isWhitespace c := isAsciiWhitespace c
  windows := false

/-- A new metric with the given settings. -/
def metric (a : Algo) (cs : CaseSensitivity := .smart) (n : Bool := false) (S : FzfScheme := .default) : Metric :=
  (((Metric.new a).setCaseSensitivity cs).setCandidateNormalization n).setScoringScheme S

theorem reachable (a : Algo) (cs : CaseSensitivity) (n : Bool) (S : FzfScheme) :
    Reachable U a (metric a cs n S) ⟨cs, n, S⟩ :=
  .setScoringScheme S (.setCandidateNormalization n (.setCaseSensitivity cs .new))

/-- Parse a string with a new parser. -/
def parse (t : String) : FzfQuery :=
  match FzfParser.new.parse U t.toList with
  | .ok x => x.2
  | .panic => .extended []

theorem parsed (t : String) : Parsed U t.toList (parse t) := by
  obtain ⟨P', _, h⟩ := FzfParser.parse_eq U FzfParser.new t.toList
  refine ⟨_, P', .new, ?_⟩
  unfold parse
  rw [h]

theorem parsedRaw (t : String) (h : t.toList.length ≤ 64) : ParsedRaw U t.toList (rawQuery U t.toList) := by
  obtain ⟨P', _, h⟩ := FzfParser.parseNotExtended_ok U FzfParser.new t.toList
    (by simpa [FzfParser.new] using h)
  exact ⟨_, P', .new, h⟩

/-- A decidable form of well-formedness. -/
theorem queryOk {cs : List Condition}
    (h : ∀ c ∈ cs, c ≠ [] ∧ ∀ p ∈ c, p.text ≠ [] ∧ p = mkPattern U p.isInverse p.matchType p.text) :
    QueryOk U (.extended cs) := h

/-- What `distance` returns. -/
def dist (m : Metric) (q : FzfQuery) (s : String) : Res (Option FzfDistance) :=
  (m.distance U q s.toList).mapR (·.2)

/-- What `distance_and_ranges` leaves in the buffer and returns. -/
def ranges (m : Metric) (q : FzfQuery) (s : String) (buf : List Range) : Res (List Range × Option FzfDistance) :=
  (m.distanceAndRanges U q s.toList buf).mapR (·.2)

theorem returns {m : Metric} {q : FzfQuery} {s : String} {d : Option FzfDistance} (h : dist m q s = .ok d) :
    Returns U m q s.toList d := by
  unfold dist at h
  cases hm : m.distance U q s.toList with
  | panic => rw [hm] at h; cases h
  | ok x =>
    rw [hm] at h
    simp only [Res.mapR, Res.ok.injEq] at h
    exact ⟨x.1, by rw [hm, ← h]⟩

theorem returnsRanges {m : Metric} {q : FzfQuery} {s : String} {buf buf' : List Range} {d : Option FzfDistance}
    (h : ranges m q s buf = .ok (buf', d)) : ReturnsRanges U m q s.toList buf buf' d := by
  unfold ranges at h
  cases hm : m.distanceAndRanges U q s.toList buf with
  | panic => rw [hm] at h; cases h
  | ok x =>
    rw [hm] at h
    simp only [Res.mapR, Res.ok.injEq] at h
    obtain ⟨m', b, d'⟩ := x
    simp only [Prod.mk.injEq] at h
    exact ⟨m', by rw [hm, h.1, h.2]⟩

end Norm.Concrete
