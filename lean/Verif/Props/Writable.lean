import Verif.Proofs.Writable
import Verif.Props.Concrete

/-!
# Which queries can be written

Property C80: the range of `parse`. -/

namespace Norm.Props

open Spec

variable {U : Unicode} {q : FzfQuery} {t : List Char} {cs : List (List Pattern)}

/-- **C80.** There is a string that parses to the conditions `cs` if and only if no condition is empty, every pattern has a
word, and none but the last has one that ends with a backslash. -/
theorem C80_queries : (∃ t q, Parsed U t q ∧ conditions q = cs) ↔
    (∀ c ∈ cs, c ≠ []) ∧ (∀ p ∈ cs.flatten, Writable U p) ∧ ∀ p ∈ cs.flatten.dropLast, ¬ LastOnly p := by
  constructor
  · rintro ⟨t, q, hq, rfl⟩
    rw [hq.eq]
    exact query_writable t
  · rintro ⟨h1, h2, h3⟩
    obtain ⟨P', -, h⟩ := FzfParser.parse_eq U FzfParser.new (written cs)
    refine ⟨written cs, _, ⟨_, P', .new, h⟩, ?_⟩
    rw [query_written h1 h2 h3, conditions_collapse]

/-- **C80**, the string: `written cs` parses to `cs`. -/
theorem C80_written (h1 : ∀ c ∈ cs, c ≠ []) (h2 : ∀ p ∈ cs.flatten, Writable U p)
    (h3 : ∀ p ∈ cs.flatten.dropLast, ¬ LastOnly p) (hq : Parsed U (written cs) q) : conditions q = cs := by
  rw [hq.eq, query_written h1 h2 h3, conditions_collapse]

/-- **C80** for a lone pattern. -/
theorem C80_pattern {p : Pattern} : (∃ t q, Parsed U t q ∧ conditions q = [[p]]) ↔ Writable U p := by
  rw [C80_queries]
  simp

/-- **C80**, the kinds that any text can be searched for with: contained or not contained in the candidate, equal to it or
not, not fuzzily. -/
theorem C80_any_text {inv : Bool} {k : MatchType} (hk : k = .equalExact ∨ (k = .exact ∧ inv = false) ∨ (k = .fuzzy ∧ inv = true)) :
    (∀ text ≠ [], ∃ t q, Parsed U t q ∧ conditions q = [[mkPattern U inv k text]]) := by
  intro text ht
  rw [C80_pattern]
  refine ⟨⟨ht, rfl⟩, fun h => ?_, fun h => ?_, fun h => ?_, fun h h' => ?_⟩
  all_goals
    rcases hk with rfl | ⟨rfl, rfl⟩ | ⟨rfl, rfl⟩ <;> simp [NoSigil, NoDollar, mkPattern] at *

/-- **C80**, and that these are all the kinds of which this is true. -/
theorem C80_not_any_text {inv : Bool} {k : MatchType}
    (h : ∀ text ≠ [], ∃ t q, Parsed U t q ∧ conditions q = [[mkPattern U inv k text]]) :
    k = .equalExact ∨ (k = .exact ∧ inv = false) ∨ (k = .fuzzy ∧ inv = true) := by
  have h1 := C80_pattern.mp (h ['^'] (by simp))
  have h2 := C80_pattern.mp (h ['a', '$'] (by simp))
  have h3 := h1.sigil
  have h4 := h2.dollar
  cases k <;> cases inv <;> simp [NoSigil, NoDollar, mkPattern] at *

/-! ### Concrete cases -/

/-- `a b` fuzzily or not containing `c`; and equal to `$`. -/
def someConds : List (List Pattern) :=
  [[mkPattern Concrete.U false .fuzzy "a b".toList, mkPattern Concrete.U true .exact "c".toList],
    [mkPattern Concrete.U false .equalExact "$".toList]]
example : conditions (Concrete.parse "a\\ b | !c ^$$") = someConds := by
  have h : written someConds = "a\\ b | !c ^$$".toList := by decide +kernel
  refine C80_written ?_ ?_ ?_ (h ▸ Concrete.parsed _)
  · decide +kernel
  · simp only [someConds, List.flatten_cons, List.flatten_nil, List.append_nil, List.cons_append, List.nil_append, List.forall_mem_cons,
      List.not_mem_nil, false_implies, implies_true, and_true]
    refine ⟨⟨⟨by decide, rfl⟩, ?_, ?_, ?_, ?_⟩, ⟨⟨by decide, rfl⟩, ?_, ?_, ?_, ?_⟩, ⟨⟨by decide, rfl⟩, ?_, ?_, ?_, ?_⟩⟩ <;>
      simp [NoSigil, NoDollar, mkPattern]
  · simp [someConds, LastOnly, NoDollar, mkPattern]

/-- There is no word for fuzzy patterns that start with `^`. -/
example : ¬ ∃ t q, Parsed U t q ∧ conditions q = [[mkPattern U false .fuzzy "^a".toList]] := by
  rw [C80_pattern]
  exact fun h => (h.sigil (Or.inr (Or.inl ⟨rfl, rfl⟩))).2 rfl

/-- `a\` can be the last pattern, and only that. -/
example : conditions (Concrete.parse "b a\\") =
    [[mkPattern Concrete.U false .fuzzy "b".toList], [mkPattern Concrete.U false .fuzzy "a\\".toList]] ∧
    ¬ ∃ t q, Parsed U t q ∧ conditions q = [[mkPattern U false .fuzzy "a\\".toList], [mkPattern U false .fuzzy "b".toList]] := by
  refine ⟨by decide +kernel, ?_⟩
  rw [C80_queries]
  exact fun h => h.2.2 (mkPattern U false .fuzzy "a\\".toList) (by simp) ⟨Or.inr (Or.inl ⟨rfl, rfl⟩), rfl⟩

end Norm.Props
