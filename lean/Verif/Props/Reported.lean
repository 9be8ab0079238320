import Verif.Proofs.Dearer
import Verif.Proofs.Highlighted
import Verif.Props.Time
import Verif.Props.State

/-!
# What asking for ranges brings, and what it costs

Properties C85 and C86: which calls report any range, and the time that a call with ranges takes compared to the same call without. -/

namespace Norm.Props

open Spec

variable {U : Unicode} {a : Algo} {m : Metric} {st : Settings} {q : FzfQuery} {t s : List Char} {p : Pattern} {cs : List Condition}
  {buf buf' : List Range} {d : Option FzfDistance}

/-! ### Which calls report something -/

private theorem appended (h : Reachable U a m st) (hq : QueryOk U q) (hr : ReturnsRanges U m q s buf buf' d) :
    buf' = buf ↔ (result U a st s q).1 = [] := by
  obtain ⟨m', e⟩ := hr
  rw [(callR_inv h hq e).1, List.append_right_eq_self, insertAll_empty]

private theorem conds_empty {cs : List Condition} (hq : ∀ c ∈ cs, ∀ p ∈ c, PatternOk U p) :
    (condsHit U (pureOf a) st s cs).1 ≠ [] ↔ ∃ cs₁ c cs₂ p, cs = cs₁ ++ c :: cs₂ ∧
      (∀ c' ∈ cs₁, ∃ p' ∈ c', PatternMatches U st p' s) ∧ FirstMatch U st s c p ∧ p.isInverse = false := by
  induction cs with
  | nil => simp [condsHit]
  | cons c cs ih =>
    have ih := ih fun c hc => hq c (by simp [hc])
    have hc := hq c (by simp)
    by_cases hm : ∃ p ∈ c, PatternMatches U st p s
    · obtain ⟨p, hp⟩ := exists_firstMatch hm
      have h1 := condHit_first (a := a) hc hp
      have hpc : p ∈ c := by
        obtain ⟨l, l', rfl, -⟩ := hp
        simp
      have hs := (patHit_isSome (st := st) (s := s) (accepts a) (hc p hpc)).mpr (by obtain ⟨_, _, _, _, h⟩ := hp; exact h)
      obtain ⟨x, hx⟩ := Option.isSome_iff_exists.mp hs
      have hin := patHit_empty (hc p hpc).1 hx
      rw [hx] at h1
      have e : (condsHit U (pureOf a) st s (c :: cs)).1 = x.1 ++ (condsHit U (pureOf a) st s cs).1 := by
        simp only [condsHit, h1]
      rw [e, ne_eq, List.append_eq_nil_iff, hin]
      constructor
      · intro hne
        cases hi : p.isInverse with
        | false => exact ⟨[], c, cs, p, rfl, by simp, hp, hi⟩
        | true =>
          obtain ⟨cs₁, c', cs₂, p', rfl, h2, h3, h4⟩ := ih.mp fun h => hne ⟨hi, h⟩
          exact ⟨c :: cs₁, c', cs₂, p', rfl, fun y hy => by
            rcases List.mem_cons.mp hy with rfl | hy
            · exact hm
            · exact h2 y hy, h3, h4⟩
      · rintro ⟨cs₁, c', cs₂, p', he, h2, h3, h4⟩ ⟨hi, hn⟩
        cases cs₁ with
        | nil =>
          rw [List.nil_append, List.cons.injEq] at he
          obtain ⟨rfl, rfl⟩ := he
          have h5 := condHit_first (a := a) hc h3
          have hpc' : p' ∈ c := by
            obtain ⟨l, l', rfl, -⟩ := h3
            simp
          rw [h1] at h5
          have := (patHit_empty (hc p' hpc').1 h5.symm).mp (hin.mpr hi)
          rw [h4] at this
          cases this
        | cons c₁ cs₁ =>
          rw [List.cons_append, List.cons.injEq] at he
          obtain ⟨rfl, rfl⟩ := he
          exact ih.mpr ⟨cs₁, c', cs₂, p', rfl, fun y hy => h2 y (by simp [hy]), h3, h4⟩ hn
    · have h1 : condHit U (pureOf a) st s c = none := by
        unfold condHit
        rw [List.findSome?_eq_none_iff]
        exact fun x hx => (patHit_none (hc x hx)).mpr fun h => hm ⟨x, hx, h⟩
      simp only [condsHit, h1]
      constructor
      · intro h
        exact absurd rfl h
      · rintro ⟨cs₁, c', cs₂, p', he, h2, h3, -⟩
        cases cs₁ with
        | nil =>
          rw [List.nil_append, List.cons.injEq] at he
          obtain ⟨rfl, rfl⟩ := he
          obtain ⟨l, l', rfl, -, h⟩ := h3
          exact absurd ⟨p', by simp, h⟩ hm
        | cons c₁ cs₁ =>
          rw [List.cons_append, List.cons.injEq] at he
          obtain ⟨rfl, rfl⟩ := he
          exact absurd (h2 c (by simp)) hm

/-- **C85.** `distance_and_ranges` adds something to the vector exactly if some condition, before which all conditions are met, is met by
an alternative that is not negated, as its first. -/
theorem C85 (h : Reachable U a m st) (hq : QueryOk U (.extended cs)) (hr : ReturnsRanges U m (.extended cs) s buf buf' d) :
    buf' ≠ buf ↔ ∃ cs₁ c cs₂ p, cs = cs₁ ++ c :: cs₂ ∧ (∀ c' ∈ cs₁, ∃ p' ∈ c', PatternMatches U st p' s) ∧
      FirstMatch U st s c p ∧ p.isInverse = false := by
  rw [ne_eq, appended h hq hr, ← conds_empty (a := a) fun c hc p hp => (hq c hc).2 p hp]
  cases cs with
  | nil => simp [result, queryHit, FzfQuery.isEmpty, condsHit]
  | cons c cs => simp [result, queryHit, FzfQuery.isEmpty]

/-- **C85** for queries that are not extended: something is added exactly if there is a match, and the query is not empty. -/
theorem C85_plain (h : Reachable U a m st) (hq : QueryOk U (.notExtended p)) (hr : ReturnsRanges U m (.notExtended p) s buf buf' d) :
    buf' ≠ buf ↔ p.text ≠ [] ∧ d ≠ none := by
  rw [ne_eq, appended h hq hr]
  obtain ⟨m', e⟩ := hr
  rw [(callR_inv h hq e).2]
  by_cases hp : p.text = []
  · simp [result, queryHit, FzfQuery.isEmpty, Pattern.isEmpty, hp]
  · have hemp : (FzfQuery.notExtended p).isEmpty = false := by simp [FzfQuery.isEmpty, Pattern.isEmpty, hp]
    simp only [result, queryHit, hemp, Bool.false_eq_true, if_false]
    cases hx : pureOf a (posBonus U st.scheme s) (st.eqOf p) p.text s with
    | none => simp
    | some x => simpa [hp] using pureOf_ne (posBonus_nonneg U st.scheme s) hp hx

/-- **C85** for a match: something is added exactly if not all conditions are met by negated alternatives. -/
theorem C85_match (h : Reachable U a m st) (hq : QueryOk U (.extended cs)) (hr : ReturnsRanges U m (.extended cs) s buf buf' (some x)) :
    buf' = buf ↔ ∀ c ∈ cs, ∀ p, FirstMatch U st s c p → p.isInverse = true := by
  have hall : ∀ c ∈ cs, ∃ p ∈ c, PatternMatches U st p s := by
    obtain ⟨m', e⟩ := hr
    have h1 := (callR_inv h hq e).2
    have h2 := (result_isSome (a := a) (st := st) (s := s) hq).mp (by
      cases hx : (result U a st s (.extended cs)).2 with
      | none => rw [hx] at h1; cases h1
      | some => rfl)
    exact h2
  rw [← not_iff_not, ← ne_eq, C85 h hq hr]
  constructor
  · rintro ⟨cs₁, c, cs₂, p, rfl, -, h2, h3⟩ hn
    have := hn c (by simp) p h2
    rw [h3] at this
    cases this
  · intro hn
    simp only [not_forall] at hn
    obtain ⟨c, hc, p, h1, h2⟩ := hn
    obtain ⟨cs₁, cs₂, rfl⟩ := List.append_of_mem hc
    exact ⟨cs₁, c, cs₂, p, rfl, fun c' hc' => hall c' (by simp [hc']), h1, by simpa using h2⟩

/-- **C85**: a query of negated patterns only reports no range, whether it matches or not. -/
theorem C85_negated (h : Reachable U a m st) (hq : QueryOk U (.extended cs)) (hn : ∀ c ∈ cs, ∀ p ∈ c, p.isInverse = true)
    (hr : ReturnsRanges U m (.extended cs) s buf buf' d) : buf' = buf := by
  by_contra hne
  obtain ⟨cs₁, c, cs₂, p, rfl, -, ⟨l, l', rfl, -⟩, h3⟩ := (C85 h hq hr).mp hne
  rw [hn (l ++ p :: l') (by simp) p (by simp)] at h3
  cases h3

/-! ### The time of reporting -/

private theorem both (h : Reachable U a m st) (hq : QueryOk U q) (hr : ReturnsRanges U m q s buf buf' d) :
    (m.timedDistance U q s).steps ≤ (m.timedDistanceAndRanges U q s buf).steps ∧
    (buf' = buf ∨ (m.timedDistance U q s).steps < (m.timedDistanceAndRanges U q s buf).steps) ∧
    (buf' = buf → (m.timedDistanceAndRanges U q s buf).steps = (m.timedDistance U q s).steps) := by
  have happ := appended h hq hr
  obtain ⟨ha, hm⟩ := reachable_has h
  obtain ⟨m', e⟩ := hr
  rw [← Metric.res_timedDistanceAndRanges] at e
  have e0 : ∀ {α β : Type} (x : Timed α) (g : α → β), (x >>= fun y => pure (g y)).steps = x.steps := by
    intro α β x g
    rw [Timed.steps_bind]
    cases x.res <;> rfl
  have hn : ∀ (p : Pattern) (h : List Range × Int), p.text ≠ [] → patHit U (pureOf a) st s p = some h → h.1 = [] →
      p.isInverse = true := fun p h hp hh => (patHit_empty hp hh).mp
  have hf : ∀ (p : Pattern) x, p.text ≠ [] → pureOf a (posBonus U st.scheme s) (st.eqOf p) p.text s = some x → x.1 ≠ [] :=
    fun p x hp hx => pureOf_ne (posBonus_nonneg U st.scheme s) hp hx
  cases m with
  | v1 m =>
    cases ha
    have hI : Timed.DearerImpl (Timed.V1.impl U) := fun F m p c r r' => Timed.dearer_v1 U F m p c r r'
    have e1 : (Metric.timedDistance U q s (.v1 m)).steps = ((Timed.V1.impl U).distance U false m q s []).steps := e0 _ _
    have e2 : (Metric.timedDistanceAndRanges U q s buf (.v1 m)).steps = ((Timed.V1.impl U).distance U true m q s buf).steps := e0 _ _
    obtain ⟨x, hx, hx', hs⟩ := Timed.bind_ok_inv e
    cases hx'
    obtain ⟨h1, h2⟩ := Timed.dearer_distance hI U m q s buf hx
    rw [e1, e2]
    exact ⟨h1, h2, fun h => Timed.steps_distance hI (Timed.V1.agrees U) (FzfV1.refines U) buf hn hf hm q (queryOk_nonEmpty hq)
      (happ.mp h)⟩
  | v2 m =>
    cases ha
    have hI : Timed.DearerImpl (Timed.V2.impl U) := fun F m p c r r' => Timed.dearer_v2 U F m p c r r'
    have e1 : (Metric.timedDistance U q s (.v2 m)).steps = ((Timed.V2.impl U).distance U false m q s []).steps := e0 _ _
    have e2 : (Metric.timedDistanceAndRanges U q s buf (.v2 m)).steps = ((Timed.V2.impl U).distance U true m q s buf).steps := e0 _ _
    obtain ⟨x, hx, hx', hs⟩ := Timed.bind_ok_inv e
    cases hx'
    obtain ⟨h1, h2⟩ := Timed.dearer_distance hI U m q s buf hx
    rw [e1, e2]
    exact ⟨h1, h2, fun h => Timed.steps_distance hI (Timed.V2.agrees U) (FzfV2.refines U) buf hn hf hm q (queryOk_nonEmpty hq)
      (happ.mp h)⟩

/-- **C86.** A call with ranges never takes fewer steps than the same call without. -/
theorem C86 (h : Reachable U a m st) (hq : QueryOk U q) (s : List Char) (buf : List Range) :
    (m.timedDistance U q s).steps ≤ (m.timedDistanceAndRanges U q s buf).steps := by
  obtain ⟨m', -, e⟩ := callR h hq s buf
  exact (both h hq ⟨m', e⟩).1

/-- **C86**: it takes exactly as many if and only if it reports no range. -/
theorem C86_equal (h : Reachable U a m st) (hq : QueryOk U q) (hr : ReturnsRanges U m q s buf buf' d) :
    (m.timedDistanceAndRanges U q s buf).steps = (m.timedDistance U q s).steps ↔ buf' = buf := by
  obtain ⟨-, h2, h3⟩ := both h hq hr
  refine ⟨fun he => ?_, h3⟩
  rcases h2 with h2 | h2
  · exact h2
  · omega

/-- **C86**: in particular, asking for ranges costs nothing with a query of negated patterns, and with a query that is not extended and
does not match. -/
theorem C86_free (h : Reachable U a m st) (s : List Char) (buf : List Range) :
    (∀ cs, QueryOk U (.extended cs) → (∀ c ∈ cs, ∀ p ∈ c, p.isInverse = true) →
      (m.timedDistanceAndRanges U (.extended cs) s buf).steps = (m.timedDistance U (.extended cs) s).steps) ∧
    ∀ p, QueryOk U (.notExtended p) → Returns U m (.notExtended p) s none →
      (m.timedDistanceAndRanges U (.notExtended p) s buf).steps = (m.timedDistance U (.notExtended p) s).steps := by
  constructor
  · intro cs hq hn
    obtain ⟨m', -, e⟩ := callR h hq s buf
    exact (C86_equal h hq ⟨m', e⟩).mpr (C85_negated h hq hn ⟨m', e⟩)
  · rintro p hq ⟨m₁, hr⟩
    obtain ⟨m', -, e⟩ := callR h hq s buf
    refine (C86_equal h hq ⟨m', e⟩).mpr (Classical.not_not.mp fun hne => ((C85_plain h hq ⟨m', e⟩).mp hne).2 ?_)
    exact (call_inv h hq hr).symm

/-! ### Concrete cases -/

/-- `c y` in `acd` does not match, but reports the `c`, at a price of 2 steps; `!x !b | a` matches, but as both conditions are met by
negated alternatives, reports nothing, and nothing is paid. With the alternatives the other way round, `a` is reported. -/
example : ReturnsRanges Concrete.U (Concrete.metric .v2) (Concrete.parse "c y") "acd".toList [] [⟨1, 2⟩] none ∧
    stepsOf .v2 "c y" "acd" = (17, 19) ∧
    ReturnsRanges Concrete.U (Concrete.metric .v2) (Concrete.parse "!x !b | a") "acd".toList [] [] (some ⟨0⟩) ∧
    stepsOf .v2 "!x !b | a" "acd" = (19, 19) ∧
    ReturnsRanges Concrete.U (Concrete.metric .v2) (Concrete.parse "!x a | !b") "acd".toList [] [⟨0, 1⟩] (some ⟨36⟩) ∧
    stepsOf .v2 "!x a | !b" "acd" = (18, 20) :=
  ⟨Concrete.returnsRanges (by decide +kernel), by decide +kernel, Concrete.returnsRanges (by decide +kernel), by decide +kernel,
    Concrete.returnsRanges (by decide +kernel), by decide +kernel⟩

/-- `C85` applied to the last of these. -/
example : ∃ cs₁ c cs₂ p, [[mkPattern Concrete.U true .exact ['x']],
      [mkPattern Concrete.U false .fuzzy ['a'], mkPattern Concrete.U true .exact ['b']]] = cs₁ ++ c :: cs₂ ∧
    (∀ c' ∈ cs₁, ∃ p' ∈ c', PatternMatches Concrete.U defaultSettings p' "acd".toList) ∧
    FirstMatch Concrete.U defaultSettings "acd".toList c p ∧ p.isInverse = false := by
  have e : Concrete.parse "!x a | !b" = .extended [[mkPattern Concrete.U true .exact ['x']],
      [mkPattern Concrete.U false .fuzzy ['a'], mkPattern Concrete.U true .exact ['b']]] := by decide +kernel
  have hq := (Concrete.parsed "!x a | !b").ok
  have hr : ReturnsRanges Concrete.U (Concrete.metric .v2) (Concrete.parse "!x a | !b") "acd".toList [] [⟨0, 1⟩] (some ⟨36⟩) :=
    Concrete.returnsRanges (by decide +kernel)
  rw [e] at hq hr
  exact (C85 (Concrete.reachable .v2 .smart false .default) hq hr).mp (by decide)

end Norm.Props
