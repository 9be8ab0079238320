import Verif.SpecApi
import Verif.Proofs.Matching
import Verif.Proofs.Parser

/-!
# Calls on reachable metrics

Every call on a reachable metric with a well-formed query returns, and computes `queryHit`. -/

set_option linter.unusedSimpArgs false

namespace Norm

open Spec

/-- The pure fuzzy matcher of an algorithm. -/
def pureOf : Algo → PureFuzzy
  | .v1 => v1Result
  | .v2 => v2Result

/-- `m` has the settings `st`. -/
def Metric.Has : Metric → Settings → Prop
  | .v1 m, st => m.Has st
  | .v2 m, st => m.Has st

theorem accepts (a : Algo) : Accepts (pureOf a) := by cases a; exact accepts_v1; exact accepts_v2

theorem fromInner_intoInner (S : FzfScheme) : FzfScheme.fromInner S.intoInner = some S := by cases S <;> rfl

theorem intoInner_injective {S T : FzfScheme} (h : S.intoInner = T.intoInner) : S = T := by
  have := congrArg FzfScheme.fromInner h
  rw [fromInner_intoInner, fromInner_intoInner] at this
  exact Option.some.inj this

theorem Metric.Has.unique {m : Metric} {st st' : Settings} (h : m.Has st) (h' : m.Has st') : st = st' := by
  cases m <;> obtain ⟨h1, h2, h3⟩ := h <;> obtain ⟨h1', h2', h3'⟩ := h' <;>
    (cases st; cases st'; simp only at *
     subst h1; subst h2; simp only [Settings.mk.injEq]
     exact ⟨h1', h2', intoInner_injective (h3.symm.trans h3')⟩)

variable {U : Unicode} {a : Algo} {m m' : Metric} {st : Settings} {q : FzfQuery} {s : List Char}

theorem Metric.Has.distance (h : m.Has st) (hq : q.NonEmpty) (s : List Char) :
    ∃ m', m'.algo = m.algo ∧ m'.Has st ∧
      m.distance U q s = .ok (m', (queryHit U (pureOf m.algo) st s q).2.map FzfDistance.fromScore) := by
  cases m with
  | v1 m =>
    obtain ⟨m', h1, h2⟩ := distance_eq (FzfV1.refines U) false h q hq s []
    exact ⟨.v1 m', rfl, h1, by simp [Metric.distance, FzfV1.distance, h2, Res.mapR, pureOf, Metric.algo]⟩
  | v2 m =>
    obtain ⟨m', h1, h2⟩ := distance_eq (FzfV2.refines U) false h q hq s []
    exact ⟨.v2 m', rfl, h1, by simp [Metric.distance, FzfV2.distance, h2, Res.mapR, pureOf, Metric.algo]⟩

theorem Metric.Has.distanceAndRanges (h : m.Has st) (hq : q.NonEmpty) (s : List Char) (buf : List Range) :
    ∃ m', m'.algo = m.algo ∧ m'.Has st ∧
      m.distanceAndRanges U q s buf = .ok (m', buf ++ insertAll [] (queryHit U (pureOf m.algo) st s q).1,
        (queryHit U (pureOf m.algo) st s q).2.map FzfDistance.fromScore) := by
  cases m with
  | v1 m =>
    obtain ⟨m', h1, h2⟩ := distance_eq (FzfV1.refines U) true h q hq s buf
    exact ⟨.v1 m', rfl, h1, by
      simp [Metric.distanceAndRanges, FzfV1.distanceAndRanges, h2, Res.mapR, pureOf, Metric.algo]⟩
  | v2 m =>
    obtain ⟨m', h1, h2⟩ := distance_eq (FzfV2.refines U) true h q hq s buf
    exact ⟨.v2 m', rfl, h1, by
      simp [Metric.distanceAndRanges, FzfV2.distanceAndRanges, h2, Res.mapR, pureOf, Metric.algo]⟩

theorem reachable_has (h : Reachable U a m st) : m.algo = a ∧ m.Has st := by
  induction h with
  | new => cases a <;> exact ⟨rfl, rfl, rfl, rfl⟩
  | @setCandidateNormalization m st n _ ih =>
    cases m <;> exact ⟨ih.1, ih.2.1, rfl, ih.2.3⟩
  | @setCaseSensitivity m st cs _ ih =>
    cases m <;> exact ⟨ih.1, rfl, ih.2.2, ih.2.3⟩
  | @setScoringScheme m st S _ ih =>
    cases m <;> exact ⟨ih.1, ih.2.1, ih.2.2, rfl⟩
  | @distance m m' st q s d _ hq hd ih =>
    obtain ⟨m1, h1, h2, h3⟩ := ih.2.distance (U := U) (queryOk_nonEmpty hq) s
    rw [h3] at hd
    cases hd
    exact ⟨h1.trans ih.1, h2⟩
  | @distanceAndRanges m m' st q s buf buf' d _ hq hd ih =>
    obtain ⟨m1, h1, h2, h3⟩ := ih.2.distanceAndRanges (U := U) (queryOk_nonEmpty hq) s buf
    rw [h3] at hd
    cases hd
    exact ⟨h1.trans ih.1, h2⟩
  | unwound _ hu ih =>
    cases hu with
    | v1 _ h1 h2 h3 => exact ⟨ih.1, h1.trans ih.2.1, h2.trans ih.2.2, h3.trans ih.2.3⟩
    | v2 _ _ _ _ _ h1 h2 h3 => exact ⟨ih.1, h1.trans ih.2.1, h2.trans ih.2.2, h3.trans ih.2.3⟩

/-- The result of a call: the ranges it inserts, in order, and the score. -/
def result (U : Unicode) (a : Algo) (st : Settings) (s : List Char) (q : FzfQuery) : List Range × Option Int :=
  queryHit U (pureOf a) st s q

theorem call (h : Reachable U a m st) (hq : QueryOk U q) (s : List Char) :
    ∃ m', Reachable U a m' st ∧ m.distance U q s = .ok (m', (result U a st s q).2.map FzfDistance.fromScore) := by
  obtain ⟨h1, h2⟩ := reachable_has h
  obtain ⟨m', _, _, h3⟩ := h2.distance (U := U) (queryOk_nonEmpty hq) s
  rw [h1] at h3
  exact ⟨m', .distance h hq h3, h3⟩

theorem callR (h : Reachable U a m st) (hq : QueryOk U q) (s : List Char) (buf : List Range) :
    ∃ m', Reachable U a m' st ∧ m.distanceAndRanges U q s buf =
      .ok (m', buf ++ insertAll [] (result U a st s q).1, (result U a st s q).2.map FzfDistance.fromScore) := by
  obtain ⟨h1, h2⟩ := reachable_has h
  obtain ⟨m', _, _, h3⟩ := h2.distanceAndRanges (U := U) (queryOk_nonEmpty hq) s buf
  rw [h1] at h3
  exact ⟨m', .distanceAndRanges h hq h3, h3⟩

theorem call_inv (h : Reachable U a m st) (hq : QueryOk U q) {d : Option FzfDistance}
    (hd : m.distance U q s = .ok (m', d)) : d = (result U a st s q).2.map FzfDistance.fromScore := by
  obtain ⟨_, _, h3⟩ := call h hq s
  rw [h3] at hd; cases hd; rfl

theorem callR_inv (h : Reachable U a m st) (hq : QueryOk U q) {buf buf' : List Range} {d : Option FzfDistance}
    (hd : m.distanceAndRanges U q s buf = .ok (m', buf', d)) :
    buf' = buf ++ insertAll [] (result U a st s q).1 ∧ d = (result U a st s q).2.map FzfDistance.fromScore := by
  obtain ⟨_, _, h3⟩ := callR h hq s buf
  rw [h3] at hd; cases hd; exact ⟨rfl, rfl⟩

theorem result_isSome (hq : QueryOk U q) :
    (result U a st s q).2.isSome = true ↔ QueryMatches U st q s := queryHit_isSome (accepts a) hq

/-! ### Results of the various queries -/

theorem result_single (p : Pattern) : result U a st s (single p) =
    match patHit U (pureOf a) st s p with
    | none => ([], none)
    | some x => (x.1, some x.2) := by
  simp only [result, queryHit, single, FzfQuery.isEmpty, condsHit, condHit, List.findSome?_cons, List.findSome?_nil]
  cases patHit U (pureOf a) st s p <;> simp

theorem result_single_score (p : Pattern) :
    (result U a st s (single p)).2 = (patHit U (pureOf a) st s p).map (·.2) := by
  rw [result_single]; cases patHit U (pureOf a) st s p <;> rfl

theorem result_notExtended {p : Pattern} (hp : p.text ≠ []) : result U a st s (.notExtended p) =
    match pureOf a (posBonus U st.scheme s) (st.eqOf p) p.text s with
    | none => ([], none)
    | some x => (x.1.map (charRange s), some x.2) := by
  unfold result queryHit
  rw [if_neg (by simp [FzfQuery.isEmpty, Pattern.isEmpty, hp])]
  rfl

theorem queryOk_single {p : Pattern} (h : PatternOk U p) : QueryOk U (single p) := by
  intro c hc
  simp only [List.mem_singleton] at hc
  subst hc
  exact ⟨by simp, by simpa using h⟩

theorem queryOk_raw (t : List Char) : QueryOk U (rawQuery U t) := rfl

theorem result_extended (cs : List Condition) : result U a st s (.extended cs) = condsHit U (pureOf a) st s cs := by
  cases cs <;> simp [result, queryHit, FzfQuery.isEmpty, condsHit]

end Norm
