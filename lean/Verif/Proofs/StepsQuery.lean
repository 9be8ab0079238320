import Verif.Proofs.StepsCalls
import Verif.Proofs.Conditions
import Verif.SpecTime

/-!
# Helper lemmas: the steps of a call in terms of the lengths of the query and the candidate -/

namespace Norm

open Spec Timed

variable {U : Unicode} {F E : Nat → Nat → Nat} {R : Bool} {L K : Nat}

theorem condCost_le {ps : List Pattern} (hK : ∀ p ∈ ps, 2 + (patCost F L p + extra R (patExtra E L p)) ≤ K * p.text.length) :
    condCost F E R L ps + ps.length ≤ K * (ps.map fun p => p.text.length).sum := by
  induction ps with
  | nil => simp [condCost]
  | cons p ps ih =>
    have ih := ih fun q hq => hK q (by simp [hq])
    have h := hK p (by simp)
    simp only [condCost, List.map_cons, List.sum_cons, List.length_cons, Nat.mul_add] at ih ⊢
    omega

theorem condsCost_le : ∀ {cs : List Condition}, (∀ c ∈ cs, c ≠ []) →
    (∀ c ∈ cs, ∀ p ∈ c, 2 + (patCost F L p + extra R (patExtra E L p)) ≤ K * p.text.length) →
    condsCost F E R L cs ≤ K * (cs.flatten.map fun p => p.text.length).sum := by
  intro cs
  induction cs with
  | nil => intro _ _; exact Nat.zero_le _
  | cons c cs ih =>
    intro hne hK
    have ih := ih (fun d hd => hne d (by simp [hd])) (fun d hd => hK d (by simp [hd]))
    have h := condCost_le (hK c (by simp))
    have hc := List.length_pos_iff.mpr (hne c (by simp))
    simp only [condsCost, List.map_cons, List.sum_cons, List.flatten_cons, List.map_append, List.sum_append, Nat.mul_add] at ih ⊢
    omega

theorem queryCost_le {q : FzfQuery} (hq : QueryOk U q) (hne : q.isEmpty = false)
    (hK : ∀ p ∈ patterns q, 0 < p.text.length → 2 + (patCost F L p + extra R (patExtra E L p)) ≤ K * p.text.length) :
    queryCost F E R L q ≤ K * queryLen q := by
  cases q with
  | notExtended p =>
    have hp : 0 < p.text.length := by
      refine List.length_pos_iff.mpr fun h => ?_
      simp [FzfQuery.isEmpty, Pattern.isEmpty, h] at hne
    have h := hK p (by simp [patterns]) hp
    have hm : p.matchType = .fuzzy := by
      have : p = mkPattern U p.isInverse .fuzzy p.text := hq
      rw [this]; rfl
    unfold patCost patExtra at h
    rw [hm] at h
    simp only [queryCost, queryLen, patterns, List.map_cons, List.map_nil, List.sum_cons, List.sum_nil, Nat.add_zero]
    dsimp only at h
    omega
  | extended cs =>
    refine condsCost_le (fun c hc => (hq c hc).1) fun c hc p hp => ?_
    exact hK p (by simpa [patterns] using ⟨c, hc, hp⟩) (List.length_pos_iff.mpr ((hq c hc).2 p hp).1)

/-- A query that is not empty has characters. -/
theorem queryLen_pos {q : FzfQuery} (hq : QueryOk U q) (hne : q.isEmpty = false) : 0 < queryLen q := by
  unfold queryLen
  cases q with
  | notExtended p =>
    have hp : 0 < p.text.length := by
      refine List.length_pos_iff.mpr fun h => ?_
      simp [FzfQuery.isEmpty, Pattern.isEmpty, h] at hne
    simpa [patterns] using hp
  | extended cs =>
    cases cs with
    | nil => simp [FzfQuery.isEmpty] at hne
    | cons c cs =>
      have h := hq c (by simp)
      cases c with
      | nil => exact absurd rfl h.1
      | cons p ps =>
        have hp := List.length_pos_iff.mpr (h.2 p (by simp)).1
        simp only [patterns, List.flatten_cons, List.cons_append, List.map_cons, List.sum_cons]
        omega

/-! ### The query is no longer than the string it is parsed from -/

theorem escape_length (w : List Char) : w.length ≤ (escape w).length := by
  unfold escape
  induction w with
  | nil => exact Nat.le_refl _
  | cons c w ih =>
    simp only [List.flatMap_cons, List.length_append, List.length_cons]
    split <;> simp only [List.length_cons, List.length_nil] <;> omega

theorem intercalate_length : ∀ (ps : List (List Char)),
    (ps.map List.length).sum ≤ ([' '].intercalate (ps.map escape)).length := by
  intro ps
  induction ps with
  | nil => exact Nat.zero_le _
  | cons p ps ih =>
    have hp := escape_length p
    cases ps with
    | nil => simpa [List.intercalate] using hp
    | cons p' ps =>
      simp only [List.intercalate, List.map_cons, List.intersperse_cons_cons, List.flatten_cons, List.length_append, List.sum_cons] at ih ⊢
      omega

theorem words_length (t : List Char) : ((words t).map List.length).sum ≤ t.length := by
  have h := intercalate_length (pieces t)
  rw [pieces_render] at h
  refine Nat.le_trans ?_ h
  unfold words
  generalize pieces t = ps
  induction ps with
  | nil => exact Nat.le_refl _
  | cons p ps ih =>
    simp only [List.filter_cons, List.map_cons, List.sum_cons]
    split
    · simp only [List.map_cons, List.sum_cons]; omega
    · omega

theorem wordPattern_length {w : List Char} {p : Pattern} (h : wordPattern U w = some p) : p.text.length ≤ w.length := by
  rw [wordPattern_of_decorates (decorates_exists w)] at h
  split at h
  · cases h
  · cases h
    have := congrArg List.length (decorates_exists w).word
    simp only [List.length_append] at this
    show (_ : List Char).length ≤ _
    simp only [mkPattern]
    omega

theorem filterMap_length {f : List Char → Option Pattern} (hf : ∀ w p, f w = some p → p.text.length ≤ w.length) :
    ∀ ws : List (List Char), ((ws.filterMap f).map fun p => p.text.length).sum ≤ (ws.map List.length).sum := by
  intro ws
  induction ws with
  | nil => exact Nat.le_refl _
  | cons w ws ih =>
    rw [List.filterMap_cons]
    cases h : f w with
    | none => simp only [List.map_cons, List.sum_cons]; omega
    | some p =>
      have := hf w p h
      simp only [List.map_cons, List.sum_cons]
      omega

theorem queryLen_parsed {t : List Char} {q : FzfQuery} (hq : Parsed U t q) : queryLen q ≤ t.length := by
  unfold queryLen
  have : patterns q = (words t).filterMap (fun w => if w = ['|'] then none else wordPattern U w) := by
    rw [patterns_eq, hq.eq, query, conditions_collapse, groups_pats]
    unfold pats tokens
    rw [List.filterMap_filterMap]
    congr 1
    funext w
    by_cases hw : w = ['|']
    · simp [hw]
    · simp only [hw, if_false]
      cases wordPattern U w <;> simp
  rw [this]
  refine Nat.le_trans (filterMap_length (fun w p h => ?_) _) (words_length t)
  split at h
  · cases h
  · exact wordPattern_length h

theorem queryLen_parsedRaw {t : List Char} {q : FzfQuery} (hq : ParsedRaw U t q) : queryLen q = t.length := by
  rw [hq.eq]
  simp [queryLen, rawQuery, patterns, mkPattern]

end Norm
