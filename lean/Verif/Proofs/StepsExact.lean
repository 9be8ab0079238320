import Verif.Proofs.StepsV1

/-! How many steps the exact matchers take. -/

namespace Norm

open Timed

theorem computeScoreLoop_ranges (U : Unicode) (eq : CharEq) (S : Scheme) (b : Nat) : ∀ (l : List Char) (st : ScoreState),
    OkAll (fun st' => st'.ranges = st.ranges) (Norm.computeScoreLoop U false eq S b l st) := by
  intro l
  induction l with
  | nil => intro st; exact .pure rfl
  | cons ch l ih =>
    intro st
    unfold Norm.computeScoreLoop
    cases eq st.patternChar ch with
    | false =>
      simp only [Bool.false_eq_true, if_false]
      exact (ih _).mono fun _ h => h
    | true =>
      simp only [if_true, Bool.false_eq_true, if_false, Res.pure_def, Res.bind_ok]
      cases st.patternChars with
      | nil => exact .pure rfl
      | cons a pc => exact (ih _).mono fun _ h => h

/-- `compute_score::<false>` inserts nothing. -/
theorem computeScore_ranges {U : Unicode} {p : Pattern} {c : Candidate} {r : Range} {eq : CharEq} {S : Scheme} {ranges : MatchedRanges}
    {x : MatchedRanges × Score} (h : Norm.computeScore U false p c r eq S ranges = .ok x) : x.1 = ranges := by
  unfold Norm.computeScore at h
  simp only [Bool.false_eq_true, if_false, Res.pure_def, Res.bind_ok] at h
  have : ∀ off cl, OkAll (fun x => x.1 = ranges) (do
      let patternChar ← Res.unwrap p.text.head?
      let slice ← c.slice r
      let chars ← slice.chars
      let st ← Norm.computeScoreLoop U false eq S off chars {
        isInGap := false, isFirstPatternChar := true, firstBonus := 0, consecutive := 0
        byteOffset := 0, prevClass := cl, patternChars := p.text.tail
        patternChar := patternChar, score := 0, ranges := ranges }
      return (st.ranges, st.score)) := fun off cl =>
    .bind fun _ => .bind fun _ => .bind fun _ => (computeScoreLoop_ranges U eq S off _ _).bind' fun st hst => .pure hst
  revert h
  split
  · exact this _ _ _
  · intro h
    exact OkAll.bind (fun ch => this 0 _) x h

/-- What is left when the matching of a pattern has begun. -/
theorem exactInner_steps_pos (U : Unicode) (p : Pattern) (eq : CharEq) (S : Scheme) (cur : Nat) : ∀ (l : List Char) (k : Nat) (st : ExactState),
    0 < st.patternCharIdx → st.patternCharIdx < p.charLen →
    (Timed.exactInner U p eq S cur l k st).steps ≤ 2 * l.length ∧
    (Timed.exactInner U p eq S cur l k st).steps ≤ 2 * (p.charLen - st.patternCharIdx) ∧
    OkAll (fun x => x.2.startOffset = st.startOffset) (Norm.exactInner U p eq S cur l k st) := by
  intro l
  induction l with
  | nil => intro k st _ _; exact ⟨Nat.le_refl _, Nat.zero_le _, .pure rfl⟩
  | cons ch l ih =>
    intro k st h0 h1
    unfold Timed.exactInner Norm.exactInner
    rw [steps_tick_bind, List.length_cons]
    have key : ∀ v, (if eq v ch then
          let st :=
            if st.patternCharIdx == 0 then
              { st with
                bonusStart := cur + k
                startOffset := st.startOffset + (k + 1)
                currentBonus := computeBonus st.prevClass (charClass U ch S) S }
            else st
          let st := { st with patternCharIdx := st.patternCharIdx + 1 }
          if st.patternCharIdx == p.charLen then
            let st := { st with matched := true }
            let st :=
              if st.currentBonus > st.bestBonus then
                { st with
                  bestBonus := st.currentBonus
                  bestBonusCharStart := st.bonusStart
                  bestBonusCharEnd := cur + k + 1 }
              else st
            if st.currentBonus ≥ Bonus.boundary then
              (return (.breakOuter, st) : Timed (ExactExit × ExactState))
            else
              return (.done l, st)
          else
            Timed.exactInner U p eq S cur l (k + 1) { st with prevClass := charClass U ch S }
        else if st.patternCharIdx > 0 then
          return (.done l, st)
        else
          Timed.exactInner U p eq S cur l (k + 1) { st with prevClass := charClass U ch S } : Timed (ExactExit × ExactState)).steps ≤
        min (2 * l.length) (2 * (p.charLen - st.patternCharIdx) - 2) := by
      intro v
      have hi : (st.patternCharIdx == 0) = false := by simp; omega
      simp only [hi, Bool.false_eq_true, if_false]
      refine ite_le (fun _ => ite_le (fun _ => ite_le (fun _ => Nat.zero_le _) (fun _ => Nat.zero_le _)) (fun hne => ?_))
        (fun _ => ?_)
      · simp only [beq_iff_eq] at hne
        have := ih (k + 1) { st with patternCharIdx := st.patternCharIdx + 1, prevClass := charClass U ch S } (by dsimp only; omega)
          (by dsimp only; omega)
        have h1 := this.1
        have h2 := this.2.1
        dsimp only at h1 h2 ⊢
        omega
      · rw [if_pos h0]; exact Nat.zero_le _
    refine ⟨?_, ?_, ?_⟩
    · refine Nat.le_trans (Nat.add_le_add_left (free_le fun v _ => key v) _) (by omega)
    · refine Nat.le_trans (Nat.add_le_add_left (free_le fun v _ => key v) _) (by omega)
    · refine .bind fun v => ?_
      have hi : (st.patternCharIdx == 0) = false := by simp; omega
      simp only [hi, Bool.false_eq_true, if_false]
      by_cases he : eq v ch = true
      · simp only [he, if_true]
        by_cases hm : st.patternCharIdx + 1 = p.charLen
        · simp only [hm, beq_self_eq_true, if_true]
          by_cases hb : st.currentBonus > st.bestBonus
          · simp only [hb, if_true]; exact .ite (.pure rfl) (.pure rfl)
          · simp only [hb, if_false]; exact .ite (.pure rfl) (.pure rfl)
        · have hm' : (st.patternCharIdx + 1 == p.charLen) = false := by simpa using hm
          simp only [hm', Bool.false_eq_true, if_false]
          exact (ih (k + 1) _ (by dsimp only; omega) (by dsimp only; omega)).2.2
      · simp only [he, Bool.false_eq_true, if_false]
        rw [if_pos h0]
        exact .pure rfl

/-- One round of the outer loop of `exact_match`. -/
theorem exactInner_steps (U : Unicode) (p : Pattern) (eq : CharEq) (S : Scheme) (cur : Nat) : ∀ (l : List Char) (k : Nat) (st : ExactState),
    st.patternCharIdx = 0 → 0 < p.charLen →
    (Timed.exactInner U p eq S cur l k st).steps ≤ 2 * l.length ∧
    OkAll (fun x => ∀ a rest, x.1 = .done (a :: rest) → ∃ j < l.length, x.2.startOffset = st.startOffset + (k + j + 1) ∧
      (Timed.exactInner U p eq S cur l k st).steps ≤ 2 * (j + p.charLen)) (Norm.exactInner U p eq S cur l k st) := by
  intro l
  induction l with
  | nil => intro k st _ _; exact ⟨Nat.le_refl _, .pure (fun _ _ h => nomatch h)⟩
  | cons ch l ih =>
    intro k st h0 hp
    unfold Timed.exactInner Norm.exactInner
    have hi : (st.patternCharIdx == 0) = true := by simp [h0]
    simp only [hi, if_true, List.length_cons]
    rw [steps_tick_bind]
    have hng : ¬ (st.patternCharIdx > 0) := by omega
    cases hc : p.char st.patternCharIdx with
    | panic =>
      refine ⟨?_, ?_⟩
      · rw [steps_bind_panic (by rfl), steps_free]; omega
      · intro v hv; cases hv
    | ok v =>
      rw [steps_bind_ok (a := v) (by rfl), Res.bind_ok, steps_free]
      by_cases he : eq v ch = true
      · simp only [he, if_true]
        by_cases hm : st.patternCharIdx + 1 = p.charLen
        · simp only [hm, beq_self_eq_true, if_true]
          have hz : ∀ (st' : ExactState) {q : Prop} [Decidable q], (if q then (pure (.breakOuter, st') : Timed (ExactExit × ExactState))
              else pure (.done l, st')).steps = 0 := fun st' => by intros; split <;> rfl
          rw [hz]
          refine ⟨by omega, ?_⟩
          by_cases hb : computeBonus st.prevClass (charClass U ch S) S > st.bestBonus
          · simp only [hb, if_true]
            exact .ite (.pure (fun _ _ h => nomatch h)) (.pure (fun _ _ _ => ⟨0, by omega, rfl, by omega⟩))
          · simp only [hb, if_false]
            exact .ite (.pure (fun _ _ h => nomatch h)) (.pure (fun _ _ _ => ⟨0, by omega, rfl, by omega⟩))
        · have hm' : (st.patternCharIdx + 1 == p.charLen) = false := by simpa using hm
          simp only [hm', Bool.false_eq_true, if_false]
          have := exactInner_steps_pos U p eq S cur l (k + 1)
            { st with bonusStart := cur + k, startOffset := st.startOffset + (k + 1),
                      currentBonus := computeBonus st.prevClass (charClass U ch S) S,
                      patternCharIdx := st.patternCharIdx + 1, prevClass := charClass U ch S } (by dsimp only; omega)
            (by dsimp only; omega)
          have h1 := this.1
          have h2 := this.2.1
          dsimp only at h1 h2
          refine ⟨by omega, this.2.2.mono fun x hx a rest _ => ⟨0, by omega, hx, by omega⟩⟩
      · simp only [he, Bool.false_eq_true, if_false]
        rw [if_neg hng, if_neg hng]
        have := ih (k + 1) { st with prevClass := charClass U ch S } h0 hp
        have h1 := this.1
        refine ⟨by omega, this.2.mono fun x hx a rest h => ?_⟩
        obtain ⟨j, hj, h2, h3⟩ := hx a rest h
        exact ⟨j + 1, by omega, by rw [h2]; dsimp only; omega, by omega⟩

theorem exactOuter_steps (U : Unicode) (p : Pattern) (c : Candidate) (eq : CharEq) (S : Scheme) (hp : 0 < p.charLen) :
    ∀ (fuel : Nat) (st : ExactState),
    (Timed.exactOuter U p c eq S fuel st).steps ≤ 2 * (p.charLen * (c.charLen - st.startOffset)) := by
  intro fuel
  induction fuel with
  | zero => intro st; exact Nat.zero_le _
  | succ fuel ih =>
    intro st
    unfold Timed.exactOuter
    refine free_le fun cs hcs => ?_
    have hl := charsFrom_len c _ cs hcs
    dsimp only at hl hcs
    obtain ⟨h1, h2⟩ := exactInner_steps U p eq S st.startOffset cs 0
      { st with bonusStart := 0, currentBonus := 0, patternCharIdx := 0 } rfl hp
    have hle : c.charLen - st.startOffset ≤ p.charLen * (c.charLen - st.startOffset) := Nat.le_mul_of_pos_left _ hp
    refine bind_le_of (by omega) fun x hx => ?_
    rw [res_exactInner] at hx
    have h2 := h2 x hx
    obtain ⟨exit, st'⟩ := x
    cases exit with
    | breakOuter => simp only [steps_pure]; omega
    | done l =>
      cases l with
      | nil => simp only [steps_pure]; omega
      | cons a l =>
        obtain ⟨j, hj, h3, h4⟩ := h2 a l rfl
        have := ih st'
        rw [h3] at this
        dsimp only at this h4 ⊢
        obtain ⟨d, hd⟩ : ∃ d, c.charLen - st.startOffset = d + (j + 1) := ⟨c.charLen - st.startOffset - (j + 1), by omega⟩
        have hd' : c.charLen - (st.startOffset + (0 + j + 1)) = d := by omega
        rw [hd'] at this
        have hmul : p.charLen * (c.charLen - st.startOffset) = p.charLen * d + (p.charLen * j + p.charLen) := by
          rw [hd, Nat.mul_add, Nat.mul_succ]
        have : j ≤ p.charLen * j := Nat.le_mul_of_pos_left _ hp
        omega

theorem finishExact_steps (U : Unicode) (R : Bool) (p : Pattern) (c : Candidate) (r : Range) (eq : CharEq) (S : Scheme)
    (ranges : MatchedRanges) :
    (Timed.finishExact U R p c r eq S ranges).steps ≤ 2 * c.charLen + 2 + extra R (c.charLen + (2 * ranges.own + 1)) := by
  unfold Timed.finishExact
  refine bind_le (computeScore_steps U false p c r eq S ranges) (fun x hx => ?_) (by rw [extra_false]; exact Nat.le_refl _)
  rw [res_computeScore] at hx
  have hr : x.1.own = ranges.own := by rw [computeScore_ranges hx]
  cases R with
  | false => exact Nat.le_refl _
  | true =>
    refine bind_le (b := 0) ?_ (fun _ _ => Nat.le_refl 0) (Nat.le_refl _)
    exact bind_le (toByteRange_steps c r) (fun v _ => insert_steps _ _) (by rw [hr]; exact Nat.le_refl _)

theorem exactMatch_steps (U : Unicode) (R : Bool) (p : Pattern) (c : Candidate) (eq : CharEq) (S : Scheme) (ranges : MatchedRanges) :
    (Timed.exactMatch U R p c eq S ranges).steps ≤
      2 * (p.charLen * c.charLen) + (2 * c.charLen + 2) + extra R (c.charLen + (2 * ranges.own + 1)) := by
  unfold Timed.exactMatch
  refine ite_le (fun _ => Nat.zero_le _) (fun he => ?_)
  have hp : 0 < p.charLen := by
    unfold Pattern.isEmpty at he; unfold Pattern.charLen
    cases ht : p.text with
    | nil => rw [ht] at he; exact absurd rfl he
    | cons a t => simp
  refine bind_le (exactOuter_steps U p c eq S hp _ _) (fun st _ => ite_le (fun _ => Nat.zero_le _) (fun _ => finishExact_steps ..)) ?_
  dsimp only
  rw [Nat.sub_zero]; omega

theorem ignoredLeading_steps (p : Pattern) (c : Candidate) : (Timed.ignoredCandidateLeadingSpaces p c).steps ≤ c.charLen :=
  bind_le (leadingSpaces_steps c) (fun _ _ => ite_le (fun _ => Nat.zero_le _) (fun _ => free_le fun _ _ => Nat.le_refl 0)) (Nat.le_refl _)

theorem ignoredTrailing_steps (p : Pattern) (c : Candidate) : (Timed.ignoredCandidateTrailingSpaces p c).steps ≤ c.charLen :=
  bind_le (trailingSpaces_steps c) (fun _ _ => ite_le (fun _ => Nat.zero_le _) (fun _ => free_le fun _ _ => Nat.le_refl 0)) (Nat.le_refl _)

theorem zipLoop_steps (eq : CharEq) (f : Bool) : ∀ (ps cs : List Char), (Timed.zipLoop eq f ps cs).steps ≤ 2 * cs.length + 1 := by
  intro ps
  induction ps with
  | nil => intro cs; cases cs <;> exact Nat.le_add_left _ _
  | cons p ps ih =>
    intro cs
    cases cs with
    | nil => exact Nat.le_refl _
    | cons c cs =>
      unfold Timed.zipLoop
      rw [steps_tick_bind, List.length_cons]
      have := ih cs
      exact Nat.le_trans (Nat.add_le_add_left (ite_le (fun _ => this) (fun _ => Nat.zero_le _)) _) (by omega)

theorem prefixMatch_steps (U : Unicode) (R : Bool) (p : Pattern) (c : Candidate) (eq : CharEq) (S : Scheme) (ranges : MatchedRanges) :
    (Timed.prefixMatch U R p c eq S ranges).steps ≤ 5 * c.charLen + 3 + extra R (c.charLen + (2 * ranges.own + 1)) := by
  unfold Timed.prefixMatch
  refine ite_le (fun _ => Nat.zero_le _) (fun _ => ?_)
  refine bind_le (ignoredLeading_steps p c) (b := 4 * c.charLen + 3 + extra R (c.charLen + (2 * ranges.own + 1))) (fun v _ => ?_) (by omega)
  cases v with
  | none => exact Nat.zero_le _
  | some k =>
    refine free_le fun cs hcs => ?_
    have hl := charsFrom_len c _ cs hcs
    refine bind_le (zipLoop_steps ..) (b := 2 * c.charLen + 2 + extra R (c.charLen + (2 * ranges.own + 1))) (fun x _ => ?_) (by omega)
    cases x with
    | none => exact Nat.zero_le _
    | some y =>
      obtain ⟨l, r⟩ := y
      cases l with
      | nil => exact finishExact_steps ..
      | cons a l => exact Nat.zero_le _

theorem suffixMatch_steps (U : Unicode) (R : Bool) (p : Pattern) (c : Candidate) (eq : CharEq) (S : Scheme) (ranges : MatchedRanges) :
    (Timed.suffixMatch U R p c eq S ranges).steps ≤ 5 * c.charLen + 3 + extra R (c.charLen + (2 * ranges.own + 1)) := by
  unfold Timed.suffixMatch
  refine ite_le (fun _ => Nat.zero_le _) (fun _ => ?_)
  refine bind_le (ignoredTrailing_steps p c) (b := 4 * c.charLen + 3 + extra R (c.charLen + (2 * ranges.own + 1))) (fun v _ => ?_) (by omega)
  cases v with
  | none => exact Nat.zero_le _
  | some k =>
    refine free_le fun u _ => free_le fun sl hsl => free_le fun cs hcs => ?_
    have h1 := slice_charLen c _ sl hsl
    have hl := chars_len sl cs hcs
    refine bind_le (zipLoop_steps ..) (b := 2 * c.charLen + 2 + extra R (c.charLen + (2 * ranges.own + 1))) (fun x _ => ?_)
      (by rw [List.length_reverse]; omega)
    cases x with
    | none => exact Nat.zero_le _
    | some y =>
      obtain ⟨l, r⟩ := y
      cases l with
      | nil => exact free_le fun _ _ => finishExact_steps ..
      | cons a l => exact Nat.zero_le _

theorem equalMatch_steps (U : Unicode) (R : Bool) (p : Pattern) (c : Candidate) (eq : CharEq) (S : Scheme) (ranges : MatchedRanges) :
    (Timed.equalMatch U R p c eq S ranges).steps ≤ 6 * c.charLen + 3 + extra R (c.charLen + (2 * ranges.own + 1)) := by
  unfold Timed.equalMatch
  refine ite_le (fun _ => Nat.zero_le _) (fun _ => ?_)
  refine bind_le (ignoredLeading_steps p c) (b := 5 * c.charLen + 3 + extra R (c.charLen + (2 * ranges.own + 1))) (fun v _ => ?_) (by omega)
  cases v with
  | none => exact Nat.zero_le _
  | some k =>
    refine ite_le (fun _ => Nat.zero_le _) (fun _ => ?_)
    refine bind_le (ignoredTrailing_steps p c) (b := 4 * c.charLen + 3 + extra R (c.charLen + (2 * ranges.own + 1))) (fun v _ => ?_) (by omega)
    cases v with
    | none => exact Nat.zero_le _
    | some k' =>
      refine free_le fun u _ => ite_le (fun _ => Nat.zero_le _) (fun _ => free_le fun sl hsl => free_le fun cs hcs => ?_)
      have h1 := slice_charLen c _ sl hsl
      have hl := chars_len sl cs hcs
      refine bind_le (zipLoop_steps ..) (b := 2 * c.charLen + 2 + extra R (c.charLen + (2 * ranges.own + 1))) (fun x _ => ?_) (by omega)
      cases x with
      | none => exact Nat.zero_le _
      | some y => exact ite_le (fun _ => Nat.zero_le _) (fun _ => finishExact_steps ..)

end Norm
