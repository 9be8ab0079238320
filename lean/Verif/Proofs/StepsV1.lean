import Verif.Proofs.Steps
import Verif.Proofs.Ranges

/-! How many steps `compute_score`, FzfV1's passes and the exact matchers take. -/

namespace Norm

open Timed

/-! ### Ranges -/

/-- The number of ranges of this call. -/
def MatchedRanges.own (m : MatchedRanges) : Nat := m.ranges.length - m.initialLen

theorem log2_le_self (n : Nat) : n.log2 ≤ n := by
  cases n with
  | zero => exact Nat.le_refl _
  | succ n =>
    have := Nat.log2_self_le (n := n + 1) (by omega)
    have := Nat.lt_two_pow_self (n := (n + 1).log2)
    omega

theorem log2_mono {a b : Nat} (h : a ≤ b) : a.log2 ≤ b.log2 := by
  by_cases ha : a = 0
  · subst ha; exact Nat.zero_le _
  · rw [Nat.le_log2 (by omega)]
    exact Nat.le_trans (Nat.log2_self_le ha) h

theorem insert_steps (m : MatchedRanges) (r : Range) : (Timed.insert m r).steps ≤ 2 * m.own + 1 := by
  unfold Timed.insert MatchedRanges.own
  dsimp only
  have h1 := log2_le_self (m.ranges.drop m.initialLen).length
  have h2 := List.length_filter_le (fun x : Range => decide (r.start ≤ x.start)) (m.ranges.drop m.initialLen)
  rw [List.length_drop] at h1 h2 ⊢
  omega

/-- At most one range more than before, and the same ranges are those of earlier calls. -/
def OneMore (m m' : MatchedRanges) : Prop := m'.initialLen = m.initialLen ∧ m'.ranges.length ≤ m.ranges.length + 1

theorem OneMore.refl (m : MatchedRanges) : OneMore m m := ⟨rfl, by omega⟩

theorem OneMore.own {m m' : MatchedRanges} (h : OneMore m m') : m'.own ≤ m.own + 1 := by
  unfold MatchedRanges.own; rw [h.1]; have := h.2; omega

theorem setAt_len (m : MatchedRanges) (i : Nat) (r : Range) :
    OkAll (fun m' => m'.initialLen = m.initialLen ∧ m'.ranges.length = m.ranges.length) (m.setAt i r) :=
  (setR_len _ _ _).bind' fun _ h => .pure ⟨rfl, h⟩

theorem remove_len (m : MatchedRanges) (i : Nat) :
    OkAll (fun m' => m'.initialLen = m.initialLen ∧ m'.ranges.length ≤ m.ranges.length) (m.remove i) := by
  intro v hv
  obtain ⟨l, hl, h⟩ := Res.bind_eq_ok.mp hv
  cases h
  refine ⟨rfl, ?_⟩
  unfold removeR at hl
  split at hl
  · cases hl; simp only [List.length_append, List.length_take, List.length_drop]; omega
  · cases hl

theorem insertAt_len (m : MatchedRanges) (i : Nat) (r : Range) : OkAll (OneMore m) (m.insertAt i r) := by
  intro v hv
  obtain ⟨l, hl, h⟩ := Res.bind_eq_ok.mp hv
  cases h
  refine ⟨rfl, ?_⟩
  unfold insertAtR at hl
  split at hl
  · cases hl; simp only [List.length_append, List.length_cons, List.length_take, List.length_drop]; omega
  · cases hl

theorem push_len (m : MatchedRanges) (r : Range) : OneMore m (m.push r) :=
  ⟨rfl, by simp [MatchedRanges.push]⟩

theorem insert_len (m : MatchedRanges) (r : Range) : OkAll (OneMore m) (m.insert r) := by
  have hset : ∀ i x, OkAll (OneMore m) (m.setAt i x) := fun i x => (setAt_len m i x).mono fun v h => ⟨h.1, by omega⟩
  have hrem : ∀ i x j, OkAll (OneMore m) (m.setAt i x >>= fun m' => m'.remove j) := fun i x j =>
    (setAt_len m i x).bind' fun v h => (remove_len v j).mono fun w hw => ⟨hw.1.trans h.1, by omega⟩
  unfold MatchedRanges.insert
  refine .bind fun this => .bind fun idx => ?_
  cases idx with
  | found idx =>
    refine .bind fun range => .ite (.pure (OneMore.refl m)) ?_
    cases m.ranges[m.initialLen + (idx + 1)]? with
    | none => exact hset _ _
    | some next => exact .ite (hrem _ _ _) (hset _ _)
  | notFound idx =>
    refine .ite ?_ (.bind fun len => .ite ?_ ?_)
    · cases m.ranges[m.initialLen + 0]? with
      | none => exact .pure (push_len m r)
      | some first => exact .ite (hset _ _) (insertAt_len m _ _)
    · refine .bind fun last => .ite (.pure ⟨rfl, ?_⟩) (.pure (push_len m r))
      simp only [List.length_append, List.length_dropLast, List.length_cons, List.length_nil]; omega
    · refine .bind fun i => .bind fun prev => .bind fun next => ?_
      cases decide (r.start ≤ prev.stop) <;> cases decide (r.stop ≥ next.start)
      · exact insertAt_len m _ _
      · exact hset _ _
      · exact .ite (hset _ _) (.pure (OneMore.refl m))
      · exact hrem _ _ _

/-! ### `compute_score` -/

theorem charsFrom_len (c : Candidate) (off : Nat) : OkAll (fun l => l.length = c.charLen - off) (c.charsFrom off) := by
  cases c with
  | ascii bs => exact (sliceFromR_len bs off).bind' fun l h => .pure (by rw [List.length_map]; exact h.2)
  | unicode cs => exact (sliceFromR_len cs off).mono fun l h => h.2

theorem chars_len (c : Candidate) : OkAll (fun l => l.length = c.charLen) c.chars := charsFrom_len c 0

theorem computeScoreLoop_steps (U : Unicode) (eq : CharEq) (S : Scheme) (b : Nat) : ∀ (l : List Char) (st : ScoreState),
    (Timed.computeScoreLoop U false eq S b l st).steps ≤ 2 * l.length := by
  intro l
  induction l with
  | nil => intro st; exact Nat.le_refl _
  | cons ch l ih =>
    intro st
    unfold Timed.computeScoreLoop
    rw [steps_tick_bind, List.length_cons]
    cases eq st.patternChar ch with
    | false =>
      simp only [Bool.false_eq_true, if_false]
      exact Nat.le_trans (Nat.add_le_add_left (ih _) _) (by omega)
    | true =>
      simp only [if_true, Bool.false_eq_true, if_false, steps_pure_bind, steps_tick_bind]
      cases st.patternChars with
      | nil => simp only [steps_pure]; omega
      | cons a pc => exact Nat.le_trans (Nat.add_le_add_left (Nat.add_le_add_left (ih _) _) _) (by omega)

theorem computeScoreLoop_steps' (U : Unicode) (eq : CharEq) (S : Scheme) (b : Nat) : ∀ (l : List Char) (st : ScoreState) (K : Nat),
    2 * (st.ranges.own + l.length) + 1 ≤ K →
    (Timed.computeScoreLoop U true eq S b l st).steps ≤ 2 * l.length + (st.patternChars.length + 1) * K := by
  intro l
  induction l with
  | nil => intro st K _; exact Nat.zero_le _
  | cons ch l ih =>
    intro st K hK
    rw [List.length_cons] at hK ⊢
    unfold Timed.computeScoreLoop
    rw [steps_tick_bind]
    cases eq st.patternChar ch with
    | false =>
      simp only [Bool.false_eq_true, if_false]
      refine Nat.le_trans (Nat.add_le_add_left (ih _ K (by dsimp only; omega)) _) ?_
      dsimp only; omega
    | true =>
      simp only [if_true]
      refine Nat.le_trans (Nat.add_le_add_left (bind_le (b := 1 + (2 * l.length + st.patternChars.length * K))
        (insert_steps st.ranges _) (fun v hv => ?_) (Nat.le_refl _)) _) ?_
      · have hown := (insert_len _ _ v hv).own
        rw [steps_tick_bind]
        refine Nat.add_le_add_left ?_ _
        cases hp : st.patternChars with
        | nil => simp only [steps_pure]; omega
        | cons a pc => exact ih _ K (by dsimp only; omega)
      · rw [Nat.add_one_mul st.patternChars.length K]; omega

/-- The extra steps for the ranges. -/
def extra (R : Bool) (n : Nat) : Nat := if R then n else 0

@[simp] theorem extra_false (n : Nat) : extra false n = 0 := rfl
@[simp] theorem extra_true (n : Nat) : extra true n = n := rfl

theorem computeScore_steps (U : Unicode) (R : Bool) (p : Pattern) (c : Candidate) (r : Range) (eq : CharEq) (S : Scheme)
    (ranges : MatchedRanges) : (Timed.computeScore U R p c r eq S ranges).steps ≤
      2 * c.charLen + 2 + extra R (c.charLen + p.charLen * (2 * (ranges.own + c.charLen) + 1)) := by
  have rest : ∀ off cl, ((do
      tick 1
      let patternChar ← free (Res.unwrap p.text.head?)
      let slice ← free (c.slice r)
      let chars ← free slice.chars
      let st ← Timed.computeScoreLoop U R eq S off chars {
        isInGap := false, isFirstPatternChar := true, firstBonus := 0, consecutive := 0
        byteOffset := 0, prevClass := cl, patternChars := p.text.tail
        patternChar := patternChar, score := 0, ranges := ranges }
      return (st.ranges, st.score)) : Timed (MatchedRanges × Score)).steps ≤
      2 * c.charLen + 1 + extra R (p.charLen * (2 * (ranges.own + c.charLen) + 1)) := by
    intro off cl
    rw [steps_tick_bind]
    suffices h : ∀ {x : Nat}, x ≤ 2 * c.charLen + extra R (p.charLen * (2 * (ranges.own + c.charLen) + 1)) →
        1 + x ≤ 2 * c.charLen + 1 + extra R (p.charLen * (2 * (ranges.own + c.charLen) + 1)) by
      refine h (free_le fun ch hch => free_le fun sl hsl => free_le fun cs hcs => ?_)
      have h1 := slice_charLen c r sl hsl
      have h2 := chars_len sl cs hcs
      have hp : p.charLen = p.text.tail.length + 1 := by
        unfold Pattern.charLen
        cases ht : p.text with
        | nil => rw [ht] at hch; cases hch
        | cons a t => rfl
      refine bind_le (b := 0) ?_ (fun _ _ => Nat.le_refl 0) (Nat.le_refl _)
      cases R
      · exact Nat.le_trans (computeScoreLoop_steps ..) (show 2 * cs.length ≤ 2 * c.charLen + extra false _ by rw [extra_false]; omega)
      · refine Nat.le_trans (computeScoreLoop_steps' U eq S off cs _ (2 * (ranges.own + c.charLen) + 1) ?_) ?_
        · dsimp only; omega
        · rw [hp, extra_true]
          exact Nat.add_le_add_right (by omega) _
    intro x hx; omega
  have mid : ∀ off, ((do
      let prevClass ←
        if r.start == 0 then pure S.initialCharClass
        else (do
          let ch ← char c (r.start - 1)
          return charClass U ch S : Timed CharClass)
      tick 1
      let patternChar ← free (Res.unwrap p.text.head?)
      let slice ← free (c.slice r)
      let chars ← free slice.chars
      let st ← Timed.computeScoreLoop U R eq S off chars {
        isInGap := false, isFirstPatternChar := true, firstBonus := 0, consecutive := 0
        byteOffset := 0, prevClass := prevClass, patternChars := p.text.tail
        patternChar := patternChar, score := 0, ranges := ranges }
      return (st.ranges, st.score)) : Timed (MatchedRanges × Score)).steps ≤
      2 * c.charLen + 2 + extra R (p.charLen * (2 * (ranges.own + c.charLen) + 1)) := by
    intro off
    refine ite_le (fun _ => ?_) (fun _ => ?_)
    · rw [steps_pure_bind]
      exact Nat.le_trans (rest off _) (by omega)
    · refine bind_le (a := 1) ?_ (fun cl _ => rest off cl) (by omega)
      exact bind_le (a := 1) (Nat.le_refl _) (fun _ _ => Nat.le_refl 0) (Nat.le_refl _)
  unfold Timed.computeScore
  cases R with
  | false =>
    rw [extra_false] at mid ⊢
    refine Nat.le_trans (bind_le (a := 0) (Nat.le_refl _) (fun off _ => mid off) (Nat.le_refl _)) (by omega)
  | true =>
    refine bind_le (toByteOffset_steps c _) (fun off _ => mid off) ?_
    simp only [extra_true]; omega

/-! ### Ranges inserted from left to right -/

theorem computeScoreLoop_append (U : Unicode) (eq : CharEq) (S : Scheme) (b : Nat) (pre : List Range) (N : Nat) :
    ∀ (l : List Char) (st : ScoreState) (this : List Range), st.ranges = ⟨pre ++ this, pre.length⟩ → Sep this →
    (∀ x ∈ this, x.start < b + st.byteOffset) → this.length + l.length ≤ N →
    (Timed.computeScoreLoop U true eq S b l st).steps ≤ l.length + min l.length (st.patternChars.length + 1) * (N.log2 + 2) := by
  intro l
  induction l with
  | nil => intro st this _ _ _ _; exact Nat.zero_le _
  | cons ch l ih =>
    intro st this hr hs hb hN
    rw [List.length_cons] at hN ⊢
    unfold Timed.computeScoreLoop
    rw [steps_tick_bind]
    cases eq st.patternChar ch with
    | false =>
      simp only [Bool.false_eq_true, if_false]
      refine Nat.le_trans (Nat.add_le_add_left (ih _ this (by exact hr) hs (fun x hx => ?_) (by omega)) _) ?_
      · have := hb x hx
        dsimp only; simp only [if_true]; omega
      · have : min l.length (st.patternChars.length + 1) * (N.log2 + 2) ≤
            min (l.length + 1) (st.patternChars.length + 1) * (N.log2 + 2) := Nat.mul_le_mul_right _ (by omega)
        dsimp only; omega
    | true =>
      simp only [if_true]
      have hmin : min (l.length + 1) (st.patternChars.length + 1) = min l.length st.patternChars.length + 1 := by omega
      refine Nat.le_trans (Nat.add_le_add_left (bind_le (a := N.log2 + 1)
        (b := 1 + (l.length + min l.length st.patternChars.length * (N.log2 + 2))) ?_ (fun v hv => ?_) (Nat.le_refl _)) _) ?_
      · rw [hr]
        unfold Timed.insert
        dsimp only
        rw [List.drop_left]
        have h0 : this.filter (fun x : Range => decide (b + st.byteOffset ≤ x.start)) = [] := by
          rw [List.filter_eq_nil_iff]
          intro x hx
          have := hb x hx
          simp only [decide_eq_true_eq]; omega
        rw [h0, List.length_nil]
        have := log2_mono (show this.length ≤ N by omega)
        omega
      · rw [steps_tick_bind]
        refine Nat.add_le_add_left ?_ _
        cases hp : st.patternChars with
        | nil => simp only [steps_pure]; omega
        | cons a pc =>
          have hl := insert_len _ _ v hv
          change st.ranges.insert _ = _ at hv
          rw [hr, insert_eq pre this hs.starts] at hv
          rw [hr] at hl
          cases hv
          have hlt : 0 < lenUtf8 ch := by unfold lenUtf8; exact Char.utf8Size_pos ch
          refine ih _ _ rfl (sep_pinsert hs (by dsimp only; omega)) (fun x hx => ?_) ?_
          · dsimp only
            rcases pinsert_start this _ x hx with h | ⟨y, hy, h⟩
            · rw [h]; dsimp only; omega
            · have := hb y hy; rw [h]; omega
          · have := hl.2
            simp only [List.length_append] at this
            omega
      · rw [hmin, Nat.add_one_mul (min l.length st.patternChars.length) (N.log2 + 2)]; omega

/-- When the call has no ranges yet, each is inserted behind the others. -/
theorem computeScore_append (U : Unicode) (p : Pattern) (c : Candidate) (r : Range) (eq : CharEq) (S : Scheme)
    (pre : List Range) : (Timed.computeScore U true p c r eq S (MatchedRanges.ofVec pre)).steps ≤
      2 * c.charLen + 2 + c.charLen * (c.charLen.log2 + 2) := by
  have rest : ∀ off cl, ((do
      tick 1
      let patternChar ← free (Res.unwrap p.text.head?)
      let slice ← free (c.slice r)
      let chars ← free slice.chars
      let st ← Timed.computeScoreLoop U true eq S off chars {
        isInGap := false, isFirstPatternChar := true, firstBonus := 0, consecutive := 0
        byteOffset := 0, prevClass := cl, patternChars := p.text.tail
        patternChar := patternChar, score := 0, ranges := MatchedRanges.ofVec pre }
      return (st.ranges, st.score)) : Timed (MatchedRanges × Score)).steps ≤
      1 + (c.charLen + c.charLen * (c.charLen.log2 + 2)) := by
    intro off cl
    rw [steps_tick_bind]
    refine Nat.add_le_add_left (free_le fun ch hch => free_le fun sl hsl => free_le fun cs hcs => ?_) _
    have h1 := slice_charLen c r sl hsl
    have h2 := chars_len sl cs hcs
    refine bind_le (b := 0) ?_ (fun _ _ => Nat.le_refl 0) (Nat.le_refl _)
    refine Nat.le_trans (computeScoreLoop_append U eq S off pre c.charLen cs _ [] ?_ sep_nil (fun _ h => nomatch h) ?_) ?_
    · simp [MatchedRanges.ofVec]
    · simp only [List.length_nil]; omega
    · exact Nat.add_le_add (by omega) (Nat.mul_le_mul_right _ (by omega))
  unfold Timed.computeScore
  refine bind_le (toByteOffset_steps c _) (b := c.charLen + 2 + c.charLen * (c.charLen.log2 + 2)) (fun off _ => ?_) (by omega)
  refine ite_le (fun _ => ?_) (fun _ => ?_)
  · rw [steps_pure_bind]
    exact Nat.le_trans (rest off _) (by omega)
  · refine bind_le (a := 1) ?_ (fun cl _ => rest off cl) (by omega)
    exact bind_le (a := 1) (Nat.le_refl _) (fun _ _ => Nat.le_refl 0) (Nat.le_refl _)

/-! ### FzfV1 -/

theorem forwardLoop_steps (c : Candidate) (o : CandidateOpts) : ∀ (rest : List Char) (ch : Char) (off : Nat),
    (Timed.forwardLoop c o rest ch off).steps ≤ 2 * (c.charLen - off) + 1 := by
  intro rest
  induction rest with
  | nil =>
    intro ch off
    unfold Timed.forwardLoop
    rw [steps_tick_bind]
    have h := findFirstFrom_steps c off ch o.isCaseSensitive o.charEq
    refine Nat.le_trans (Nat.add_le_add_left (bind_le (b := 0) h.1 (fun v _ => ?_) (Nat.le_refl _)) _) (by omega)
    cases v <;> exact Nat.le_refl _
  | cons a rest ih =>
    intro ch off
    unfold Timed.forwardLoop
    rw [steps_tick_bind]
    have h := findFirstFrom_steps c off ch o.isCaseSensitive o.charEq
    refine Nat.le_trans (Nat.add_le_add_left (bind_le_of (b := 2 * (c.charLen - off)) (by omega) (fun v hv => ?_)) _) (by omega)
    rw [res_findFirstFrom] at hv
    cases v with
    | none => simp only [steps_pure]; omega
    | some e =>
      obtain ⟨h1, h2, h3⟩ := h.2 _ hv e rfl
      have := ih a (e + 1)
      dsimp only
      omega

theorem forwardPass_steps (p : Pattern) (c : Candidate) (o : CandidateOpts) :
    (Timed.forwardPass p c o).steps ≤ 2 * c.charLen + 1 := by
  unfold Timed.forwardPass
  cases p.text with
  | nil => exact Nat.zero_le _
  | cons a t => exact forwardLoop_steps c o t a 0

theorem forwardLoop_end (c : Candidate) (o : CandidateOpts) : ∀ (rest : List Char) (ch : Char) (off : Nat),
    OkAll (fun r => ∀ e, r = some e → e ≤ c.charLen) (Norm.forwardLoop c o rest ch off) := by
  intro rest
  induction rest with
  | nil =>
    intro ch off
    unfold Norm.forwardLoop
    refine (findFirstFrom_steps c off ch o.isCaseSensitive o.charEq).2.bind' fun v h => ?_
    cases v with
    | none => exact .pure (fun _ h => nomatch h)
    | some e => exact .pure (fun e' he => by cases he; have := (h e rfl).2.1; omega)
  | cons a rest ih =>
    intro ch off
    unfold Norm.forwardLoop
    refine (findFirstFrom_steps c off ch o.isCaseSensitive o.charEq).2.bind' fun v h => ?_
    cases v with
    | none => exact .pure (fun _ h => nomatch h)
    | some e => exact ih a (e + 1)

theorem forwardPass_end (p : Pattern) (c : Candidate) (o : CandidateOpts) :
    OkAll (fun r => ∀ e, r = some e → e ≤ c.charLen) (Norm.forwardPass p c o) := by
  unfold Norm.forwardPass
  cases p.text with
  | nil => exact .pure (fun _ h => nomatch h)
  | cons a t => exact forwardLoop_end c o t a 0

theorem backwardLoop_steps (c : Candidate) (o : CandidateOpts) : ∀ (rest : List Char) (ch : Char) (e : Nat),
    (Timed.backwardLoop c o rest ch e).steps ≤ 2 * e + 1 := by
  intro rest
  induction rest with
  | nil =>
    intro ch e
    unfold Timed.backwardLoop
    rw [steps_tick_bind]
    have h := findLastFrom_steps c e ch o.isCaseSensitive o.charEq
    refine Nat.le_trans (Nat.add_le_add_left (bind_le (b := 0) h.1 (fun v _ => free_le fun _ _ => Nat.le_refl _) (Nat.le_refl _)) _)
      (by omega)
  | cons a rest ih =>
    intro ch e
    unfold Timed.backwardLoop
    rw [steps_tick_bind]
    have h := findLastFrom_steps c e ch o.isCaseSensitive o.charEq
    refine Nat.le_trans (Nat.add_le_add_left (bind_le_of (b := 2 * e) (by omega) (fun v hv => ?_)) _) (by omega)
    rw [res_findLastFrom] at hv
    cases v with
    | none => exact Nat.le_trans (Nat.add_le_add_left (free_le (b := 0) fun _ h => by cases h) _) (by omega)
    | some off =>
      obtain ⟨h1, h2⟩ := h.2 _ hv off rfl
      refine Nat.le_trans (Nat.add_le_add_left (free_le (b := 2 * off + 1) fun w hw => ?_) _) (by omega)
      cases hw
      exact ih a off

theorem backwardPass_steps (p : Pattern) (c : Candidate) (e : Nat) (o : CandidateOpts) :
    (Timed.backwardPass p c e o).steps ≤ 2 * e + 1 := by
  unfold Timed.backwardPass
  cases p.text.reverse with
  | nil => exact Nat.zero_le _
  | cons a t => exact backwardLoop_steps c o t a e

theorem v1_fuzzy_steps (U : Unicode) (R : Bool) (m : FzfV1) (p : Pattern) (c : Candidate) (ranges : MatchedRanges) :
    (Timed.V1.fuzzy U R m p c ranges).steps ≤
      6 * c.charLen + 4 + extra R (c.charLen + p.charLen * (2 * (ranges.own + c.charLen) + 1)) := by
  unfold Timed.V1.fuzzy
  refine bind_le (forwardPass_steps p c _) (b := 4 * c.charLen + 3 +
    extra R (c.charLen + p.charLen * (2 * (ranges.own + c.charLen) + 1))) (fun v hv => ?_) (by omega)
  rw [res_forwardPass] at hv
  cases v with
  | none => exact Nat.zero_le _
  | some e =>
    have := forwardPass_end p c _ _ hv e rfl
    refine bind_le (backwardPass_steps p c e _) (fun st _ => ?_)
      (b := 2 * c.charLen + 2 + extra R (c.charLen + p.charLen * (2 * (ranges.own + c.charLen) + 1))) (by omega)
    exact bind_le (computeScore_steps ..) (fun _ _ => Nat.le_refl 0) (Nat.le_refl _)

theorem v1_fuzzy_append (U : Unicode) (m : FzfV1) (p : Pattern) (c : Candidate) (pre : List Range) :
    (Timed.V1.fuzzy U true m p c (MatchedRanges.ofVec pre)).steps ≤
      6 * c.charLen + 4 + c.charLen * (c.charLen.log2 + 2) := by
  unfold Timed.V1.fuzzy
  refine bind_le (forwardPass_steps p c _) (b := 4 * c.charLen + 3 + c.charLen * (c.charLen.log2 + 2)) (fun v hv => ?_) (by omega)
  rw [res_forwardPass] at hv
  cases v with
  | none => exact Nat.zero_le _
  | some e =>
    have := forwardPass_end p c _ _ hv e rfl
    refine bind_le (backwardPass_steps p c e _) (fun st _ => ?_)
      (b := 2 * c.charLen + 2 + c.charLen * (c.charLen.log2 + 2)) (by omega)
    exact bind_le (computeScore_append ..) (fun _ _ => Nat.le_refl 0) (Nat.le_refl _)

end Norm
