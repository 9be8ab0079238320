import Verif.SpecSizes
import Verif.Proofs.MemoryCalls

/-!
# The lengths of the buffers: lemmas for C65
-/

namespace Norm

theorem OkAll.bind' {α β : Type} {Q : α → Prop} {P : β → Prop} {x : Res α} {f : α → Res β} (hx : OkAll Q x)
    (h : ∀ a, Q a → OkAll P (f a)) : OkAll P (x >>= f) := by
  intro v hv
  obtain ⟨a, h1, ha⟩ := Res.bind_eq_ok.mp hv
  exact h a (hx a h1) v ha

theorem OkAll.ok {α : Type} {P : α → Prop} {a : α} (h : P a) : OkAll P (.ok a) := by
  intro v hv
  cases hv
  exact h

theorem OkAll.panic {α : Type} {P : α → Prop} : OkAll P (.panic : Res α) := fun _ h => nomatch h

theorem OkAll.mono {α : Type} {P Q : α → Prop} {x : Res α} (hx : OkAll P x) (h : ∀ a, P a → Q a) : OkAll Q x :=
  fun v hv => h v (hx v hv)

theorem setR_len {α : Type} (l : List α) (i : Nat) (a : α) : OkAll (fun l' => l'.length = l.length) (setR l i a) := by
  intro v hv
  obtain ⟨_, rfl⟩ := setR_ok hv
  simp

theorem sliceToR_len {α : Type} (l : List α) (b : Nat) : OkAll (fun l' => l'.length = b ∧ b ≤ l.length) (sliceToR l b) := by
  intro v hv
  unfold sliceToR at hv
  split at hv
  · cases hv; refine ⟨?_, by assumption⟩; rw [List.length_take]; omega
  · cases hv

theorem grown_len {α : Type} (l : List α) (n : Nat) (a : α) :
    (if n > l.length then resize l n a else l).length = max l.length n := by
  split
  · rw [resize_length (by omega)]; omega
  · omega

theorem writeBack_len {α : Type} (l v : List α) : (writeBack l v).length = max l.length v.length := by
  unfold writeBack
  simp
  omega

theorem slabWriteChars_len (t : List Char) : ∀ (l : List Char) (n : Nat),
    OkAll (fun x => x.1.length = l.length) (slabWriteChars l t n) := by
  induction t with
  | nil => intro l n; exact .ok rfl
  | cons c t ih =>
    intro l n
    unfold slabWriteChars
    refine (setR_len l n c).bind' fun l' h => ?_
    have := ih l' (n + 1)
    rwa [h] at this

theorem candidateAlloc_len (l t : List Char) :
    OkAll (fun x => x.1.length = max l.length (strLen t)) (candidateAlloc l t) := by
  unfold candidateAlloc
  dsimp only
  refine (slabWriteChars_len t _ 0).bind' fun x h => ?_
  rw [grown_len] at h
  exact .bind fun _ => .pure h

theorem indicesAlloc_len (l : List Nat) (n : Nat) :
    OkAll (fun x => x.1.length = max l.length n ∧ x.2.length = n) (indicesAlloc l n) := by
  unfold indicesAlloc
  dsimp only
  exact (sliceToR_len _ _).bind' fun x h => .pure ⟨grown_len .., h.1⟩

theorem bonusAlloc_len (l : List BonusCell) (n : Nat) :
    OkAll (fun x => x.1.length = max l.length n ∧ x.2.length = n) (bonusAlloc l n) := by
  unfold bonusAlloc
  dsimp only
  exact (sliceToR_len _ _).bind' fun x h => .pure ⟨grown_len .., by simpa using h.1⟩

theorem matrixAlloc_len {α : Type} (fill : α) (l : List α) (w h : Nat) :
    OkAll (fun x => x.1.length = max l.length (h * w) ∧ x.2.slice.length = h * w ∧ x.2.width = w) (matrixAlloc fill l w h) := by
  unfold matrixAlloc
  refine .bind fun _ => ?_
  exact (sliceToR_len _ _).bind' fun x h => .pure ⟨grown_len .., by simpa using h.1, rfl⟩

theorem matchesLoop_len (p : Pattern) (c : Candidate) (o : CandidateOpts) : ∀ (fuel : Nat) (l : List Nat) (i e : Nat),
    OkAll (fun x => x.1.length = l.length) (matchesLoop p c o fuel l i e) := by
  intro fuel
  induction fuel with
  | zero => intro l i e; exact .panic
  | succ fuel ih =>
    intro l i e
    unfold matchesLoop
    refine .bind fun ch => .bind fun r => ?_
    cases r with
    | none => exact .pure rfl
    | some off =>
      refine (setR_len l i off).bind' fun l' h => .ite ?_ (.pure h)
      exact (ih l' _ _).mono fun x hx => hx.trans h

theorem v2Matches_len (l : List Nat) (p : Pattern) (c : Candidate) (o : CandidateOpts) :
    OkAll (fun x => x.1.length = max l.length p.charLen ∧ x.2.1.length = p.charLen) (v2Matches l p c o) := by
  unfold v2Matches
  refine (indicesAlloc_len l p.charLen).bind' fun x h => ?_
  refine (matchesLoop_len p c o _ x.2 0 0).bind' fun y hy => ?_
  obtain ⟨y, r⟩ := y
  dsimp only at hy ⊢
  cases r with
  | none => exact .pure ⟨h.1, hy.trans h.2⟩
  | some i => exact .bind fun _ => .bind fun _ => .pure ⟨h.1, hy.trans h.2⟩

theorem firstRowGap_len (n : Nat) : ∀ (col : Nat) (row : List Score) (s p : Score),
    OkAll (fun x => x.1.length = row.length) (firstRowGap n col row s p) := by
  induction n with
  | zero => intro col row s p; exact .ok rfl
  | succ n ih =>
    intro col row s p
    unfold firstRowGap
    exact (setR_len row col _).bind' fun row' h => (ih _ row' _ _).mono fun x hx => hx.trans h

theorem rowGap_len (n : Nat) : ∀ (col : Nat) (row : List Score) (p : Score),
    OkAll (fun x => x.1.length = row.length) (rowGap n col row p) := by
  induction n with
  | zero => intro col row p; exact .ok rfl
  | succ n ih =>
    intro col row p
    unfold rowGap
    exact .bind fun _ => .bind fun _ => (setR_len row col _).bind' fun row' h => (ih _ row' _).mono fun x hx => hx.trans h

/-- The bonus cells of a candidate are as many as before. -/
def SameLen (c c' : CandidateV2) : Prop := c'.bonuses.length = c.bonuses.length

theorem bonusAt_len (U : Unicode) (c : CandidateV2) (i : Nat) (S : Scheme) :
    OkAll (fun x => SameLen c x.1) (c.bonusAt U i S) := by
  unfold CandidateV2.bonusAt
  refine .bind fun b => .ite (.pure rfl) ?_
  refine .ite (.bind fun _ => .bind fun _ => ?_) (.bind fun _ => .bind fun _ => ?_)
  all_goals exact (setR_len c.bonuses i _).bind' fun l h => .pure h

theorem firstRowLoop_len (U : Unicode) (S : Scheme) (l : List Nat) : ∀ (st : FirstRowState),
    OkAll (fun x => x.scores.length = st.scores.length ∧ x.consecutives.length = st.consecutives.length ∧
      SameLen st.candidate x.candidate) (firstRowLoop U S l st) := by
  induction l with
  | nil => intro st; exact .ok ⟨rfl, rfl, rfl⟩
  | cons o l ih =>
    intro st
    unfold firstRowLoop
    refine (firstRowGap_len _ _ st.scores _ _).bind' fun x hx => ?_
    obtain ⟨x, y, z⟩ := x
    dsimp only at hx ⊢
    refine (setR_len st.consecutives o 1).bind' fun cs hcs => ?_
    refine (bonusAt_len U st.candidate o S).bind' fun c hc => ?_
    refine (setR_len x o _).bind' fun sc hsc => ?_
    refine (ih _).mono fun v hv => ?_
    exact ⟨hv.1.trans (hsc.trans hx), hv.2.1.trans hcs, Eq.trans hv.2.2 hc⟩

theorem scoreFirstRow_len (U : Unicode) (row : List Score) (crow : List Nat) (ch : Char) (c : CandidateV2) (S : Scheme) :
    OkAll (fun x => x.1.length = row.length ∧ x.2.1.length = crow.length ∧ SameLen c x.2.2.1)
      (scoreFirstRow U row crow ch c S) := by
  unfold scoreFirstRow
  refine .bind fun offs => ?_
  refine (firstRowLoop_len U S offs _).bind' fun st h => ?_
  refine (firstRowGap_len _ _ st.scores _ _).bind' fun x hx => .pure ?_
  exact ⟨hx.trans h.1, h.2.1, h.2.2⟩

theorem rowLoop_len (U : Unicode) (S : Scheme) (w i : Nat) (ps : List Score) (pc : List Nat) (l : List Nat) : ∀ (st : RowState),
    OkAll (fun x => x.scores.length = st.scores.length ∧ x.consecutives.length = st.consecutives.length ∧
      SameLen st.candidate x.candidate) (rowLoop U S w i ps pc l st) := by
  induction l with
  | nil => intro st; exact .ok ⟨rfl, rfl, rfl⟩
  | cons o l ih =>
    intro st
    unfold rowLoop
    let Q : CandidateV2 × Score × Nat → Prop := fun z => SameLen st.candidate z.1
    refine (rowGap_len _ _ st.scores _).bind' fun x hx => ?_
    obtain ⟨x, y⟩ := x
    dsimp only at hx ⊢
    refine .bind fun _ => .bind fun _ => .bind fun _ => .bind fun _ => ?_
    refine (bonusAt_len U st.candidate o S).bind' fun c hc => ?_
    refine .bind fun _ => .bind fun cons => ?_
    refine .ite (OkAll.bind' (Q := Q) (.bind fun k => ?_) fun z hz => ?_) (OkAll.bind' (Q := Q) (.pure hc) fun z hz => ?_)
    · refine (bonusAt_len U c.1 k S).bind' fun d hd => ?_
      exact .ite (.pure (Eq.trans hd hc)) (.pure (Eq.trans hd hc))
    all_goals
      refine .ite (OkAll.bind' (Q := Q) ?_ fun z' hz' => ?_) (OkAll.bind' (Q := Q) (.pure hz) fun z' hz' => ?_)
      · exact (bonusAt_len U z.1 o S).bind' fun d hd => .pure (Eq.trans hd hz)
      all_goals
        refine (setR_len st.consecutives o z'.2.2).bind' fun cs hcs => ?_
        refine (setR_len x o _).bind' fun sc hsc => ?_
        refine (ih _).mono fun v hv => ?_
        exact ⟨hv.1.trans (hsc.trans hx), hv.2.1.trans hcs, Eq.trans hv.2.2 hz'⟩

theorem twoRows_len {α : Type} (m : Matrix α) (a b : Nat) :
    OkAll (fun x => x.2.length = m.width ∧ b * m.width + m.width ≤ m.slice.length) (m.twoRows a b) := by
  unfold Matrix.twoRows
  refine .bind fun _ => ?_
  refine (sliceToR_len _ _).bind' fun pa hpa => ?_
  refine OkAll.bind' (Q := fun pb => pb.length = m.slice.length - b * m.width) ?_ fun pb hpb => ?_
  · intro v hv
    unfold sliceFromR at hv
    split at hv
    · cases hv; simp
    · cases hv
  · refine .bind fun _ => ?_
    refine (sliceToR_len pb m.width).bind' fun y hy => .pure ⟨hy.1, ?_⟩
    have h1 := hpa.2
    have h2 := hy.2
    omega

theorem setRow_len {α : Type} (m : Matrix α) {i : Nat} {r : List α} (hr : r.length = m.width)
    (h : i * m.width + m.width ≤ m.slice.length) :
    (m.setRow i r).slice.length = m.slice.length ∧ (m.setRow i r).width = m.width := by
  refine ⟨?_, rfl⟩
  unfold Matrix.setRow
  simp only [List.length_append, List.length_take, List.length_drop, hr]
  omega

theorem remainingRowsLoop_len (U : Unicode) (S : Scheme) (p : Pattern) (mo : List Nat) (n : Nat) :
    ∀ (i : Nat) (sc : Matrix Score) (cs : Matrix Nat) (c : CandidateV2) (mx : Score) (cell : Nat),
    OkAll (fun x => x.1.slice.length = sc.slice.length ∧ x.2.1.slice.length = cs.slice.length ∧ SameLen c x.2.2.1)
      (remainingRowsLoop U S p mo n i sc cs c mx cell) := by
  induction n with
  | zero => intro i sc cs c mx cell; exact .ok ⟨rfl, rfl, rfl⟩
  | succ n ih =>
    intro i sc cs c mx cell
    unfold remainingRowsLoop
    refine .bind fun ch => .bind fun i1 => ?_
    refine (twoRows_len sc i1 i).bind' fun x hx => ?_
    obtain ⟨x1, x2⟩ := x
    dsimp only at hx ⊢
    refine .bind fun i2 => ?_
    refine (twoRows_len cs i2 i).bind' fun y hy => ?_
    obtain ⟨y1, y2⟩ := y
    dsimp only at hy ⊢
    refine .bind fun fo => .bind fun offs => ?_
    refine (rowLoop_len U S _ i x1 y1 offs _).bind' fun st hst => ?_
    dsimp only at hst
    refine (rowGap_len _ _ st.scores _).bind' fun z hz => ?_
    obtain ⟨z, z'⟩ := z
    dsimp only at hz ⊢
    refine (ih _ _ _ _ _ _).mono fun v hv => ?_
    have e1 := setRow_len sc (hz.trans (hst.1.trans hx.1)) hx.2
    have e2 := setRow_len cs (hst.2.1.trans hy.1) hy.2
    exact ⟨hv.1.trans e1.1, hv.2.1.trans e2.1, Eq.trans hv.2.2 hst.2.2⟩

theorem matrixRow_len {α : Type} (m : Matrix α) (i : Nat) :
    OkAll (fun r => r.length = m.width ∧ i * m.width + m.width ≤ m.slice.length) (m.row i) := by
  intro v hv
  unfold Matrix.row at hv
  obtain ⟨_, h, rfl⟩ := sliceR_ok hv
  refine ⟨?_, h⟩
  simp only [List.length_drop, List.length_take]
  omega

theorem v2Score_len (U : Unicode) (ss : List Score) (cl : List Nat) (p : Pattern) (c : CandidateV2) (mo : List Nat) (S : Scheme) :
    OkAll (fun x => x.1.length = max ss.length (p.charLen * c.base.charLen) ∧
      x.2.1.length = max cl.length (p.charLen * c.base.charLen) ∧
      x.2.2.1.slice.length = p.charLen * c.base.charLen ∧ x.2.2.2.1.slice.length = p.charLen * c.base.charLen ∧
      SameLen c x.2.2.2.2.1) (v2Score U ss cl p c mo S) := by
  unfold v2Score
  dsimp only
  refine (matrixAlloc_len 0 ss _ _).bind' fun a ha => ?_
  refine (matrixAlloc_len 0 cl _ _).bind' fun b hb => ?_
  refine (matrixRow_len a.2 0).bind' fun r hr => ?_
  refine (matrixRow_len b.2 0).bind' fun r' hr' => ?_
  refine .bind fun ch => ?_
  refine (scoreFirstRow_len U r r' ch c S).bind' fun x hx => ?_
  obtain ⟨x1, x2, x3, x4, x5⟩ := x
  dsimp only at hx ⊢
  have e1 := setRow_len a.2 (hx.1.trans hr.1) hr.2
  have e2 := setRow_len b.2 (hx.2.1.trans hr'.1) hr'.2
  refine (remainingRowsLoop_len U S p mo _ 1 _ _ x3 x4 x5).bind' fun y hy => .pure ?_
  refine ⟨ha.1, hb.1, ?_, ?_, ?_⟩
  · exact hy.1.trans (e1.1.trans ha.2.1)
  · exact hy.2.1.trans (e2.1.trans hb.2.1)
  · exact Eq.trans hy.2.2 hx.2.2

theorem shiftOffsets_len (f : Nat) (l : List Nat) : OkAll (fun x => x.length = l.length) (shiftOffsets f l) := by
  induction l with
  | nil => exact .ok rfl
  | cons o l ih =>
    unfold shiftOffsets
    exact .bind fun _ => ih.bind' fun x h => .pure (by simp [h])

theorem slice_charLen (c : Candidate) (r : Range) : OkAll (fun b => b.charLen ≤ c.charLen) (c.slice r) := by
  intro v hv
  cases c with
  | ascii bs =>
    obtain ⟨x, h1, h2⟩ := Res.bind_eq_ok.mp hv
    cases h2
    obtain ⟨_, _, rfl⟩ := sliceR_ok h1
    simp only [Candidate.charLen, List.length_drop, List.length_take]; omega
  | unicode cs =>
    obtain ⟨x, h1, h2⟩ := Res.bind_eq_ok.mp hv
    cases h2
    obtain ⟨_, _, rfl⟩ := sliceR_ok h1
    simp only [Candidate.charLen, List.length_drop, List.length_take]; omega


/-! ### Calls -/

open Spec

theorem Spec.BufLens.Le.refl (x : BufLens) : x.Le x :=
  ⟨Nat.le_refl _, Nat.le_refl _, Nat.le_refl _, Nat.le_refl _, Nat.le_refl _⟩

theorem Spec.BufLens.Le.trans {x y z : BufLens} (h1 : x.Le y) (h2 : y.Le z) : x.Le z :=
  ⟨Nat.le_trans h1.1 h2.1, Nat.le_trans h1.2 h2.2, Nat.le_trans h1.3 h2.3, Nat.le_trans h1.4 h2.4, Nat.le_trans h1.5 h2.5⟩

/-- From sizes `x` to sizes `y`, given the need `N`. -/
structure Between (N x y : BufLens) : Prop where
  lo : x.Le y
  hi : y.Le (x.sup N)

theorem Between.refl (N x : BufLens) : Between N x x :=
  ⟨.refl _, by unfold BufLens.sup; constructor <;> dsimp only <;> omega⟩

theorem Between.trans {N x y z : BufLens} (h1 : Between N x y) (h2 : Between N y z) : Between N x z := by
  refine ⟨h1.lo.trans h2.lo, ?_⟩
  have a := h1.hi
  have b := h2.hi
  unfold BufLens.sup at *
  constructor
  · have := a.1; have := b.1; dsimp only at *; omega
  · have := a.2; have := b.2; dsimp only at *; omega
  · have := a.3; have := b.3; dsimp only at *; omega
  · have := a.4; have := b.4; dsimp only at *; omega
  · have := a.5; have := b.5; dsimp only at *; omega

theorem v2_fuzzy_sizes (U : Unicode) {n b k : Nat} (R : Bool) (m : FzfV2) {p : Pattern} {c : Candidate} (r : MatchedRanges)
    (hp : p.charLen ≤ n) (hc : c.charLen ≤ k) :
    OkAll (fun x => Between (need .v2 n b k) (sizes (.v2 m)) (sizes (.v2 x.1))) (m.fuzzy U R p c r) := by
  unfold FzfV2.fuzzy
  dsimp only
  refine .ite (.bind fun _ => .bind fun _ => .pure (.refl _ _)) ?_
  refine (v2Matches_len _ p c _).bind' fun x hx => ?_
  obtain ⟨idx, mo, o⟩ := x
  dsimp only at hx
  cases o with
  | none =>
    refine .pure ?_
    constructor <;> constructor <;> simp only [sizes, BufLens.sup, need, writeBack_len, hx.1, hx.2] <;> omega
  | some e =>
    dsimp only
    have key : ∀ (cls : CharClass) (sb first : Nat) (base : Candidate), base.charLen ≤ c.charLen →
        OkAll (fun x : FzfV2 × MatchedRanges × Option Score => Between (need .v2 n b k) (sizes (.v2 m)) (sizes (.v2 x.1))) (do
      let (bonusSlab, bonuses) ← bonusAlloc m.slab.bonus base.charLen
      let candidateV2 : CandidateV2 := ⟨bonuses, base, cls,
        CandidateOpts.new (isSensitive m.caseSensitivity p) m.candidateNormalization⟩
      let matchOffsets ← shiftOffsets first mo
      let (scoringSlab, consecutiveSlab, scores, consecutives, candidateV2, score, scoreCell) ←
        v2Score U m.slab.scoringMatrix m.slab.consecutiveMatrix p candidateV2 matchOffsets m.scoringScheme
      let ranges ←
        if R then v2MatchedRanges scores consecutives scoreCell candidateV2.base sb r else pure r
      return ({ m with slab := {
        bonus := writeBack bonusSlab candidateV2.bonuses
        consecutiveMatrix := writeBack consecutiveSlab consecutives.slice
        matchedIndices := writeBack idx matchOffsets
        scoringMatrix := writeBack scoringSlab scores.slice } }, ranges, some score)) := by
      intro cls sb first base hb
      refine (bonusAlloc_len _ _).bind' fun bo hbo => ?_
      refine (shiftOffsets_len first mo).bind' fun mo' hmo => ?_
      refine (v2Score_len U _ _ p _ mo' _).bind' fun v hv => ?_
      obtain ⟨v1, v2, v3, v4, v5, v6, v7⟩ := v
      dsimp only at hv ⊢
      obtain ⟨h1, h2, h3, h4, h5⟩ := hv
      unfold SameLen at h5
      dsimp only at h5
      have hmul : p.charLen * base.charLen ≤ n * k := Nat.mul_le_mul hp (Nat.le_trans hb hc)
      have fin : Between (need .v2 n b k) (sizes (.v2 m)) (sizes (.v2 { m with slab := {
          bonus := writeBack bo.1 v5.bonuses
          consecutiveMatrix := writeBack v2 v4.slice
          matchedIndices := writeBack idx mo'
          scoringMatrix := writeBack v1 v3.slice } })) := by
        constructor <;> constructor <;>
          simp only [sizes, BufLens.sup, need, writeBack_len, h1, h2, h3, h4, h5, hbo.1, hbo.2, hx.1, hmo, hx.2] <;> omega
      exact .ite (.bind fun _ => .pure fin) (.bind fun _ => .pure fin)
    refine .bind fun first => ?_
    have sl : ∀ r, OkAll (fun b => b.charLen ≤ c.charLen) (c.slice r) := slice_charLen c
    refine .ite (.bind fun sb => ?_) (.bind fun sb => ?_)
    all_goals
      refine .ite (.bind fun cls => ?_) (.bind fun cls => ?_)
      all_goals
        exact (sl _).bind' fun base hb => key cls sb first base hb

theorem v1_fuzzy_sizes (U : Unicode) (N : BufLens) (R : Bool) (m : FzfV1) (p : Pattern) (c : Candidate) (r : MatchedRanges) :
    OkAll (fun x => Between N (sizes (.v1 m)) (sizes (.v1 x.1))) (m.fuzzy U R p c r) := by
  intro x hx
  have h : x.1.candidateSlab = m.candidateSlab := v1_keeps U _ _ _ _ _ _ hx
  have e : sizes (.v1 x.1) = sizes (.v1 m) := by simp only [sizes, h]
  rw [e]
  exact .refl _ _

section
variable {σ : Type} {I : FzfImpl σ} {sz : σ → BufLens} {N : BufLens} {c : Candidate} {n : Nat}

/-- What is shown of `fuzzy` for both metrics. -/
def FuzzySizes (I : FzfImpl σ) (sz : σ → BufLens) (N : BufLens) (n : Nat) (c : Candidate) : Prop :=
  ∀ R m p r, p.charLen ≤ n → OkAll (fun x => Between N (sz m) (sz x.1)) (I.fuzzy R m p c r)

theorem score_sizes (U : Unicode) (hf : FuzzySizes I sz N n c) {R : Bool} {m : σ} {p : Pattern} {r : MatchedRanges}
    (hp : p.charLen ≤ n) : OkAll (fun x => Between N (sz m) (sz x.1)) (I.score U R m p c r) := by
  unfold FzfImpl.score
  dsimp only
  have key : ∀ x : σ × MatchedRanges × Option Score, Between N (sz m) (sz x.1) →
      OkAll (fun x => Between N (sz m) (sz x.1)) (match x.2.2.isSome, p.isInverse with
        | true, false => (return (x.1, x.2.1, x.2.2) : Res (σ × MatchedRanges × Option Score))
        | false, true => return (x.1, x.2.1, some 0)
        | _, _ => return (x.1, x.2.1, none)) := by
    intro x hx
    split
    all_goals exact .pure hx
  cases p.matchType with
  | fuzzy => exact (hf _ m p r hp).bind' fun x hx => key x hx
  | exact => exact .bind fun y => key (m, y.1, y.2) (.refl _ _)
  | prefixExact => exact .bind fun y => key (m, y.1, y.2) (.refl _ _)
  | suffixExact => exact .bind fun y => key (m, y.1, y.2) (.refl _ _)
  | equalExact => exact .bind fun y => key (m, y.1, y.2) (.refl _ _)

theorem scoreCondition_sizes (U : Unicode) (hf : FuzzySizes I sz N n c) {R : Bool} {l : List Pattern}
    (hl : ∀ p ∈ l, p.charLen ≤ n) : ∀ {m : σ} {r : MatchedRanges},
    OkAll (fun x => Between N (sz m) (sz x.1)) (I.scoreCondition U R c l m r) := by
  induction l with
  | nil => intro m r; exact .ok (.refl _ _)
  | cons p l ih =>
    intro m r
    unfold FzfImpl.scoreCondition
    refine (score_sizes U hf (hl p (by simp))).bind' fun x hx => ?_
    obtain ⟨m', r', s⟩ := x
    cases s with
    | some s => exact .pure hx
    | none => exact (ih fun p hp => hl p (by simp [hp])).mono fun y hy => hx.trans hy

theorem scoreConditions_sizes (U : Unicode) (hf : FuzzySizes I sz N n c) {R : Bool} {l : List Condition}
    (hl : ∀ p ∈ l.flatten, p.charLen ≤ n) : ∀ {m : σ} {r : MatchedRanges} {t : Score},
    OkAll (fun x => Between N (sz m) (sz x.1)) (I.scoreConditions U R c l m r t) := by
  induction l with
  | nil => intro m r t; exact .ok (.refl _ _)
  | cons p l ih =>
    intro m r t
    unfold FzfImpl.scoreConditions
    refine (scoreCondition_sizes U hf fun q hq => hl q (by simp [hq])).bind' fun x hx => ?_
    obtain ⟨m', r', s⟩ := x
    cases s with
    | none => exact .pure hx
    | some s => exact (ih fun p hp => hl p (by rw [List.flatten_cons, List.mem_append]; exact .inr hp)).mono fun y hy => hx.trans hy

theorem distance_sizes (U : Unicode) {q : FzfQuery} {s : List Char} (hf : ∀ c, c.charLen ≤ s.length → FuzzySizes I sz N n c)
    (ha : ∀ m, OkAll (fun x => x.2.length ≤ s.length ∧ Between N (sz m) (sz x.1)) (I.allocChars m s))
    (hq : Within n q) {R : Bool} {m : σ} {buf : List Range} :
    OkAll (fun x => Between N (sz m) (sz x.1)) (I.distance U R m q s buf) := by
  unfold FzfImpl.distance
  refine .ite (.pure (.refl _ _)) ?_
  have key : ∀ (m' : σ) (c : Candidate), c.charLen ≤ s.length → Between N (sz m) (sz m') →
      OkAll (fun x : σ × List Range × Option FzfDistance => Between N (sz m) (sz x.1)) (do
        let (self, ranges, s) ←
          match q with
          | .notExtended pattern => I.fuzzy R m' pattern c (MatchedRanges.ofVec buf)
          | .extended conditions => I.scoreConditions U R c conditions m' (MatchedRanges.ofVec buf) 0
        return (self, ranges.ranges, s.map FzfDistance.fromScore)) := by
    intro m' c hc hm
    cases q with
    | notExtended p =>
      exact (hf c hc R m' p _ (hq p (by simp [patterns]))).bind' fun x hx => .pure (hm.trans hx)
    | extended cs =>
      exact (scoreConditions_sizes U (hf c hc) hq).bind' fun x hx => .pure (hm.trans hx)
  by_cases hs : strIsAscii s = true
  · rw [if_pos hs]
    intro v hv
    refine key m (.ascii (strBytes s)) ?_ (.refl _ _) v hv
    have h := congrArg List.length (ascii_candidate hs).2
    simp only [Candidate.toChars, List.length_map] at h
    exact Nat.le_of_eq h
  · rw [if_neg hs]
    refine OkAll.bind' (Q := fun x : σ × Candidate => x.2.charLen ≤ s.length ∧ Between N (sz m) (sz x.1)) ?_
      fun x hx => key x.1 x.2 hx.1 hx.2
    exact (ha m).bind' fun x hx => .pure hx

end

theorem candidateAlloc_sizes (l t : List Char) :
    OkAll (fun x => x.2.length ≤ t.length ∧ x.1.length = max l.length (strLen t)) (candidateAlloc l t) := by
  intro v hv
  refine ⟨?_, candidateAlloc_len l t v hv⟩
  obtain ⟨l', h⟩ := candidateAlloc_eq l t
  rw [h] at hv
  cases hv
  exact Nat.le_refl _

theorem v1_distance_sizes (U : Unicode) {n b k : Nat} {q : FzfQuery} {s : List Char} (hq : Within n q) (hb : strLen s ≤ b)
    {R : Bool} {m : FzfV1} {buf : List Range} :
    OkAll (fun x => Between (need .v1 n b k) (sizes (.v1 m)) (sizes (.v1 x.1))) ((FzfV1.impl U).distance U R m q s buf) := by
  refine distance_sizes (sz := fun m => sizes (.v1 m)) U (fun c _ R m p r _ => v1_fuzzy_sizes U _ R m p c r) (fun m => ?_) hq
  refine (candidateAlloc_sizes m.candidateSlab s).bind' fun x hx => .pure ⟨hx.1, ?_⟩
  constructor <;> constructor <;> simp only [sizes, BufLens.sup, need, hx.2] <;> omega

theorem v2_distance_sizes (U : Unicode) {n b k : Nat} {q : FzfQuery} {s : List Char} (hq : Within n q) (hb : strLen s ≤ b)
    (hk : s.length ≤ k) {R : Bool} {m : FzfV2} {buf : List Range} :
    OkAll (fun x => Between (need .v2 n b k) (sizes (.v2 m)) (sizes (.v2 x.1))) ((FzfV2.impl U).distance U R m q s buf) := by
  refine distance_sizes (sz := fun m => sizes (.v2 m)) U
    (fun c hc R m p r hp => v2_fuzzy_sizes U R m r hp (Nat.le_trans hc hk)) (fun m => ?_) hq
  refine (candidateAlloc_sizes m.candidateSlab s).bind' fun x hx => .pure ⟨hx.1, ?_⟩
  constructor <;> constructor <;> simp only [sizes, BufLens.sup, need, hx.2] <;> omega

theorem mapR_ok_inv {α β : Type} {f : α → β} {x : Res α} {y : β} (h : x.mapR f = .ok y) : ∃ a, x = .ok a ∧ f a = y := by
  cases x with
  | panic => cases h
  | ok a => cases h; exact ⟨a, rfl, rfl⟩

theorem metric_distance_sizes (U : Unicode) {n b k : Nat} {q : FzfQuery} {s : List Char} (hq : Within n q) (hb : strLen s ≤ b)
    (hk : s.length ≤ k) {m m' : Metric} {d : Option FzfDistance} (h : m.distance U q s = .ok (m', d)) :
    m'.algo = m.algo ∧ Between (need m.algo n b k) (sizes m) (sizes m') := by
  cases m with
  | v1 m =>
    obtain ⟨x, hx, e⟩ := mapR_ok_inv h
    obtain ⟨y, hy, e'⟩ := Res.bind_eq_ok.mp hx
    cases e'
    cases e
    exact ⟨rfl, v1_distance_sizes U hq hb _ hy⟩
  | v2 m =>
    obtain ⟨x, hx, e⟩ := mapR_ok_inv h
    obtain ⟨y, hy, e'⟩ := Res.bind_eq_ok.mp hx
    cases e'
    cases e
    exact ⟨rfl, v2_distance_sizes U hq hb hk _ hy⟩

theorem metric_ranges_sizes (U : Unicode) {n b k : Nat} {q : FzfQuery} {s : List Char} (hq : Within n q) (hb : strLen s ≤ b)
    (hk : s.length ≤ k) {m m' : Metric} {buf buf' : List Range} {d : Option FzfDistance}
    (h : m.distanceAndRanges U q s buf = .ok (m', buf', d)) : m'.algo = m.algo ∧ Between (need m.algo n b k) (sizes m) (sizes m') := by
  cases m with
  | v1 m =>
    obtain ⟨⟨m₁, x⟩, hx, e⟩ := mapR_ok_inv h
    cases e
    exact ⟨rfl, v1_distance_sizes U hq hb _ hx⟩
  | v2 m =>
    obtain ⟨⟨m₁, x⟩, hx, e⟩ := mapR_ok_inv h
    cases e
    exact ⟨rfl, v2_distance_sizes U hq hb hk _ hx⟩

/-! ### The parser -/

theorem words_next_len (w : Words) : OkAll (fun x => x.2.buf.length = w.buf.length) w.next := by
  unfold Words.next
  refine .ite (.ok rfl) ?_
  refine OkAll.bind' (Q := fun x => x.1.buf.length = w.buf.length) (fun v hv => (words_nextLoop_grows _ hv).1.length)
    fun x hx => ?_
  exact .bind fun _ => .bind fun _ => .bind fun _ => .pure hx

/-- The buffers of `Patterns` are as long as before. -/
def SameBufs (p p' : Patterns) : Prop := p'.buf.length = p.buf.length ∧ p'.words.buf.length = p.words.buf.length

theorem SameBufs.trans {p p' p'' : Patterns} (h1 : SameBufs p p') (h2 : SameBufs p' p'') : SameBufs p p'' :=
  ⟨h2.1.trans h1.1, h2.2.trans h1.2⟩

theorem patterns_alloc_len (p : Patterns) (x : Pattern) : OkAll (fun p' => SameBufs p p') (p.alloc x) :=
  (setR_len _ _ _).bind' fun _ h => .pure ⟨h, rfl⟩

theorem patterns_nextLoop_len (U : Unicode) (fuel : Nat) : ∀ (p : Patterns) (l : Bool),
    OkAll (fun p' => SameBufs p p') (p.nextLoop U fuel l) := by
  induction fuel with
  | zero => intro p l; exact .panic
  | succ fuel ih =>
    intro p l
    unfold Patterns.nextLoop
    refine (words_next_len p.words).bind' fun x hx => ?_
    obtain ⟨o, w⟩ := x
    have h0 : SameBufs p { p with words := w } := ⟨rfl, hx⟩
    cases o with
    | none => exact .pure h0
    | some word =>
      refine .ite (.bind fun y => ?_) ((ih _ _).mono fun v hv => h0.trans hv)
      cases y with
      | none => exact (ih _ _).mono fun v hv => h0.trans hv
      | some pat =>
        refine .ite (.pure h0) ?_
        exact (patterns_alloc_len _ pat).bind' fun p1 h1 => (ih _ _).mono fun v hv => h0.trans (h1.trans hv)

theorem patterns_nextItem_len (U : Unicode) (p : Patterns) : OkAll (fun x => SameBufs p x.2) (p.nextItem U) := by
  unfold Patterns.nextItem
  have key : ∀ (p' : Patterns) (l : Bool), SameBufs p p' → OkAll (fun x : Option (List Pattern) × Patterns => SameBufs p x.2) (do
      let p' ← p'.nextLoop U (p'.words.s.length + 1) l
      if p'.allocated == p.allocated then return (none, p')
      else return (some (← sliceR p'.buf p.allocated p'.allocated), p')) := by
    intro p' l h
    refine (patterns_nextLoop_len U _ p' l).bind' fun p1 h1 => ?_
    exact .ite (.pure (h.trans h1)) (.bind fun _ => .pure (h.trans h1))
  cases p.next with
  | none => exact key p false ⟨rfl, rfl⟩
  | some x =>
    refine OkAll.bind' (Q := fun y : Patterns × Bool => SameBufs p y.1) ?_ fun y hy => key y.1 y.2 hy
    exact (patterns_alloc_len { p with next := none } x).bind' fun p1 h1 => .pure h1

theorem parseLoop_len (U : Unicode) (fuel : Nat) : ∀ (p : Patterns) (cs : List Condition) (n : Nat),
    OkAll (fun x => SameBufs p x.1 ∧ x.2.1.length = cs.length) (FzfParser.parseLoop U fuel p cs n) := by
  induction fuel with
  | zero => intro p cs n; exact .panic
  | succ fuel ih =>
    intro p cs n
    unfold FzfParser.parseLoop
    refine (patterns_nextItem_len U p).bind' fun x hx => ?_
    obtain ⟨o, p'⟩ := x
    cases o with
    | none => exact .pure ⟨hx, rfl⟩
    | some c =>
      refine (setR_len cs n c).bind' fun cs' h => ?_
      exact (ih p' cs' _).mono fun v hv => ⟨SameBufs.trans hx hv.1, hv.2.trans h⟩

theorem grown_len' {α : Type} (l : List α) (n : Nat) (a : α) :
    (if l.length < n then resize l n a else l).length = max l.length n := grown_len l n a

theorem parse_len (U : Unicode) (P : FzfParser) (t : List Char) :
    OkAll (fun x => x.1.chars.length = max P.chars.length (strLen t) ∧
      x.1.patterns.length = max P.patterns.length (strLen t / 2 + 1) ∧
      x.1.conditions.length = max P.conditions.length (strLen t / 2 + 1)) (P.parse U t) := by
  unfold FzfParser.parse
  dsimp only
  refine OkAll.bind' (Q := fun p => p.buf.length = max P.patterns.length (strLen t / 2 + 1) ∧
    p.words.buf.length = max P.chars.length (strLen t)) ?_ fun p hp => ?_
  · unfold Patterns.new Words.new
    simp only [Res.bind_assoc]
    exact .bind fun _ => .pure ⟨grown_len' .., grown_len' ..⟩
  · refine (parseLoop_len U _ p _ 0).bind' fun x hx => ?_
    rw [grown_len'] at hx
    exact .bind fun _ => .bind fun _ => .pure ⟨hx.1.2.trans hp.2, hx.1.1.trans hp.1, hx.2⟩

theorem writeChars_len (t : List Char) : ∀ (l : List Char) (n : Nat),
    OkAll (fun x => x.1.length = l.length) (FzfParser.writeChars l t n) := by
  induction t with
  | nil => intro l n; exact .ok rfl
  | cons c t ih =>
    intro l n
    unfold FzfParser.writeChars
    exact (setR_len l n c).bind' fun l' h => (ih l' _).mono fun v hv => hv.trans h

theorem parseNotExtended_len (U : Unicode) (P : FzfParser) (t : List Char) :
    OkAll (fun x => x.1.chars.length = P.chars.length ∧ x.1.patterns = P.patterns ∧ x.1.conditions = P.conditions)
      (P.parseNotExtended U t) := by
  unfold FzfParser.parseNotExtended
  exact (writeChars_len t P.chars 0).bind' fun x hx => .bind fun _ => .pure ⟨hx, rfl, rfl⟩

end Norm
