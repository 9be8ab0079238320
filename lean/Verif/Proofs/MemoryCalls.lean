import Verif.Model.MemoryCalls
import Verif.Proofs.Memory
import Verif.Proofs.Distance

/-! # Calls with references: the same as without -/

namespace Norm
open Spec

theorem reads_readR {α : Type} {m : Nat → Option (List α)} {r : Ref} {l : List α} (h : Reads m r l) : readR m r = .ok l := by
  obtain ⟨pre, post, h1, h2, h3⟩ := h
  rw [readR_eq h1, sliceR_of_le (by omega) (by simp; omega)]
  rw [← h2, ← h3, ← List.length_append, List.take_left', List.drop_left']
  · rfl
  · rfl

theorem patternReads_read {h : Heap} {x : PatternR} {p : Pattern} (hp : PatternReads h x p) : x.read h = .ok p := by
  unfold PatternR.read
  rw [reads_readR hp.text]
  cases p
  simp only [Res.bind_ok, Res.pure_def, hp.hasUppercase, hp.matchType, hp.isInverse, hp.leadingSpaces, hp.trailingSpaces]

theorem reads_len {α : Type} {m : Nat → Option (List α)} {r : Ref} {l : List α} (h : Reads m r l) : l.length = r.len := by
  obtain ⟨_, _, _, _, h3⟩ := h
  exact h3

theorem queryReads_isEmpty {h : Heap} {q : FzfQueryR} {v : FzfQuery} (hq : QueryReads h q v) : q.isEmpty = v.isEmpty := by
  cases hq with
  | @notExtended x p hp =>
    have := reads_len hp.text
    unfold FzfQueryR.isEmpty FzfQuery.isEmpty Pattern.isEmpty
    dsimp only
    rw [← this]
    cases p.text <;> rfl
  | @extended r rs cs hr hc =>
    have h1 := reads_len hr
    have h2 := hc.length_eq
    unfold FzfQueryR.isEmpty FzfQuery.isEmpty
    dsimp only
    rw [← h1, h2]
    cases cs <;> rfl

/-- The candidate's buffer begins with the candidate. -/
theorem candidateAlloc_slab (slab text : List Char) : ∃ slab', candidateAlloc slab text = .ok (slab', text) ∧
    sliceToR slab' text.length = .ok text := by
  obtain ⟨slab', h⟩ := candidateAlloc_eq slab text
  refine ⟨slab', h, ?_⟩
  unfold candidateAlloc at h
  have hlen := length_ite_resize slab (strLen text) (Char.ofNat 0)
  generalize (if strLen text > slab.length then resize slab (strLen text) (Char.ofNat 0) else slab) = sl at hlen h
  have hw := slabWriteChars_eq text [] sl (by have := length_le_strLen text; omega)
  simp only [List.nil_append, List.length_nil, Nat.zero_add] at hw
  simp only [hw, Res.bind_ok] at h
  obtain ⟨t, h1, h2⟩ := Res.bind_eq_ok.mp h
  cases h2
  exact h1

section
variable {σ : Type} {U : Unicode} {I : FzfImpl σ} {slab : σ → List Char} {h : Heap}

/-- The matchers of `I` leave the metric's buffer for candidates alone. -/
def FuzzyKeeps (I : FzfImpl σ) (slab : σ → List Char) : Prop :=
  ∀ R m p c r x, I.fuzzy R m p c r = .ok x → slab x.1 = slab m

theorem score_keeps (hk : FuzzyKeeps I slab) {R : Bool} {m : σ} {p : Pattern} {c : Candidate} {r : MatchedRanges}
    {x : σ × MatchedRanges × Option Score} (hx : I.score U R m p c r = .ok x) : slab x.1 = slab m := by
  unfold FzfImpl.score at hx
  dsimp only at hx
  have last : ∀ {m' : σ} {r' : MatchedRanges} {s : Option Score},
      (match s.isSome, p.isInverse with
        | true, false => pure (m', r', s)
        | false, true => pure (m', r', some 0)
        | _, _ => pure (m', r', none)) = Res.ok x → x.1 = m' := by
    intro m' r' s h2
    cases h3 : s.isSome <;> cases h4 : p.isInverse <;> simp only [h3, h4] at h2 <;> cases h2 <;> rfl
  cases hm : p.matchType <;> rw [hm] at hx <;> dsimp only at hx
  · obtain ⟨y, h1, h2⟩ := Res.bind_eq_ok.mp hx
    rw [last h2, hk _ _ _ _ _ _ h1]
  all_goals
    obtain ⟨y, h1, h2⟩ := Res.bind_eq_ok.mp hx
    rw [Res.pure_def, Res.bind_ok] at h2
    rw [last h2]

theorem scoreConditionR_eq (hk : FuzzyKeeps I slab) {R : Bool} {cR : CandidateR} {c : Candidate} :
    ∀ {xs : List PatternR} {ps : List Pattern}, List.Forall₂ (PatternReads h) xs ps →
    ∀ (m : σ) (r : MatchedRanges), cR.read (slab m) = .ok c →
      I.scoreConditionR U slab h R cR xs m r = I.scoreCondition U R c ps m r ∧
      ∀ x, I.scoreCondition U R c ps m r = .ok x → slab x.1 = slab m := by
  intro xs ps hx
  induction hx with
  | nil => intro m r hc; exact ⟨rfl, fun x hx => by cases hx; rfl⟩
  | cons hp _ ih =>
    intro m r hc
    rw [FzfImpl.scoreConditionR, FzfImpl.scoreCondition, patternReads_read hp, hc]
    simp only [Res.bind_ok]
    cases hs : I.score U R m _ c r with
    | panic => exact ⟨rfl, fun x hx => by cases hx⟩
    | ok x =>
      obtain ⟨m', r', s⟩ := x
      have e := score_keeps hk hs
      dsimp only at e
      simp only [Res.bind_ok]
      cases s with
      | some s => exact ⟨rfl, fun x hx => by cases hx; exact e⟩
      | none =>
        obtain ⟨i1, i2⟩ := ih m' r' (by rw [e]; exact hc)
        exact ⟨i1, fun x hx => (i2 x hx).trans e⟩

theorem scoreConditionsR_eq (hk : FuzzyKeeps I slab) {R : Bool} {cR : CandidateR} {c : Candidate} :
    ∀ {rs : List ConditionR} {cs : List Condition}, List.Forall₂ (ConditionReads h) rs cs →
    ∀ (m : σ) (r : MatchedRanges) (t : Score), cR.read (slab m) = .ok c →
      I.scoreConditionsR U slab h R cR rs m r t = I.scoreConditions U R c cs m r t := by
  intro rs cs hx
  induction hx with
  | nil => intro m r t hc; rfl
  | cons hp _ ih =>
    intro m r t hc
    obtain ⟨xs, h1, h2⟩ := hp
    rw [FzfImpl.scoreConditionsR, FzfImpl.scoreConditions, reads_readR h1]
    simp only [Res.bind_ok]
    obtain ⟨e1, e2⟩ := scoreConditionR_eq (U := U) hk h2 (R := R) m r hc
    rw [e1]
    cases hs : I.scoreCondition U R c _ m r with
    | panic => rfl
    | ok x =>
      obtain ⟨m', r', s⟩ := x
      have e := e2 _ hs
      dsimp only at e
      simp only [Res.bind_ok]
      cases s with
      | none => rfl
      | some s => exact ih m' r' _ (by rw [e]; exact hc)

theorem distanceR_eq (hk : FuzzyKeeps I slab) (ha : ∀ m s, ∃ m', I.allocChars m s = .ok (m', s) ∧ sliceToR (slab m') s.length = .ok s)
    {R : Bool} {q : FzfQueryR} {v : FzfQuery} (hq : QueryReads h q v) (m : σ) (s : List Char) (buf : List Range) :
    I.distanceR U slab h R m q s buf = I.distance U R m v s buf := by
  unfold FzfImpl.distanceR FzfImpl.distance
  rw [queryReads_isEmpty hq]
  by_cases he : v.isEmpty = true
  · rw [if_pos he, if_pos he]
  · rw [if_neg he, if_neg he]
    by_cases hs : strIsAscii s = true
    · simp only [if_pos hs, Res.pure_def, Res.bind_ok]
      cases hq with
      | notExtended hp =>
        dsimp only
        rw [patternReads_read hp]
        rfl
      | extended hr hcs =>
        dsimp only
        rw [reads_readR hr]
        simp only [Res.bind_ok]
        rw [scoreConditionsR_eq hk hcs m _ _ rfl]
    · obtain ⟨m', h1, h2⟩ := ha m s
      have hc : (CandidateR.unicode s.length).read (slab m') = .ok (.unicode s) := by
        simp only [CandidateR.read, h2, Res.bind_ok, Res.pure_def]
      simp only [if_neg hs, h1, Res.pure_def, Res.bind_ok]
      cases hq with
      | notExtended hp =>
        dsimp only
        rw [patternReads_read hp, hc]
        rfl
      | extended hr hcs =>
        dsimp only
        rw [reads_readR hr]
        simp only [Res.bind_ok]
        rw [scoreConditionsR_eq hk hcs m' _ _ hc]

end

theorem v1_keeps (U : Unicode) : FuzzyKeeps (FzfV1.impl U) FzfV1.candidateSlab := by
  intro R m p c r x hx
  simp only [FzfV1.impl, FzfV1.fuzzy] at hx
  obtain ⟨o, _, hx⟩ := Res.bind_eq_ok.mp hx
  cases o with
  | none => cases hx; rfl
  | some e =>
    obtain ⟨_, _, hx⟩ := Res.bind_eq_ok.mp hx
    obtain ⟨_, _, hx⟩ := Res.bind_eq_ok.mp hx
    cases hx; rfl

/-- A computation's result, if there is one, satisfies `P`. -/
def OkAll {α : Type} (P : α → Prop) (x : Res α) : Prop := ∀ v, x = .ok v → P v

theorem OkAll.bind {α β : Type} {P : β → Prop} {x : Res α} {f : α → Res β} (h : ∀ a, OkAll P (f a)) :
    OkAll P (x >>= f) := by
  intro v hv
  obtain ⟨a, _, ha⟩ := Res.bind_eq_ok.mp hv
  exact h a v ha

theorem OkAll.pure {α : Type} {P : α → Prop} {a : α} (h : P a) : OkAll P (Pure.pure a : Res α) := by
  intro v hv
  cases hv
  exact h

theorem OkAll.ite {α : Type} {P : α → Prop} {c : Prop} [Decidable c] {x y : Res α} (hx : OkAll P x)
    (hy : OkAll P y) : OkAll P (if c then x else y) := by
  split
  · exact hx
  · exact hy

theorem v2_keeps (U : Unicode) : FuzzyKeeps (FzfV2.impl U) FzfV2.candidateSlab := by
  intro R m p c r x hx
  refine (?_ : OkAll (fun x => x.1.candidateSlab = m.candidateSlab) ((FzfV2.impl U).fuzzy R m p c r)) x hx
  simp only [FzfV2.impl]
  unfold FzfV2.fuzzy
  dsimp only
  refine OkAll.ite (OkAll.bind fun _ => OkAll.bind fun _ => OkAll.pure rfl) (OkAll.bind fun o => ?_)
  obtain ⟨_, _, o⟩ := o
  cases o with
  | none => exact OkAll.pure rfl
  | some e =>
    dsimp only
    repeat' first
      | exact OkAll.pure rfl
      | apply OkAll.ite
      | refine OkAll.bind fun _ => ?_

theorem v1_alloc (U : Unicode) (m : FzfV1) (s : List Char) : ∃ m', (FzfV1.impl U).allocChars m s = .ok (m', s) ∧
    sliceToR m'.candidateSlab s.length = .ok s := by
  obtain ⟨slab, h1, h2⟩ := candidateAlloc_slab m.candidateSlab s
  refine ⟨{ m with candidateSlab := slab }, ?_, h2⟩
  simp only [FzfV1.impl, FzfV1.allocChars, h1, Res.bind_ok, Res.pure_def]

theorem v2_alloc (U : Unicode) (m : FzfV2) (s : List Char) : ∃ m', (FzfV2.impl U).allocChars m s = .ok (m', s) ∧
    sliceToR m'.candidateSlab s.length = .ok s := by
  obtain ⟨slab, h1, h2⟩ := candidateAlloc_slab m.candidateSlab s
  refine ⟨{ m with candidateSlab := slab }, ?_, h2⟩
  simp only [FzfV2.impl, FzfV2.allocChars, h1, Res.bind_ok, Res.pure_def]

end Norm
