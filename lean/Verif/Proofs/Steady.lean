import Verif.Model.Timed
import Verif.Model.Benches
import Verif.SpecSizes
import Verif.Proofs.Timed
import Verif.Proofs.Distance
import Verif.Proofs.Sizes
import Verif.Proofs.Api

/-! Two runs of the same call, from metrics that differ in what their buffers hold: helper lemmas for C82 and C83.

The second metric's buffers are at least as long as given lengths `F`, and else as long as the first one's. If `F` is zero, so
that the lengths agree, the runs take the same steps; else the second one takes at most as many as the first one. -/

namespace Norm

namespace Timed

/-- Both panic, or both return, with related values. -/
def ResRel {α β : Type} (R : α → β → Prop) : Res α → Res β → Prop
  | .ok a, .ok b => R a b
  | .panic, .panic => True
  | _, _ => False

/-- Not more steps; and the same number, if `c`. -/
def StepRel (c : Prop) (n k : Nat) : Prop := (c → n = k) ∧ k ≤ n

/-- Related results; and not more steps, but the same number, if `c`. -/
def Rel (c : Prop) {α β : Type} (R : α → β → Prop) (x : Timed α) (y : Timed β) : Prop :=
  StepRel c x.steps y.steps ∧ ResRel R x.res y.res

variable {c : Prop} {α β γ δ : Type}

theorem stepRel_rfl {n : Nat} : StepRel c n n := ⟨fun _ => rfl, Nat.le_refl _⟩

theorem stepRel_add {n k n' k' : Nat} (h : StepRel c n k) (h' : StepRel c n' k') : StepRel c (n + n') (k + k') :=
  ⟨fun hc => by rw [h.1 hc, h'.1 hc], Nat.add_le_add h.2 h'.2⟩

theorem rel_pure {R : α → β → Prop} {a : α} {b : β} (h : R a b) : Rel c R (pure a) (pure b) := ⟨stepRel_rfl, h⟩

theorem steps_bind (x : Timed α) (f : α → Timed β) :
    (x >>= f).steps = match x.res with | .ok a => x.steps + (f a).steps | .panic => x.steps := by
  show (Timed.bind x f).steps = _
  unfold Timed.bind
  cases x.res <;> rfl

theorem rel_bind {R : α → β → Prop} {S : γ → δ → Prop} {x : Timed α} {y : Timed β} {f : α → Timed γ} {g : β → Timed δ}
    (h : Rel c R x y) (k : ∀ a b, R a b → Rel c S (f a) (g b)) : Rel c S (x >>= f) (y >>= g) := by
  obtain ⟨h1, h2⟩ := h
  refine ⟨?_, ?_⟩
  · rw [steps_bind, steps_bind]
    revert h2
    cases x.res <;> cases y.res <;> intro h2
    · exact stepRel_add h1 (k _ _ h2).1
    · exact h2.elim
    · exact h2.elim
    · exact h1
  · rw [res_bind, res_bind]
    revert h2
    cases x.res <;> cases y.res <;> intro h2
    · exact (k _ _ h2).2
    · exact h2.elim
    · exact h2.elim
    · trivial

theorem rel_refl (x : Timed α) : Rel c (· = ·) x x := by
  refine ⟨stepRel_rfl, ?_⟩
  cases x.res
  · exact rfl
  · trivial

/-- Both do the same first. -/
theorem rel_same {S : γ → δ → Prop} {x : Timed α} {f : α → Timed γ} {g : α → Timed δ}
    (k : ∀ a, Rel c S (f a) (g a)) : Rel c S (x >>= f) (x >>= g) :=
  rel_bind (rel_refl x) fun a b e => by subst e; exact k a

theorem rel_same' {S : γ → δ → Prop} {x : Timed α} {f : α → Timed γ} {g : α → Timed δ}
    (k : ∀ a, x.res = .ok a → Rel c S (f a) (g a)) : Rel c S (x >>= f) (x >>= g) := by
  refine rel_bind (R := fun a b => a = b ∧ x.res = .ok a) ⟨stepRel_rfl, ?_⟩ fun a b e => by
    obtain ⟨e, h⟩ := e; subst e; exact k a h
  cases x.res
  · exact ⟨rfl, rfl⟩
  · trivial

theorem rel_ite {R : α → β → Prop} {p : Prop} [Decidable p] {x x' : Timed α} {y y' : Timed β} (h : p → Rel c R x y)
    (h' : ¬ p → Rel c R x' y') : Rel c R (if p then x else x') (if p then y else y') := by
  by_cases hp : p
  · rw [if_pos hp, if_pos hp]; exact h hp
  · rw [if_neg hp, if_neg hp]; exact h' hp

/-- One of two things first, and then the same in both cases. -/
theorem rel_jp {R : α → β → Prop} {S : γ → δ → Prop} {p : Prop} [Decidable p] {x x' : Timed α} {y y' : Timed β}
    {k : α → Timed γ} {k' : β → Timed δ} (h : p → Rel c R x y) (h' : ¬ p → Rel c R x' y')
    (hk : ∀ a b, R a b → Rel c S (k a) (k' b)) : Rel c S (if p then x >>= k else x' >>= k) (if p then y >>= k' else y' >>= k') :=
  rel_ite (fun hp => rel_bind (h hp) hk) fun hp => rel_bind (h' hp) hk

/-- One of two things first, in both the same. -/
theorem rel_jp_same {S : γ → δ → Prop} {p : Prop} [Decidable p] {x x' : Timed α} {k : α → Timed γ} {k' : α → Timed δ}
    (hk : ∀ a, Rel c S (k a) (k' a)) : Rel c S (if p then x >>= k else x' >>= k) (if p then x >>= k' else x' >>= k') :=
  rel_ite (fun _ => rel_same hk) fun _ => rel_same hk

theorem rel_mono {R S : α → β → Prop} {x : Timed α} {y : Timed β} (h : Rel c R x y) (k : ∀ a b, R a b → S a b) :
    Rel c S x y := by
  refine ⟨h.1, ?_⟩
  have h2 := h.2
  revert h2
  cases x.res <;> cases y.res <;> intro h2
  · exact k _ _ h2
  · exact h2
  · exact h2
  · trivial

theorem rel_ok {R : α → β → Prop} {x : Timed α} {y : Timed β} (h : Rel c R x y) {a : α} (ha : x.res = .ok a) :
    ∃ b, y.res = .ok b ∧ R a b := by
  have h2 := h.2
  rw [ha] at h2
  cases hy : y.res with
  | ok b => rw [hy] at h2; exact ⟨b, rfl, h2⟩
  | panic => rw [hy] at h2; exact h2.elim

/-! ## Buffers -/

theorem rel_grow {f : Nat} (hc : c → f = 0) (l l' : List α) (n : Nat) (a : α) (h : l'.length = max f l.length) :
    Rel c (fun x y => y.length = max f x.length ∧ n ≤ x.length ∧ n ≤ y.length) (grow l n a) (grow l' n a) := by
  have e : ∀ k : List α, (if n > k.length then resize k n a else k).length = max k.length n := fun k => by
    split
    · rw [resize_length (by omega)]; omega
    · omega
  refine ⟨?_, ?_⟩
  · unfold grow
    by_cases hn : n > l.length
    · rw [if_pos hn]
      by_cases hn' : n > l'.length
      · rw [if_pos hn']; exact stepRel_rfl
      · rw [if_neg hn']
        exact ⟨fun h0 => absurd (hc h0) (by omega), Nat.zero_le _⟩
    · rw [if_neg hn, if_neg (by omega)]; exact stepRel_rfl
  · rw [res_grow, res_grow]
    show _ ∧ _ ∧ _
    rw [e, e]
    omega

theorem take_set_succ (l : List α) (n : Nat) (a : α) (h : n < l.length) : (l.set n a).take (n + 1) = l.take n ++ [a] := by
  rw [List.set_eq_take_append_cons_drop, if_pos h]
  rw [List.take_append]
  have h1 : (l.take n).length = n := by rw [List.length_take]; omega
  rw [h1, List.take_of_length_le (by omega)]
  have : n + 1 - n = 1 := by omega
  rw [this]; rfl

/-- Writing where both have room keeps what has been written the same. -/
theorem rel_set_take (l l' : List α) (n : Nat) (a : α) (h : l.take n = l'.take n) (hl : n < l.length) (hl' : n < l'.length) :
    Rel c (fun x y => x.take (n + 1) = y.take (n + 1) ∧ x.length = l.length ∧ y.length = l'.length)
      (set l n a) (set l' n a) := by
  refine ⟨stepRel_rfl, ?_⟩
  rw [res_set, res_set, setR_of_lt hl, setR_of_lt hl']
  exact ⟨by rw [take_set_succ l n a hl, take_set_succ l' n a hl', h], List.length_set, List.length_set⟩

theorem rel_slabWriteChars (t : List Char) : ∀ (l l' : List Char) (n : Nat), l.take n = l'.take n → n + t.length ≤ l.length →
    n + t.length ≤ l'.length →
    Rel c (fun x y => x.2 = y.2 ∧ x.1.take x.2 = y.1.take x.2 ∧ x.2 ≤ l.length ∧ x.2 ≤ l'.length ∧ x.1.length = l.length ∧
      y.1.length = l'.length) (slabWriteChars l t n) (slabWriteChars l' t n) := by
  induction t with
  | nil => exact fun l l' n h h1 h2 => rel_pure ⟨rfl, h, by simpa using h1, by simpa using h2, rfl, rfl⟩
  | cons ch t ih =>
    intro l l' n h h1 h2
    rw [List.length_cons] at h1 h2
    refine rel_bind (rel_set_take l l' n ch h (by omega) (by omega)) fun x y e => ?_
    obtain ⟨e1, e2, e3⟩ := e
    refine rel_mono (ih x y (n + 1) e1 (by omega) (by omega)) fun a b hab => ?_
    rw [e2, e3] at hab
    exact hab

theorem rel_candidateAlloc {f : Nat} (hc : c → f = 0) (l l' t : List Char) (h : l'.length = max f l.length) :
    Rel c (fun x y => y.1.length = max f x.1.length ∧ x.2 = y.2) (candidateAlloc l t) (candidateAlloc l' t) := by
  refine rel_bind (rel_grow hc l l' (strLen t) _ h) fun x y e => ?_
  obtain ⟨e1, e2, e3⟩ := e
  have := length_le_strLen t
  refine rel_bind (rel_slabWriteChars t x y 0 rfl (by omega) (by omega)) fun a b hab => ?_
  obtain ⟨a1, a2⟩ := a
  obtain ⟨b1, b2⟩ := b
  obtain ⟨h1, h2, h3, h4, h5, h6⟩ := hab
  dsimp only at h1 h2 h3 h4 h5 h6 ⊢
  subst h1
  rw [sliceToR_of_le (by omega), sliceToR_of_le (by omega), h2]
  exact rel_same fun v => rel_pure ⟨by show b1.length = max f a1.length; omega, rfl⟩

theorem rel_indicesAlloc {f : Nat} (hc : c → f = 0) (l l' : List Nat) (n : Nat) (h : l'.length = max f l.length) :
    Rel c (fun x y => y.1.length = max f x.1.length ∧ x.2.length = n ∧ y.2.length = n) (indicesAlloc l n)
      (indicesAlloc l' n) := by
  refine rel_bind (rel_grow hc l l' n _ h) fun x y e => ?_
  obtain ⟨e1, e2, e3⟩ := e
  rw [sliceToR_of_le e2, sliceToR_of_le e3]
  refine ⟨stepRel_rfl, ?_⟩
  refine ⟨e1, ?_, ?_⟩
  · rw [List.length_take]; omega
  · rw [List.length_take]; omega

theorem rel_matrixAlloc {f : Nat} (hc : c → f = 0) (fill : α) (l l' : List α) (w n : Nat) (h : l'.length = max f l.length) :
    Rel c (fun x y => y.1.length = max f x.1.length ∧ x.2 = y.2) (matrixAlloc fill l w n) (matrixAlloc fill l' w n) := by
  refine rel_same fun _ => ?_
  refine rel_bind (rel_grow hc l l' (n * w) _ h) fun x y e => ?_
  obtain ⟨e1, e2, e3⟩ := e
  rw [sliceToR_of_le e2, sliceToR_of_le e3]
  have l1 : (x.take (n * w)).length = n * w := by rw [List.length_take]; omega
  have l2 : (y.take (n * w)).length = n * w := by rw [List.length_take]; omega
  refine rel_bind (R := fun a b => a = x.take (n * w) ∧ b = y.take (n * w)) ⟨stepRel_rfl, rfl, rfl⟩ fun a b hab => ?_
  obtain ⟨rfl, rfl⟩ := hab
  rw [l1, l2]
  refine rel_same fun _ => rel_pure ⟨e1, ?_⟩
  have : (x.take (n * w)).map (fun _ => fill) = (y.take (n * w)).map (fun _ => fill) := by
    rw [List.map_const', List.map_const', l1, l2]
  rw [this]

/-- A memoised bonus: set in both to the same value, or in none. -/
def SameCell (a b : BonusCell) : Prop := a.isSet = b.isSet ∧ (a.isSet = true → a.value = b.value)

/-- Memoised bonuses of the same columns. -/
def SameCells (l l' : List BonusCell) : Prop := l.length = l'.length ∧ ∀ i (h : i < l.length) (h' : i < l'.length),
  SameCell l[i] l'[i]

theorem rel_bonusAlloc {f : Nat} (hc : c → f = 0) (l l' : List BonusCell) (n : Nat) (h : l'.length = max f l.length) :
    Rel c (fun x y => y.1.length = max f x.1.length ∧ SameCells x.2 y.2) (bonusAlloc l n) (bonusAlloc l' n) := by
  refine rel_bind (rel_grow hc l l' n _ h) fun x y e => ?_
  obtain ⟨e1, e2, e3⟩ := e
  rw [sliceToR_of_le e2, sliceToR_of_le e3]
  have l1 : (x.take n).length = n := by rw [List.length_take]; omega
  have l2 : (y.take n).length = n := by rw [List.length_take]; omega
  refine rel_bind (R := fun a b => a = x.take n ∧ b = y.take n) ⟨stepRel_rfl, rfl, rfl⟩ fun a b hab => ?_
  obtain ⟨rfl, rfl⟩ := hab
  rw [l1, l2]
  refine rel_same fun _ => rel_pure ⟨e1, ?_, fun i hi hi' => ?_⟩
  · rw [List.length_map, List.length_map, l1, l2]
  · rw [List.getElem_map, List.getElem_map]
    exact ⟨rfl, fun h => nomatch h⟩

/-- Candidates that differ in values of bonuses that are not set. -/
structure SameV2 (a b : CandidateV2) : Prop where
  bonuses : SameCells a.bonuses b.bonuses
  base : a.base = b.base
  first : a.initialCharClass = b.initialCharClass
  opts : a.opts = b.opts

theorem rel_bonusAt (U : Unicode) (a b : CandidateV2) (i : Nat) (S : Scheme) (h : SameV2 a b) :
    Rel c (fun x y => SameV2 x.1 y.1 ∧ x.2 = y.2) (bonusAt U a i S) (bonusAt U b i S) := by
  obtain ⟨⟨hl, hc⟩, hb, hf, ho⟩ := h
  refine rel_bind (R := fun x y => SameCell x y ∧ i < a.bonuses.length) ⟨stepRel_rfl, ?_⟩ fun x y e => ?_
  · rw [res_get, res_get]
    by_cases hi : i < a.bonuses.length
    · rw [getR_of_lt hi, getR_of_lt (hl ▸ hi)]
      exact ⟨hc i hi _, hi⟩
    · rw [getR, getR, List.getElem?_eq_none (by omega), List.getElem?_eq_none (by omega)]
      trivial
  obtain ⟨⟨e1, e2⟩, hi⟩ := e
  have hi' : i < b.bonuses.length := by omega
  by_cases hs : x.isSet = true
  · rw [if_pos hs, if_pos (e1 ▸ hs)]
    refine rel_pure ⟨⟨⟨hl, hc⟩, hb, hf, ho⟩, ?_⟩
    show (x.value : Int) = (y.value : Int)
    rw [e2 hs]
  have hs' : ¬ y.isSet = true := e1 ▸ hs
  rw [if_neg hs, if_neg hs', hf, hb]
  dsimp only
  refine rel_ite (fun _ => rel_same fun cl => rel_same fun ch => ?_) fun _ => rel_same fun cl => rel_same fun ch => ?_
  all_goals
    refine rel_bind (R := fun x y => x = a.bonuses.set i (BonusCell.set (computeBonus cl (charClass U ch S) S)) ∧
      y = b.bonuses.set i (BonusCell.set (computeBonus cl (charClass U ch S) S))) ⟨stepRel_rfl, ?_⟩ fun x y e => ?_
    · rw [res_set, res_set, setR_of_lt hi, setR_of_lt hi']
      exact ⟨rfl, rfl⟩
    obtain ⟨rfl, rfl⟩ := e
    refine rel_pure ⟨⟨⟨?_, fun j hj hj' => ?_⟩, rfl, rfl, ho⟩, rfl⟩
    · show (a.bonuses.set i _).length = (b.bonuses.set i _).length
      rw [List.length_set, List.length_set, hl]
    · show SameCell ((a.bonuses.set i _)[j]'hj) ((b.bonuses.set i _)[j]'hj')
      rw [List.getElem_set, List.getElem_set]
      split
      · exact ⟨rfl, fun _ => rfl⟩
      · exact hc j _ _

/-! ## The passes of `FzfV2` -/

theorem rel_matchesLoop (p : Pattern) (s : Candidate) (o : CandidateOpts) : ∀ (fuel : Nat) (l l' : List Nat) (i last : Nat),
    l.take i = l'.take i → l.length = p.charLen → l'.length = p.charLen →
    Rel c (fun x y => x.2 = y.2 ∧ x.1.length = y.1.length ∧ (x.2.isSome → x.1 = y.1)) (matchesLoop p s o fuel l i last)
      (matchesLoop p s o fuel l' i last) := by
  intro fuel
  induction fuel with
  | zero => exact fun l l' i last _ _ _ => ⟨stepRel_rfl, trivial⟩
  | succ fuel ih =>
    intro l l' i last h h1 h2
    refine rel_same fun _ => rel_same' fun ch hch => rel_same fun found => ?_
    cases found with
    | none => exact rel_pure ⟨rfl, h1.trans h2.symm, fun h => nomatch h⟩
    | some off =>
      have hi : i < p.charLen := by
        have : p.text[i]? = some ch := by
          have : getR p.text i = .ok ch := hch
          exact getR_eq_ok.1 this
        exact (List.getElem?_eq_some_iff.1 this).1
      refine rel_bind (rel_set_take l l' i off h (by omega) (by omega)) fun x y e => ?_
      obtain ⟨e1, e2, e3⟩ := e
      refine rel_ite (fun _ => ih x y (i + 1) (off + 1) e1 (by omega) (by omega)) fun hn => ?_
      refine rel_pure ⟨rfl, by show x.length = y.length; omega, fun _ => ?_⟩
      rw [List.take_of_length_le (by omega), List.take_of_length_le (by omega)] at e1
      exact e1

theorem rel_v2Matches {f : Nat} (hc : c → f = 0) (l l' : List Nat) (p : Pattern) (s : Candidate) (o : CandidateOpts)
    (h : l'.length = max f l.length) :
    Rel c (fun x y => y.1.length = max f x.1.length ∧ x.2.1.length = y.2.1.length ∧ x.2.2 = y.2.2 ∧
      (x.2.2.isSome → x.2.1 = y.2.1)) (v2Matches l p s o) (v2Matches l' p s o) := by
  refine rel_bind (rel_indicesAlloc hc l l' p.charLen h) fun x y e => ?_
  obtain ⟨x1, x2⟩ := x
  obtain ⟨y1, y2⟩ := y
  obtain ⟨e1, e2, e3⟩ := e
  refine rel_bind (rel_matchesLoop p s o (p.charLen + 1) x2 y2 0 0 rfl e2 e3) fun a b hab => ?_
  obtain ⟨a1, a2⟩ := a
  obtain ⟨b1, b2⟩ := b
  obtain ⟨h1, h2, h3⟩ := hab
  dsimp only at h1 h2 h3 e1 ⊢
  subst h1
  cases a2 with
  | none => exact rel_pure ⟨e1, h2, rfl, fun h => nomatch h⟩
  | some i =>
    exact rel_same fun _ => rel_same fun _ => rel_same fun _ => rel_same fun last => rel_pure ⟨e1, h2, rfl, fun _ => h3 rfl⟩

/-- Rows that agree, with candidates that differ in values of bonuses that are not set. -/
structure SameFirst (a b : FirstRowState) : Prop where
  scores : a.scores = b.scores
  consecutives : a.consecutives = b.consecutives
  candidate : SameV2 a.candidate b.candidate
  maxScore : a.maxScore = b.maxScore
  prevScore : a.prevScore = b.prevScore
  maxScoreCol : a.maxScoreCol = b.maxScoreCol
  column : a.column = b.column
  penalty : a.penalty = b.penalty

theorem rel_firstRowLoop (U : Unicode) (S : Scheme) : ∀ (l : List Nat) (a b : FirstRowState), SameFirst a b →
    Rel c SameFirst (firstRowLoop U S l a) (firstRowLoop U S l b) := by
  intro l
  induction l with
  | nil => exact fun a b h => rel_pure h
  | cons off l ih =>
    intro a b h
    obtain ⟨a1, a2, a3, a4, a5, a6, a7, a8⟩ := a
    obtain ⟨b1, b2, b3, b4, b5, b6, b7, b8⟩ := b
    obtain ⟨h1, h2, h3, h4, h5, h6, h7, h8⟩ := h
    dsimp only at h1 h2 h3 h4 h5 h6 h7 h8
    subst h1 h2 h4 h5 h6 h7 h8
    refine rel_same fun r => rel_same fun cons => ?_
    refine rel_bind (rel_bonusAt U a3 b3 off S h3) fun x y e => ?_
    obtain ⟨x1, x2⟩ := x
    obtain ⟨y1, y2⟩ := y
    obtain ⟨e1, e2⟩ := e
    dsimp only at e1 e2 ⊢
    subst e2
    refine rel_same fun sc => ih _ _ ⟨rfl, rfl, e1, rfl, rfl, rfl, rfl, rfl⟩

theorem rel_scoreFirstRow (U : Unicode) (r : List Score) (k : List Nat) (ch : Char) (a b : CandidateV2) (S : Scheme)
    (h : SameV2 a b) :
    Rel c (fun x y => x.1 = y.1 ∧ x.2.1 = y.2.1 ∧ SameV2 x.2.2.1 y.2.2.1 ∧ x.2.2.2 = y.2.2.2)
      (scoreFirstRow U r k ch a S) (scoreFirstRow U r k ch b S) := by
  unfold scoreFirstRow
  rw [h.base, h.opts]
  refine rel_same fun offs => ?_
  refine rel_bind (rel_firstRowLoop U S offs _ _ ⟨rfl, rfl, h, rfl, rfl, rfl, rfl, rfl⟩) fun a b e => ?_
  obtain ⟨a1, a2, a3, a4, a5, a6, a7, a8⟩ := a
  obtain ⟨b1, b2, b3, b4, b5, b6, b7, b8⟩ := b
  obtain ⟨h1, h2, h3, h4, h5, h6, h7, h8⟩ := e
  dsimp only at h1 h2 h3 h4 h5 h6 h7 h8
  subst h1 h2 h4 h5 h6 h7 h8
  exact rel_same fun x => rel_pure ⟨rfl, rfl, h3, rfl⟩

/-- Rows that agree, with candidates that differ in values of bonuses that are not set. -/
structure SameRow (a b : RowState) : Prop where
  scores : a.scores = b.scores
  consecutives : a.consecutives = b.consecutives
  candidate : SameV2 a.candidate b.candidate
  maxScore : a.maxScore = b.maxScore
  maxScoreCell : a.maxScoreCell = b.maxScoreCell
  column : a.column = b.column
  penalty : a.penalty = b.penalty

theorem rel_rowLoop (U : Unicode) (S : Scheme) (w i : Nat) (ps : List Score) (pc : List Nat) : ∀ (l : List Nat) (a b : RowState),
    SameRow a b → Rel c SameRow (rowLoop U S w i ps pc l a) (rowLoop U S w i ps pc l b) := by
  intro l
  induction l with
  | nil => exact fun a b h => rel_pure h
  | cons off l ih =>
    intro a b h
    obtain ⟨a1, a2, a3, a4, a5, a6, a7⟩ := a
    obtain ⟨b1, b2, b3, b4, b5, b6, b7⟩ := b
    obtain ⟨h1, h2, h3, h4, h5, h6, h7⟩ := h
    dsimp only at h1 h2 h3 h4 h5 h6 h7
    subst h1 h2 h4 h5 h6 h7
    refine rel_same fun r => rel_same fun j => rel_same fun left => rel_same fun j => rel_same fun up => ?_
    refine rel_bind (rel_bonusAt U a3 b3 off S h3) fun x y e => ?_
    obtain ⟨x1, x2⟩ := x
    obtain ⟨y1, y2⟩ := y
    obtain ⟨e1, e2⟩ := e
    dsimp only at e1 e2 ⊢
    subst e2
    refine rel_same fun j => rel_same fun pcv => ?_
    refine rel_jp (R := fun x y => SameV2 x.1 y.1 ∧ x.2 = y.2) (fun _ => ?_) (fun _ => rel_pure ⟨e1, rfl⟩) fun x y e => ?_
    · refine rel_same fun j => ?_
      refine rel_bind (rel_bonusAt U x1 y1 j S e1) fun x y e => ?_
      obtain ⟨x1, x2⟩ := x
      obtain ⟨y1, y2⟩ := y
      obtain ⟨e1, e2⟩ := e
      dsimp only at e1 e2 ⊢
      subst e2
      exact rel_ite (fun _ => rel_pure ⟨e1, rfl⟩) fun _ => rel_pure ⟨e1, rfl⟩
    obtain ⟨x1, x2, x3⟩ := x
    obtain ⟨y1, y2, y3⟩ := y
    obtain ⟨e1, e2⟩ := e
    dsimp only at e1 e2 ⊢
    obtain ⟨e2, e3⟩ := Prod.mk.inj e2
    subst e2 e3
    refine rel_jp (R := fun x y => SameV2 x.1 y.1 ∧ x.2 = y.2) (fun _ => ?_) (fun _ => rel_pure ⟨e1, rfl⟩) fun x y e => ?_
    · refine rel_bind (rel_bonusAt U x1 y1 off S e1) fun x y e => ?_
      obtain ⟨x1, x2⟩ := x
      obtain ⟨y1, y2⟩ := y
      obtain ⟨e1, e2⟩ := e
      dsimp only at e1 e2 ⊢
      subst e2
      exact rel_pure ⟨e1, rfl⟩
    obtain ⟨x1, x2, x3⟩ := x
    obtain ⟨y1, y2, y3⟩ := y
    obtain ⟨e1, e2⟩ := e
    dsimp only at e1 e2 ⊢
    obtain ⟨e2, e3⟩ := Prod.mk.inj e2
    subst e2 e3
    exact rel_same fun co => rel_same fun sc => ih _ _ ⟨rfl, rfl, e1, rfl, rfl, rfl, rfl⟩

theorem rel_remainingRowsLoop (U : Unicode) (S : Scheme) (p : Pattern) (mo : List Nat) : ∀ (n i : Nat) (sc : Matrix Score)
    (co : Matrix Nat) (a b : CandidateV2) (best : Score) (cell : Nat), SameV2 a b →
    Rel c (fun x y => x.1 = y.1 ∧ x.2.1 = y.2.1 ∧ SameV2 x.2.2.1 y.2.2.1 ∧ x.2.2.2 = y.2.2.2)
      (remainingRowsLoop U S p mo n i sc co a best cell) (remainingRowsLoop U S p mo n i sc co b best cell) := by
  intro n
  induction n with
  | zero => exact fun i sc co a b best cell h => rel_pure ⟨rfl, rfl, h, rfl⟩
  | succ n ih =>
    intro i sc co a b best cell h
    unfold remainingRowsLoop
    rw [h.base, h.opts]
    refine rel_same fun _ => rel_same fun ch => rel_same fun _ => rel_same fun r1 => rel_same fun _ => rel_same fun r2 =>
      rel_same fun fst => rel_same fun offs => ?_
    refine rel_bind (rel_rowLoop U S _ _ _ _ offs _ _ ⟨rfl, rfl, h, rfl, rfl, rfl, rfl⟩) fun a b e => ?_
    obtain ⟨a1, a2, a3, a4, a5, a6, a7⟩ := a
    obtain ⟨b1, b2, b3, b4, b5, b6, b7⟩ := b
    obtain ⟨h1, h2, h3, h4, h5, h6, h7⟩ := e
    dsimp only at h1 h2 h3 h4 h5 h6 h7
    subst h1 h2 h4 h5 h6 h7
    exact rel_same fun r => ih _ _ _ _ _ _ _ h3

theorem rel_v2Score {f g : Nat} (hf : c → f = 0) (hg : c → g = 0) (U : Unicode) (l l' : List Score) (k k' : List Nat)
    (p : Pattern) (a b : CandidateV2) (mo : List Nat) (S : Scheme) (hl : l'.length = max f l.length)
    (hk : k'.length = max g k.length) (h : SameV2 a b) :
    Rel c (fun x y => y.1.length = max f x.1.length ∧ y.2.1.length = max g x.2.1.length ∧ x.2.2.1 = y.2.2.1 ∧
      x.2.2.2.1 = y.2.2.2.1 ∧ SameV2 x.2.2.2.2.1 y.2.2.2.2.1 ∧ x.2.2.2.2.2 = y.2.2.2.2.2)
      (v2Score U l k p a mo S) (v2Score U l' k' p b mo S) := by
  unfold v2Score
  rw [h.base]
  refine rel_bind (rel_matrixAlloc hf 0 l l' _ _ hl) fun x y e => ?_
  obtain ⟨x1, x2⟩ := x
  obtain ⟨y1, y2⟩ := y
  obtain ⟨e1, e2⟩ := e
  dsimp only at e1 e2 ⊢
  subst e2
  refine rel_bind (rel_matrixAlloc hg 0 k k' _ _ hk) fun x y e => ?_
  obtain ⟨z1, z2⟩ := x
  obtain ⟨w1, w2⟩ := y
  obtain ⟨e3, e2⟩ := e
  dsimp only at e3 e2 ⊢
  subst e2
  refine rel_same fun row => rel_same fun crow => rel_same fun _ => rel_same fun ch => ?_
  refine rel_bind (rel_scoreFirstRow U row crow ch a b S h) fun x y e => ?_
  obtain ⟨r1, r2, r3, r4, r5⟩ := x
  obtain ⟨q1, q2, q3, q4, q5⟩ := y
  obtain ⟨i1, i2, i3, i4⟩ := e
  dsimp only at i1 i2 i3 i4 ⊢
  obtain ⟨i4, i5⟩ := Prod.mk.inj i4
  subst i1 i2 i4 i5
  refine rel_bind (rel_remainingRowsLoop U S p mo _ _ _ _ r3 q3 _ _ i3) fun x y e => ?_
  obtain ⟨r1, r2, r3, r4, r5⟩ := x
  obtain ⟨q1, q2, q3, q4, q5⟩ := y
  obtain ⟨i1, i2, i3, i4⟩ := e
  dsimp only at i1 i2 i3 i4 ⊢
  obtain ⟨i4, i5⟩ := Prod.mk.inj i4
  subst i1 i2 i4 i5
  exact rel_pure ⟨e1, e3, rfl, rfl, i3, rfl⟩

/-! ## Ranges -/

/-- The same ranges of this call, behind those of earlier calls. -/
def behind (pre : List Range) (m : MatchedRanges) : MatchedRanges := ⟨pre ++ m.ranges, pre.length⟩

theorem behind_getElem? (pre : List Range) (m : List Range) (i : Nat) : (pre ++ m)[pre.length + i]? = m[i]? := by
  rw [List.getElem?_append_right (Nat.le_add_right _ _), Nat.add_sub_cancel_left]

theorem behind_getAt (pre m : List Range) (i : Nat) : (behind pre ⟨m, 0⟩).getAt i = MatchedRanges.getAt ⟨m, 0⟩ i := by
  simp only [MatchedRanges.getAt, behind, getR, behind_getElem?, Nat.zero_add]

theorem behind_setAt (pre m : List Range) (i : Nat) (r : Range) :
    (behind pre ⟨m, 0⟩).setAt i r = (MatchedRanges.setAt ⟨m, 0⟩ i r).mapR (behind pre) := by
  simp only [MatchedRanges.setAt, behind, setR, List.length_append, Nat.zero_add]
  by_cases h : i < m.length
  · rw [if_pos h, if_pos (by omega)]
    simp [behind]
  · rw [if_neg h, if_neg (by omega)]
    rfl

theorem behind_insertAt (pre m : List Range) (i : Nat) (r : Range) :
    (behind pre ⟨m, 0⟩).insertAt i r = (MatchedRanges.insertAt ⟨m, 0⟩ i r).mapR (behind pre) := by
  simp only [MatchedRanges.insertAt, behind, insertAtR, List.length_append, Nat.zero_add]
  by_cases h : i ≤ m.length
  · rw [if_pos h, if_pos (by omega)]
    have e1 : pre.take (pre.length + i) = pre := List.take_of_length_le (by omega)
    have e2 : pre.drop (pre.length + i) = [] := List.drop_eq_nil_of_le (by omega)
    simp [behind, List.take_append, List.drop_append, e1, e2]
  · rw [if_neg h, if_neg (by omega)]
    rfl

theorem behind_remove (pre m : List Range) (i : Nat) :
    (behind pre ⟨m, 0⟩).remove i = (MatchedRanges.remove ⟨m, 0⟩ i).mapR (behind pre) := by
  simp only [MatchedRanges.remove, behind, removeR, List.length_append, Nat.zero_add]
  by_cases h : i < m.length
  · rw [if_pos h, if_pos (by omega)]
    have e1 : pre.length + i + 1 - pre.length = i + 1 := by omega
    have e2 : pre.drop (pre.length + i + 1) = [] := List.drop_eq_nil_of_le (by omega)
    have e3 : pre.take (pre.length + i) = pre := List.take_of_length_le (by omega)
    simp [behind, List.take_append, List.drop_append, e1, e2, e3]
  · rw [if_neg h, if_neg (by omega)]
    rfl

theorem setAt_initialLen (m : List Range) (i : Nat) (r : Range) :
    MatchedRanges.setAt ⟨m, 0⟩ i r = (setR m i r).mapR (fun l => ⟨l, 0⟩) := by
  simp only [MatchedRanges.setAt, Nat.zero_add]
  cases setR m i r <;> rfl

theorem behind_insert (pre m : List Range) (r : Range) :
    (behind pre ⟨m, 0⟩).insert r = (MatchedRanges.insert ⟨m, 0⟩ r).mapR (behind pre) := by
  have e0 : (behind pre ⟨m, 0⟩).ranges = pre ++ m := rfl
  have e1 : (behind pre ⟨m, 0⟩).initialLen = pre.length := rfl
  have sr : ∀ (i j : Nat) (x : Range), ((behind pre ⟨m, 0⟩).setAt i x >>= fun m' => m'.remove j) =
      (MatchedRanges.setAt ⟨m, 0⟩ i x >>= fun m' => m'.remove j).mapR (behind pre) := fun i j x => by
    rw [behind_setAt, setAt_initialLen]
    cases setR m i x with
    | panic => rfl
    | ok l => exact behind_remove pre l j
  unfold MatchedRanges.insert
  rw [e0, e1, sliceFromR_of_le (by rw [List.length_append]; omega), List.drop_left, sliceFromR_of_le (Nat.zero_le _), List.drop_zero,
    Res.bind_ok, Res.bind_ok]
  cases binarySearchStart m r.start with
  | panic => rfl
  | ok i =>
  rw [Res.bind_ok, Res.bind_ok]
  cases i with
  | found i =>
    dsimp only
    rw [behind_getAt, behind_getElem?, Nat.zero_add]
    cases MatchedRanges.getAt ⟨m, 0⟩ i with
    | panic => rfl
    | ok x =>
      rw [Res.bind_ok, Res.bind_ok]
      split
      · rfl
      · cases m[i + 1]? with
        | none => exact behind_setAt ..
        | some y =>
          dsimp only
          split
          · exact sr ..
          · exact behind_setAt ..
  | notFound i =>
    dsimp only
    split
    · rw [behind_getElem?]
      cases m[0]? with
      | none =>
        show Res.ok _ = Res.ok _
        simp [behind, MatchedRanges.push]
      | some y =>
        dsimp only
        split
        · exact behind_setAt ..
        · exact behind_insertAt ..
    next hi =>
    have el : (behind pre ⟨m, 0⟩).len = .ok m.length := by
      rw [MatchedRanges.len, e0, e1, List.length_append, subR_of_le (by omega), Nat.add_sub_cancel_left]
    have el' : MatchedRanges.len ⟨m, 0⟩ = .ok m.length := by
      rw [MatchedRanges.len, subR_of_le (Nat.zero_le _), Nat.sub_zero]
    rw [el, el', Res.bind_ok, Res.bind_ok]
    split
    next hm =>
      have hm : m ≠ [] := fun h => by
        subst h
        have : i = 0 := by simpa using hm
        subst this
        exact hi rfl
      have hl : (pre ++ m).getLast? = m.getLast? := by
        rw [List.getLast?_append_of_ne_nil _ hm]
      rw [hl]
      cases m.getLast? with
      | none => rfl
      | some y =>
        rw [Res.unwrap_some, Res.bind_ok, Res.bind_ok]
        split
        · show Res.ok _ = Res.ok _
          simp [behind, List.dropLast_append_of_ne_nil hm]
        · show Res.ok _ = Res.ok _
          simp [behind, MatchedRanges.push]
    · cases subR i 1 with
      | panic => rfl
      | ok j =>
        rw [Res.bind_ok, Res.bind_ok, behind_getAt, behind_getAt]
        cases MatchedRanges.getAt ⟨m, 0⟩ j with
        | panic => rfl
        | ok x =>
          rw [Res.bind_ok, Res.bind_ok]
          cases MatchedRanges.getAt ⟨m, 0⟩ i with
          | panic => rfl
          | ok y =>
            rw [Res.bind_ok, Res.bind_ok]
            cases decide (r.start ≤ x.stop) <;> cases decide (r.stop ≥ y.start) <;> dsimp only
            · exact behind_insertAt ..
            · exact behind_setAt ..
            · split
              · exact behind_setAt ..
              · rfl
            · exact sr ..

/-- The same ranges of this call, behind possibly different ones of earlier calls. -/
def SameRanges (pre pre' : List Range) (a b : MatchedRanges) : Prop := ∃ m, a = behind pre ⟨m, 0⟩ ∧ b = behind pre' ⟨m, 0⟩

theorem rel_insert {pre pre' : List Range} {a b : MatchedRanges} (h : SameRanges pre pre' a b) (r : Range) :
    Rel c (SameRanges pre pre') (insert a r) (insert b r) := by
  obtain ⟨m, rfl, rfl⟩ := h
  have e : ∀ pre : List Range, (behind pre ⟨m, 0⟩).ranges.drop (behind pre ⟨m, 0⟩).initialLen = m := fun pre => List.drop_left
  refine ⟨?_, ?_⟩
  · show StepRel c (_ + _) (_ + _)
    rw [e, e]
    exact stepRel_rfl
  · rw [res_insert, res_insert, behind_insert, behind_insert]
    cases MatchedRanges.insert ⟨m, 0⟩ r with
    | ok x => exact ⟨x.ranges, rfl, rfl⟩
    | panic => trivial

/-- States of `compute_score` that differ in the ranges of earlier calls. -/
structure SameState (pre pre' : List Range) (a b : ScoreState) : Prop where
  ranges : SameRanges pre pre' a.ranges b.ranges
  rest : { a with ranges := b.ranges } = b

theorem rel_computeScoreLoop {pre pre' : List Range} (U : Unicode) (R : Bool) (eq : CharEq) (S : Scheme) (start : Nat) :
    ∀ (l : List Char) (a b : ScoreState), SameState pre pre' a b →
    Rel c (SameState pre pre') (computeScoreLoop U R eq S start l a) (computeScoreLoop U R eq S start l b) := by
  intro l
  induction l with
  | nil => exact fun a b h => rel_pure h
  | cons ch l ih =>
    intro a b h
    obtain ⟨a1, a2, a3, a4, a5, a6, a7, a8, a9, ar⟩ := a
    obtain ⟨b1, b2, b3, b4, b5, b6, b7, b8, b9, br⟩ := b
    obtain ⟨hr, he⟩ := h
    simp only [ScoreState.mk.injEq] at he hr
    obtain ⟨rfl, rfl, rfl, rfl, rfl, rfl, rfl, rfl, rfl, -⟩ := he
    refine rel_same fun _ => ?_
    dsimp only
    refine rel_ite (fun _ => ?_) fun _ => ih _ _ ⟨hr, rfl⟩
    refine rel_jp (R := SameRanges pre pre') (fun _ => rel_insert hr _) (fun _ => rel_pure hr) fun x y e => ?_
    refine rel_same fun _ => ?_
    cases a7 with
    | nil => exact rel_pure ⟨e, rfl⟩
    | cons nx rest => exact ih _ _ ⟨e, rfl⟩

/-- Ranges that differ in those of earlier calls, and the same of everything else. -/
abbrev SameScored (pre pre' : List Range) {α : Type} (x y : MatchedRanges × α) : Prop := SameRanges pre pre' x.1 y.1 ∧ x.2 = y.2

theorem rel_computeScore {pre pre' : List Range} (U : Unicode) (R : Bool) (p : Pattern) (s : Candidate) (r : Range) (eq : CharEq)
    (S : Scheme) {a b : MatchedRanges} (h : SameRanges pre pre' a b) :
    Rel c (SameScored pre pre') (computeScore U R p s r eq S a) (computeScore U R p s r eq S b) := by
  refine rel_jp_same fun off => rel_jp_same fun cl => rel_same fun _ => rel_same fun ch => rel_same fun sl => rel_same fun chars => ?_
  refine rel_bind (rel_computeScoreLoop U R eq S off chars _ _ ⟨h, rfl⟩) fun x y e => rel_pure ⟨e.ranges, ?_⟩
  have := e.rest
  rw [← this]

theorem rel_finishExact {pre pre' : List Range} (U : Unicode) (R : Bool) (p : Pattern) (s : Candidate) (r : Range) (eq : CharEq)
    (S : Scheme) {a b : MatchedRanges} (h : SameRanges pre pre' a b) :
    Rel c (SameScored pre pre') (finishExact U R p s r eq S a) (finishExact U R p s r eq S b) := by
  refine rel_bind (rel_computeScore U false p s r eq S h) fun x y e => ?_
  obtain ⟨x1, x2⟩ := x
  obtain ⟨y1, y2⟩ := y
  obtain ⟨e1, e2⟩ := e
  dsimp only at e1 e2 ⊢
  subst e2
  exact rel_jp (R := SameRanges pre pre') (fun _ => rel_same fun r => rel_insert e1 r) (fun _ => rel_pure e1)
    fun x y e => rel_pure ⟨e, rfl⟩

theorem rel_exactMatch {pre pre' : List Range} (U : Unicode) (R : Bool) (p : Pattern) (s : Candidate) (eq : CharEq)
    (S : Scheme) {a b : MatchedRanges} (h : SameRanges pre pre' a b) :
    Rel c (SameScored pre pre') (exactMatch U R p s eq S a) (exactMatch U R p s eq S b) :=
  rel_ite (fun _ => rel_pure ⟨h, rfl⟩) fun _ => rel_same fun _ => rel_ite (fun _ => rel_pure ⟨h, rfl⟩) fun _ =>
    rel_finishExact U R p s _ eq S h

theorem rel_prefixMatch {pre pre' : List Range} (U : Unicode) (R : Bool) (p : Pattern) (s : Candidate) (eq : CharEq)
    (S : Scheme) {a b : MatchedRanges} (h : SameRanges pre pre' a b) :
    Rel c (SameScored pre pre') (prefixMatch U R p s eq S a) (prefixMatch U R p s eq S b) := by
  refine rel_ite (fun _ => rel_pure ⟨h, rfl⟩) fun _ => rel_same fun ig => ?_
  cases ig with
  | none => exact rel_pure ⟨h, rfl⟩
  | some n =>
    refine rel_same fun chars => rel_same fun rests => ?_
    rcases rests with _ | ⟨_ | ⟨x, xs⟩, ys⟩
    · exact rel_pure ⟨h, rfl⟩
    · exact rel_finishExact U R p s _ eq S h
    · exact rel_pure ⟨h, rfl⟩

theorem rel_suffixMatch {pre pre' : List Range} (U : Unicode) (R : Bool) (p : Pattern) (s : Candidate) (eq : CharEq)
    (S : Scheme) {a b : MatchedRanges} (h : SameRanges pre pre' a b) :
    Rel c (SameScored pre pre') (suffixMatch U R p s eq S a) (suffixMatch U R p s eq S b) := by
  refine rel_ite (fun _ => rel_pure ⟨h, rfl⟩) fun _ => rel_same fun ig => ?_
  cases ig with
  | none => exact rel_pure ⟨h, rfl⟩
  | some n =>
    refine rel_same fun up => rel_same fun sl => rel_same fun chars => rel_same fun rests => ?_
    rcases rests with _ | ⟨_ | ⟨x, xs⟩, ys⟩
    · exact rel_pure ⟨h, rfl⟩
    · exact rel_same fun start => rel_finishExact U R p s _ eq S h
    · exact rel_pure ⟨h, rfl⟩

theorem rel_equalMatch {pre pre' : List Range} (U : Unicode) (R : Bool) (p : Pattern) (s : Candidate) (eq : CharEq)
    (S : Scheme) {a b : MatchedRanges} (h : SameRanges pre pre' a b) :
    Rel c (SameScored pre pre') (equalMatch U R p s eq S a) (equalMatch U R p s eq S b) := by
  refine rel_ite (fun _ => rel_pure ⟨h, rfl⟩) fun _ => rel_same fun ig => ?_
  cases ig with
  | none => exact rel_pure ⟨h, rfl⟩
  | some n =>
    refine rel_ite (fun _ => rel_pure ⟨h, rfl⟩) fun _ => rel_same fun ig => ?_
    cases ig with
    | none => exact rel_pure ⟨h, rfl⟩
    | some k =>
      refine rel_same fun stop => rel_ite (fun _ => rel_pure ⟨h, rfl⟩) fun _ => rel_same fun sl => rel_same fun chars =>
        rel_same fun rests => ?_
      rcases rests with _ | ⟨xs, ys⟩
      · exact rel_pure ⟨h, rfl⟩
      · exact rel_ite (fun _ => rel_pure ⟨h, rfl⟩) fun _ => rel_finishExact U R p s _ eq S h

theorem rel_tracebackLoop {pre pre' : List Range} (sc : Matrix Score) (co : Matrix Nat) (s : Candidate) (start : Nat) :
    ∀ (fuel : Nat) (prefer : Bool) (cell col row : Nat) (a b : MatchedRanges), SameRanges pre pre' a b →
    Rel c (SameRanges pre pre') (tracebackLoop sc co s start fuel prefer cell col row a)
      (tracebackLoop sc co s start fuel prefer cell col row b) := by
  intro fuel
  induction fuel with
  | zero => exact fun _ _ _ _ _ _ _ => ⟨stepRel_rfl, trivial⟩
  | succ fuel ih =>
    intro prefer cell col row a b h
    refine rel_jp_same fun left => rel_jp_same fun up => rel_same fun here => rel_same fun _ => rel_same fun score => ?_
    refine rel_ite (fun _ => ?_) fun _ => ?_
    · refine rel_same fun off => rel_same fun ch => rel_bind (rel_insert h _) fun x y e => ?_
      exact rel_ite (fun _ => rel_pure e) fun _ => rel_same fun _ => rel_same fun _ => rel_same fun _ => ih _ _ _ _ _ _ e
    · exact rel_ite (fun _ => rel_pure h) fun _ => rel_same fun _ => rel_same fun _ => ih _ _ _ _ _ _ h

theorem rel_v2MatchedRanges {pre pre' : List Range} (sc : Matrix Score) (co : Matrix Nat) (cell : Nat) (s : Candidate)
    (start : Nat) {a b : MatchedRanges} (h : SameRanges pre pre' a b) :
    Rel c (SameRanges pre pre') (v2MatchedRanges sc co cell s start a) (v2MatchedRanges sc co cell s start b) :=
  rel_same fun _ => rel_same fun _ => rel_tracebackLoop sc co s start _ _ _ _ _ _ _ h

theorem rel_fuzzySingleChar {pre pre' : List Range} (U : Unicode) (R : Bool) (ch : Char) (s : Candidate) (o : CandidateOpts)
    (S : Scheme) {a b : MatchedRanges} (h : SameRanges pre pre' a b) :
    Rel c (SameScored pre pre') (fuzzySingleChar U R ch s o S a) (fuzzySingleChar U R ch s o S b) :=
  rel_same fun _ => rel_same fun _ => rel_ite (fun _ => rel_pure ⟨h, rfl⟩) fun _ =>
    rel_jp (R := SameRanges pre pre') (fun _ => rel_same fun _ => rel_same fun _ => rel_insert h _) (fun _ => rel_pure h)
      fun _ _ e => rel_pure ⟨e, rfl⟩

/-! ## Calls -/

/-- Metrics that differ in what their buffers hold and, where longer than `F`, not in the lengths. -/
structure SameV1 (F : Spec.BufLens) (a b : FzfV1) : Prop where
  candidate : b.candidateSlab.length = max F.candidate a.candidateSlab.length
  cs : a.caseSensitivity = b.caseSensitivity
  normalization : a.candidateNormalization = b.candidateNormalization
  scheme : a.scoringScheme = b.scoringScheme

/-- Metrics that differ in what their buffers hold and, where longer than `F`, not in the lengths. -/
structure SameMV2 (F : Spec.BufLens) (a b : FzfV2) : Prop where
  candidate : b.candidateSlab.length = max F.candidate a.candidateSlab.length
  bonus : b.slab.bonus.length = max F.bonus a.slab.bonus.length
  indices : b.slab.matchedIndices.length = max F.indices a.slab.matchedIndices.length
  scores : b.slab.scoringMatrix.length = max F.scores a.slab.scoringMatrix.length
  consecutives : b.slab.consecutiveMatrix.length = max F.consecutives a.slab.consecutiveMatrix.length
  cs : a.caseSensitivity = b.caseSensitivity
  normalization : a.candidateNormalization = b.candidateNormalization
  scheme : a.scoringScheme = b.scoringScheme

/-- What two runs of a call return. -/
abbrev SameOut {σ τ : Type} (Q : σ → τ → Prop) (pre pre' : List Range) {α : Type} (x : σ × MatchedRanges × α)
    (y : τ × MatchedRanges × α) : Prop :=
  Q x.1 y.1 ∧ SameRanges pre pre' x.2.1 y.2.1 ∧ x.2.2 = y.2.2

/-- The required methods cannot tell related metrics apart; the fuzzy one on some patterns. -/
structure SameImpl (c : Prop) {σ τ : Type} (I : TimedImpl σ) (J : TimedImpl τ) (Q : σ → τ → Prop) (on : Pattern → Prop) :
    Prop where
  alloc : ∀ a b s, Q a b → Rel c (fun x y => Q x.1 y.1 ∧ x.2 = y.2) (I.allocChars a s) (J.allocChars b s)
  charEq : ∀ a b p, Q a b → I.charEq a p = J.charEq b p
  scheme : ∀ a b, Q a b → I.scheme a = J.scheme b
  fuzzy : ∀ R a b p s pre pre' r r', on p → Q a b → SameRanges pre pre' r r' →
    Rel c (SameOut Q pre pre') (I.fuzzy R a p s r) (J.fuzzy R b p s r')

/-- The fuzzy patterns of the query are among these. -/
def FuzzyIn (on : Pattern → Prop) : FzfQuery → Prop
  | .notExtended p => on p
  | .extended cs => ∀ k ∈ cs, ∀ p ∈ k, p.matchType = .fuzzy → on p

theorem zeroLens {F : Spec.BufLens} (h : c → F = ⟨0, 0, 0, 0, 0⟩) (g : Spec.BufLens → Nat) (hg : g ⟨0, 0, 0, 0, 0⟩ = 0) :
    c → g F = 0 := fun hc => by rw [h hc, hg]

theorem sameImpl_v1 {F : Spec.BufLens} (h0 : c → F = ⟨0, 0, 0, 0, 0⟩) (U : Unicode) :
    SameImpl c (V1.impl U) (V1.impl U) (SameV1 F) (fun _ => True) where
  alloc a b s h := by
    refine rel_bind (rel_candidateAlloc (zeroLens h0 (·.candidate) rfl) _ _ s h.candidate) fun x y e => ?_
    exact rel_pure ⟨⟨e.1, h.cs, h.normalization, h.scheme⟩, e.2⟩
  charEq a b p h := by
    show Norm.charEq _ _ = Norm.charEq _ _
    rw [h.cs, h.normalization]
  scheme a b h := h.scheme
  fuzzy R a b p s pre pre' r r' _ h hr := by
    show Rel c _ (V1.fuzzy U R a p s r) (V1.fuzzy U R b p s r')
    unfold V1.fuzzy
    rw [h.cs, h.normalization, h.scheme]
    refine rel_same fun fwd => ?_
    cases fwd with
    | none => exact rel_pure ⟨h, hr, rfl⟩
    | some n =>
      refine rel_same fun back => rel_bind (rel_computeScore U R p s _ _ _ hr) fun x y e => ?_
      obtain ⟨x1, x2⟩ := x
      obtain ⟨y1, y2⟩ := y
      obtain ⟨e1, e2⟩ := e
      dsimp only at e1 e2 ⊢
      subst e2
      exact rel_pure ⟨h, e1, rfl⟩

theorem writeBack_length {α : Type} (v w : List α) : (writeBack v w).length = max v.length w.length := by
  rw [writeBack, List.length_append, List.length_drop]; omega

theorem sameImpl_v2 {F : Spec.BufLens} (h0 : c → F = ⟨0, 0, 0, 0, 0⟩) (U : Unicode) :
    SameImpl c (V2.impl U) (V2.impl U) (SameMV2 F) (fun _ => True) where
  alloc a b s h := by
    refine rel_bind (rel_candidateAlloc (zeroLens h0 (·.candidate) rfl) _ _ s h.candidate) fun x y e => ?_
    exact rel_pure ⟨⟨e.1, h.bonus, h.indices, h.scores, h.consecutives, h.cs, h.normalization, h.scheme⟩, e.2⟩
  charEq a b p h := by
    show Norm.charEq _ _ = Norm.charEq _ _
    rw [h.cs, h.normalization]
  scheme a b h := h.scheme
  fuzzy R a b p s pre pre' r r' _ h hr := by
    show Rel c _ (V2.fuzzy U R a p s r) (V2.fuzzy U R b p s r')
    unfold V2.fuzzy
    rw [h.cs, h.normalization, h.scheme]
    refine rel_ite (fun _ => ?_) fun _ => ?_
    · refine rel_same fun _ => rel_same fun ch => rel_bind (rel_fuzzySingleChar U R ch s _ _ hr) fun x y e => ?_
      obtain ⟨x1, x2⟩ := x
      obtain ⟨y1, y2⟩ := y
      obtain ⟨e1, e2⟩ := e
      dsimp only at e1 e2 ⊢
      subst e2
      exact rel_pure ⟨h, e1, rfl⟩
    refine rel_bind (rel_v2Matches (zeroLens h0 (·.indices) rfl) _ _ p s _ h.indices) fun x y e => ?_
    obtain ⟨x1, x2, x3⟩ := x
    obtain ⟨y1, y2, y3⟩ := y
    obtain ⟨e1, e2, e3, e4⟩ := e
    dsimp only at e1 e2 e3 e4 ⊢
    subst e3
    cases x3 with
    | none =>
      refine rel_pure ⟨⟨h.candidate, h.bonus, ?_, h.scores, h.consecutives, rfl, rfl, rfl⟩, hr, rfl⟩
      show (writeBack _ _).length = max _ (writeBack _ _).length
      rw [writeBack_length, writeBack_length]; omega
    | some last =>
      have e4 := e4 rfl
      subst e4
      refine rel_same fun fst => rel_jp_same fun start => rel_jp_same fun cl => rel_same fun base => ?_
      refine rel_bind (rel_bonusAlloc (zeroLens h0 (·.bonus) rfl) _ _ base.charLen h.bonus) fun x y e => ?_
      obtain ⟨z1, z2⟩ := x
      obtain ⟨w1, w2⟩ := y
      obtain ⟨g1, g2⟩ := e
      dsimp only at g1 g2 ⊢
      refine rel_same fun mo => ?_
      refine rel_bind (rel_v2Score (zeroLens h0 (·.scores) rfl) (zeroLens h0 (·.consecutives) rfl) U _ _ _ _ p _ _ mo _ h.scores
        h.consecutives ⟨g2, rfl, rfl, rfl⟩) fun x y e => ?_
      obtain ⟨i1, i2, i3, i4, i5, i6, i7⟩ := x
      obtain ⟨j1, j2, j3, j4, j5, j6, j7⟩ := y
      obtain ⟨k1, k2, k3, k4, k5, k6⟩ := e
      dsimp only at k1 k2 k3 k4 k5 k6 ⊢
      obtain ⟨k6, k7⟩ := Prod.mk.inj k6
      subst k3 k4 k6 k7
      rw [k5.base]
      refine rel_jp (R := SameRanges pre pre') (fun _ => rel_v2MatchedRanges _ _ _ _ _ hr) (fun _ => rel_pure hr) fun x y e => ?_
      refine rel_pure ⟨⟨h.candidate, ?_, ?_, ?_, ?_, rfl, rfl, rfl⟩, e, rfl⟩
      · show (writeBack _ _).length = max _ (writeBack _ _).length
        have := k5.bonuses.1
        rw [writeBack_length, writeBack_length]; omega
      · show (writeBack _ _).length = max _ (writeBack _ _).length
        rw [writeBack_length, writeBack_length]; omega
      · show (writeBack _ _).length = max _ (writeBack _ _).length
        rw [writeBack_length, writeBack_length]; omega
      · show (writeBack _ _).length = max _ (writeBack _ _).length
        rw [writeBack_length, writeBack_length]; omega

variable {σ τ : Type} {I : TimedImpl σ} {J : TimedImpl τ} {Q : σ → τ → Prop} {on : Pattern → Prop}

theorem rel_score (hI : SameImpl c I J Q on) (U : Unicode) (R : Bool) {a : σ} {b : τ} (p : Pattern) (s : Candidate) {pre pre' : List Range}
    {r r' : MatchedRanges} (ho : p.matchType = .fuzzy → on p) (h : Q a b) (hr : SameRanges pre pre' r r') :
    Rel c (SameOut Q pre pre') (I.score U R a p s r) (J.score U R b p s r') := by
  have fin : ∀ (x : σ × MatchedRanges × Option Score) (y : τ × MatchedRanges × Option Score), SameOut Q pre pre' x y →
      Rel c (SameOut Q pre pre') (match x.2.2.isSome, p.isInverse with
        | true, false => (pure (x.1, x.2.1, x.2.2) : Timed _)
        | false, true => pure (x.1, x.2.1, some 0)
        | _, _ => pure (x.1, x.2.1, none)) (match y.2.2.isSome, p.isInverse with
        | true, false => (pure (y.1, y.2.1, y.2.2) : Timed _)
        | false, true => pure (y.1, y.2.1, some 0)
        | _, _ => pure (y.1, y.2.1, none)) := by
    intro x y e
    obtain ⟨x1, x2, x3⟩ := x
    obtain ⟨y1, y2, y3⟩ := y
    obtain ⟨e1, e2, e3⟩ := e
    dsimp only at e1 e2 e3 ⊢
    subst e3
    cases x3 <;> cases p.isInverse <;> exact rel_pure ⟨e1, e2, rfl⟩
  unfold TimedImpl.score
  cases hm : p.matchType with
  | fuzzy => exact rel_bind (hI.fuzzy _ a b p s pre pre' r r' (ho hm) h hr) fin
  | exact =>
    rw [hI.charEq a b p h, hI.scheme a b h]
    exact rel_bind (rel_exactMatch U _ p s _ _ hr) fun u v k => rel_bind (R := SameOut Q pre pre') (rel_pure ⟨h, k.1, k.2⟩) fin
  | prefixExact =>
    rw [hI.charEq a b p h, hI.scheme a b h]
    exact rel_bind (rel_prefixMatch U _ p s _ _ hr) fun u v k => rel_bind (R := SameOut Q pre pre') (rel_pure ⟨h, k.1, k.2⟩) fin
  | suffixExact =>
    rw [hI.charEq a b p h, hI.scheme a b h]
    exact rel_bind (rel_suffixMatch U _ p s _ _ hr) fun u v k => rel_bind (R := SameOut Q pre pre') (rel_pure ⟨h, k.1, k.2⟩) fin
  | equalExact =>
    rw [hI.charEq a b p h, hI.scheme a b h]
    exact rel_bind (rel_equalMatch U _ p s _ _ hr) fun u v k => rel_bind (R := SameOut Q pre pre') (rel_pure ⟨h, k.1, k.2⟩) fin

theorem rel_scoreCondition (hI : SameImpl c I J Q on) (U : Unicode) (R : Bool) (s : Candidate) {pre pre' : List Range} :
    ∀ (l : List Pattern) (a : σ) (b : τ) (r r' : MatchedRanges), (∀ p ∈ l, p.matchType = .fuzzy → on p) → Q a b → SameRanges pre pre' r r' →
    Rel c (SameOut Q pre pre') (I.scoreCondition U R s l a r) (J.scoreCondition U R s l b r') := by
  intro l
  induction l with
  | nil => exact fun a b r r' _ h hr => rel_pure ⟨h, hr, rfl⟩
  | cons p l ih =>
    intro a b r r' ho h hr
    refine rel_same fun _ => rel_bind (rel_score hI U R p s (ho p (List.mem_cons_self ..)) h hr) fun x y e => ?_
    obtain ⟨x1, x2, x3⟩ := x
    obtain ⟨y1, y2, y3⟩ := y
    obtain ⟨e1, e2, e3⟩ := e
    dsimp only at e1 e2 e3 ⊢
    subst e3
    cases x3 with
    | none => exact ih _ _ _ _ (fun p hp => ho p (List.mem_cons_of_mem _ hp)) e1 e2
    | some v => exact rel_pure ⟨e1, e2, rfl⟩

theorem rel_scoreConditions (hI : SameImpl c I J Q on) (U : Unicode) (R : Bool) (s : Candidate) {pre pre' : List Range} :
    ∀ (l : List Condition) (a : σ) (b : τ) (r r' : MatchedRanges) (t : Score),
    (∀ k ∈ l, ∀ p ∈ k, p.matchType = .fuzzy → on p) → Q a b → SameRanges pre pre' r r' →
    Rel c (SameOut Q pre pre') (I.scoreConditions U R s l a r t) (J.scoreConditions U R s l b r' t) := by
  intro l
  induction l with
  | nil => exact fun a b r r' t _ h hr => rel_pure ⟨h, hr, rfl⟩
  | cons p l ih =>
    intro a b r r' t ho h hr
    refine rel_same fun _ => rel_bind (rel_scoreCondition hI U R s p a b r r' (ho p (List.mem_cons_self ..)) h hr) fun x y e => ?_
    obtain ⟨x1, x2, x3⟩ := x
    obtain ⟨y1, y2, y3⟩ := y
    obtain ⟨e1, e2, e3⟩ := e
    dsimp only at e1 e2 e3 ⊢
    subst e3
    cases x3 with
    | none => exact rel_pure ⟨e1, e2, rfl⟩
    | some v => exact ih _ _ _ _ _ (fun k hk => ho k (List.mem_cons_of_mem _ hk)) e1 e2

theorem rel_distance (hI : SameImpl c I J Q on) (U : Unicode) (R : Bool) {a : σ} {b : τ} (q : FzfQuery) (s : List Char)
    (buf buf' : List Range) (ho : FuzzyIn on q) (h : Q a b) :
    Rel c (fun x y => Q x.1 y.1 ∧ (∃ new, x.2.1 = buf ++ new ∧ y.2.1 = buf' ++ new) ∧ x.2.2 = y.2.2) (I.distance U R a q s buf)
      (J.distance U R b q s buf') := by
  refine rel_ite (fun _ => rel_pure ⟨h, ⟨[], by simp⟩, rfl⟩) fun _ => rel_same fun _ => ?_
  have fin : ∀ (x : σ × MatchedRanges × Option Score) (y : τ × MatchedRanges × Option Score), SameOut Q buf buf' x y →
      Rel c (fun x y => Q x.1 y.1 ∧ (∃ new, x.2.1 = buf ++ new ∧ y.2.1 = buf' ++ new) ∧ x.2.2 = y.2.2)
        (pure (x.1, x.2.1.ranges, x.2.2.map FzfDistance.fromScore) : Timed _)
        (pure (y.1, y.2.1.ranges, y.2.2.map FzfDistance.fromScore)) := by
    intro x y e
    obtain ⟨e1, ⟨m, e2, e2'⟩, e3⟩ := e
    refine rel_pure ⟨e1, ⟨m, ?_, ?_⟩, ?_⟩
    · show x.2.1.ranges = _
      rw [e2]; rfl
    · show y.2.1.ranges = _
      rw [e2']; rfl
    · show Option.map _ _ = Option.map _ _
      rw [e3]
  have hr : SameRanges buf buf' (MatchedRanges.ofVec buf) (MatchedRanges.ofVec buf') :=
    ⟨[], by simp [behind, MatchedRanges.ofVec], by simp [behind, MatchedRanges.ofVec]⟩
  refine rel_jp (R := fun x y => Q x.1 y.1 ∧ x.2 = y.2) (fun _ => rel_pure ⟨h, rfl⟩) (fun _ => ?_) fun x y e => ?_
  · exact rel_bind (hI.alloc a b s h) fun x y e => rel_pure ⟨e.1, by rw [e.2]⟩
  obtain ⟨x1, x2⟩ := x
  obtain ⟨y1, y2⟩ := y
  obtain ⟨e1, e2⟩ := e
  dsimp only at e1 e2 ⊢
  subst e2
  cases q with
  | notExtended p => exact rel_bind (hI.fuzzy R _ _ p _ buf buf' _ _ ho e1 hr) fin
  | extended cs => exact rel_bind (rel_scoreConditions hI U R _ cs _ _ _ _ 0 ho e1 hr) fin

/-- An `FzfV1` and an `FzfV2` with the same settings. -/
structure SameV1V2 (F : Spec.BufLens) (a : FzfV1) (b : FzfV2) : Prop where
  candidate : b.candidateSlab.length = max F.candidate a.candidateSlab.length
  cs : a.caseSensitivity = b.caseSensitivity
  normalization : a.candidateNormalization = b.candidateNormalization
  scheme : a.scoringScheme = b.scoringScheme

theorem sameImpl_v1v2 {F : Spec.BufLens} (h0 : c → F = ⟨0, 0, 0, 0, 0⟩) (U : Unicode) :
    SameImpl c (V1.impl U) (V2.impl U) (SameV1V2 F) (fun _ => False) where
  alloc a b s h := by
    refine rel_bind (rel_candidateAlloc (zeroLens h0 (·.candidate) rfl) _ _ s h.candidate) fun x y e => ?_
    exact rel_pure ⟨⟨e.1, h.cs, h.normalization, h.scheme⟩, e.2⟩
  charEq a b p h := by
    show Norm.charEq _ _ = Norm.charEq _ _
    rw [h.cs, h.normalization]
  scheme a b h := h.scheme
  fuzzy R a b p s pre pre' r r' h := h.elim

end Timed

/-! ## Metrics -/

open Spec

/-- Metrics of the same algorithm that differ in what their buffers hold and, where longer than `F`, not in the lengths. -/
def Similar (F : BufLens) : Metric → Metric → Prop
  | .v1 a, .v1 b => Timed.SameV1 F a b
  | .v2 a, .v2 b => Timed.SameMV2 F a b
  | _, _ => False

theorem similar_of {F : BufLens} {m m' : Metric} {st : Settings} (ha : m.algo = m'.algo) (h : m.Has st) (h' : m'.Has st)
    (hs : sizes m' = F.sup (sizes m)) : Similar F m m' := by
  cases m with
  | v1 a =>
    cases m' with
    | v1 b =>
      obtain ⟨h1, h2, h3⟩ := h
      obtain ⟨h1', h2', h3'⟩ := h'
      exact ⟨congrArg BufLens.candidate hs, h1.trans h1'.symm, h2.trans h2'.symm, h3.trans h3'.symm⟩
    | v2 b => cases ha
  | v2 a =>
    cases m' with
    | v1 b => cases ha
    | v2 b =>
      obtain ⟨h1, h2, h3⟩ := h
      obtain ⟨h1', h2', h3'⟩ := h'
      exact ⟨congrArg BufLens.candidate hs, congrArg BufLens.bonus hs, congrArg BufLens.indices hs, congrArg BufLens.scores hs,
        congrArg BufLens.consecutives hs, h1.trans h1'.symm, h2.trans h2'.symm, h3.trans h3'.symm⟩

/-- `F` asks for no buffers that the metric's algorithm does not have. -/
def BufLens.For (F : BufLens) : Algo → Prop
  | .v1 => F.bonus = 0 ∧ F.indices = 0 ∧ F.scores = 0 ∧ F.consecutives = 0
  | .v2 => True

theorem Similar.sizes {F : BufLens} {m m' : Metric} (h : Similar F m m') (hF : BufLens.For F m.algo) :
    sizes m' = F.sup (sizes m) := by
  cases m <;> cases m' <;> first | exact h.elim | skip
  · obtain ⟨h1, h2, h3, h4⟩ := hF
    obtain ⟨h, -, -, -⟩ := h
    simp only [Spec.sizes, BufLens.sup, h1, h2, h3, h4, h, Nat.max_self]
  · obtain ⟨a1, a2, a3, a4, a5, -, -, -⟩ := h
    simp only [Spec.sizes, BufLens.sup, a1, a2, a3, a4, a5]

theorem rel_timedDistance {c : Prop} {F : BufLens} (h0 : c → F = ⟨0, 0, 0, 0, 0⟩) (U : Unicode) {m m' : Metric} (q : FzfQuery)
    (s : List Char) (h : Similar F m m') :
    Timed.Rel c (fun x y => Similar F x.1 y.1 ∧ x.2 = y.2) (m.timedDistance U q s) (m'.timedDistance U q s) := by
  have hq : Timed.FuzzyIn (fun _ => True) q := by
    cases q with
    | notExtended p => trivial
    | extended cs => exact fun _ _ _ _ _ => trivial
  cases m <;> cases m' <;> first | exact h.elim | skip
  · exact Timed.rel_bind (Timed.rel_distance (Timed.sameImpl_v1 h0 U) U false q s [] [] hq h) fun x y e =>
      Timed.rel_pure ⟨e.1, e.2.2⟩
  · exact Timed.rel_bind (Timed.rel_distance (Timed.sameImpl_v2 h0 U) U false q s [] [] hq h) fun x y e =>
      Timed.rel_pure ⟨e.1, e.2.2⟩

theorem rel_timedRanges {c : Prop} {F : BufLens} (h0 : c → F = ⟨0, 0, 0, 0, 0⟩) (U : Unicode) {m m' : Metric} (q : FzfQuery)
    (s : List Char) (buf buf' : List Range) (h : Similar F m m') :
    Timed.Rel c (fun x y => Similar F x.1 y.1 ∧ (∃ new, x.2.1 = buf ++ new ∧ y.2.1 = buf' ++ new) ∧ x.2.2 = y.2.2)
      (m.timedDistanceAndRanges U q s buf) (m'.timedDistanceAndRanges U q s buf') := by
  have hq : Timed.FuzzyIn (fun _ => True) q := by
    cases q with
    | notExtended p => trivial
    | extended cs => exact fun _ _ _ _ _ => trivial
  cases m <;> cases m' <;> first | exact h.elim | skip
  · exact Timed.rel_bind (Timed.rel_distance (Timed.sameImpl_v1 h0 U) U true q s buf buf' hq h) fun x y e =>
      Timed.rel_pure ⟨e.1, e.2.1, e.2.2⟩
  · exact Timed.rel_bind (Timed.rel_distance (Timed.sameImpl_v2 h0 U) U true q s buf buf' hq h) fun x y e =>
      Timed.rel_pure ⟨e.1, e.2.1, e.2.2⟩

theorem rel_timedV1V2 {U : Unicode} {a : FzfV1} {b : FzfV2} (h : Timed.SameV1V2 ⟨0, 0, 0, 0, 0⟩ a b) (q : FzfQuery)
    (hq : Timed.FuzzyIn (fun _ => False) q) (s : List Char) (buf buf' : List Range) :
    ((Metric.v1 a).timedDistance U q s).steps = ((Metric.v2 b).timedDistance U q s).steps ∧
    ((Metric.v1 a).timedDistanceAndRanges U q s buf).steps = ((Metric.v2 b).timedDistanceAndRanges U q s buf').steps := by
  have hI := Timed.sameImpl_v1v2 (c := True) (F := ⟨0, 0, 0, 0, 0⟩) (fun _ => rfl) U
  have h1 : Timed.Rel True (fun _ _ => True) ((Metric.v1 a).timedDistance U q s) ((Metric.v2 b).timedDistance U q s) :=
    Timed.rel_bind (Timed.rel_distance hI U false q s [] [] hq h) fun x y e => Timed.rel_pure trivial
  have h2 : Timed.Rel True (fun _ _ => True) ((Metric.v1 a).timedDistanceAndRanges U q s buf)
      ((Metric.v2 b).timedDistanceAndRanges U q s buf') :=
    Timed.rel_bind (Timed.rel_distance hI U true q s buf buf' hq h) fun x y e => Timed.rel_pure trivial
  exact ⟨h1.1.1 trivial, h2.1.1 trivial⟩

/-! ## Benchmarks -/

/-- Buffers of ranges that grow by the same. -/
def SameGrowth (buf buf' : Option (List Range)) (x y : Option (List Range)) : Prop :=
  match buf, buf', x, y with
  | none, none, none, none => True
  | some b, some b', some x, some y => ∃ new, x = b ++ new ∧ y = b' ++ new
  | _, _, _, _ => False

theorem rel_benchIteration {c : Prop} {F : BufLens} (h0 : c → F = ⟨0, 0, 0, 0, 0⟩) (U : Unicode) (q : FzfQuery) :
    ∀ (l : List (List Char)) (m m' : Metric) (buf buf' x y : Option (List Range)), Similar F m m' →
    SameGrowth buf buf' x y →
    Timed.Rel c (fun u v => Similar F u.1 v.1 ∧ SameGrowth buf buf' u.2 v.2) (benchIteration U q l m x)
      (benchIteration U q l m' y) := by
  intro l
  induction l with
  | nil => exact fun m m' buf buf' x y h hb => Timed.rel_pure ⟨h, hb⟩
  | cons s l ih =>
    intro m m' buf buf' x y h hb
    cases x with
    | none =>
      cases y with
      | some y => cases buf <;> cases buf' <;> exact hb.elim
      | none =>
        exact Timed.rel_bind (rel_timedDistance h0 U q s h) fun u v e => ih u.1 v.1 buf buf' none none e.1 hb
    | some x =>
      cases y with
      | none => cases buf <;> cases buf' <;> exact hb.elim
      | some y =>
        refine Timed.rel_bind (rel_timedRanges h0 U q s x y h) fun u v e => ih u.1 v.1 buf buf' _ _ e.1 ?_
        cases buf <;> cases buf' <;> first | exact hb.elim | skip
        obtain ⟨n, hn, hn'⟩ := hb
        obtain ⟨k, hk, hk'⟩ := e.2.1
        exact ⟨n ++ k, by rw [hk, hn, List.append_assoc], by rw [hk', hn', List.append_assoc]⟩

end Norm
