import Verif.Proofs.Score
import Verif.Model.Fzf

/-! The exact, prefix, suffix and equal matchers. -/

namespace Norm
open Spec

variable {eq : CharEq} {s : List Char}

/-! ### Occurrences -/

variable (eq) in
/-- Does `p` match a prefix of `l`? -/
def pmatch : (p l : List Char) → Bool
  | [], _ => true
  | _ :: _, [] => false
  | q :: p, c :: l => eq q c && pmatch p l

theorem pmatch_iff {p l : List Char} : pmatch eq p l = true ↔ ∃ m b, l = m ++ b ∧ List.Forall₂ (rel eq) p m := by
  induction p generalizing l with
  | nil => simp [pmatch]
  | cons q p ih =>
    cases l with
    | nil => simp [pmatch]
    | cons c l =>
      simp only [pmatch, Bool.and_eq_true, ih]
      constructor
      · rintro ⟨h1, m, b, rfl, h2⟩
        exact ⟨c :: m, b, rfl, .cons h1 h2⟩
      · rintro ⟨m, b, h, h2⟩
        cases h2 with
        | cons h1 h2 =>
          simp at h
          obtain ⟨rfl, rfl⟩ := h
          exact ⟨h1, _, b, rfl, h2⟩

theorem occursAt_iff {p : List Char} {i : Nat} :
    OccursAt (rel eq) p s i ↔ i ≤ s.length ∧ pmatch eq p (s.drop i) = true := by
  rw [pmatch_iff]
  constructor
  · rintro ⟨a, m, b, rfl, rfl, h⟩
    refine ⟨by simp, m, b, by simp, h⟩
  · rintro ⟨hi, m, b, h, hf⟩
    exact ⟨s.take i, m, b, by rw [List.append_assoc, ← h, List.take_append_drop], by simp [hi], hf⟩

theorem pmatch_length {p l : List Char} (h : pmatch eq p l = true) : p.length ≤ l.length := by
  obtain ⟨m, b, rfl, h'⟩ := pmatch_iff.mp h
  rw [h'.length_eq]; simp

theorem pmatch_greedy {p : List Char} {i : Nat} (h : pmatch eq p (s.drop i) = true) :
    greedyFrom eq s p i = some (List.range' i p.length) := by
  induction p generalizing i with
  | nil => rfl
  | cons q p ih =>
    cases hd : s.drop i with
    | nil => simp [hd, pmatch] at h
    | cons c l =>
      rw [hd] at h
      simp only [pmatch, Bool.and_eq_true] at h
      obtain ⟨hx, hd'⟩ := drop_head (w := l) (t := []) (by simpa using hd)
      rw [greedyFrom_step_match hx h.1, ih (by rw [hd']; simpa using h.2)]
      simp [List.range'_succ]

theorem finishExact_eq (U : Unicode) (sch : Scheme) (R : Bool) {c : Candidate} (hwf : c.WF) (p : Pattern)
    (eq : CharEq) (hp : p.text ≠ []) {a e : Nat} (he : e = a + p.text.length)
    (h : pmatch eq p.text (c.toChars.drop a) = true)
    (pre this : List Range) (hsep : Sep this) :
    finishExact U R p c ⟨a, e⟩ eq sch ⟨pre ++ this, pre.length⟩ =
      .ok (⟨pre ++ (if R then pinsert this (byteRange c.toChars a e) else this), pre.length⟩,
        some (alignScore (bonusOf U sch c.toChars) (List.range' a p.text.length))) := by
  subst he
  have hlen := pmatch_length h
  rw [List.length_drop] at hlen
  have hpos : 0 < p.text.length := List.length_pos_iff.mpr hp
  have hal : a + p.text.length ≤ c.toChars.length := by omega
  have hr : List.range' a p.text.length = a :: List.range' (a + 1) (p.text.length - 1) := by
    conv_lhs => rw [show p.text.length = (p.text.length - 1) + 1 by omega]
    rw [List.range'_succ]
  have hg := pmatch_greedy h
  rw [hr] at hg ⊢
  unfold finishExact
  rw [computeScore_eq U sch false hwf p eq hal hp hg (by
    intro j hj; rw [← hr] at hj; simp at hj; omega) pre this hsep]
  simp only [Bool.false_eq_true, if_false, Res.bind_ok]
  cases R with
  | false => simp
  | true =>
    simp only [if_true]
    rw [Candidate.toByteRange_eq hwf (by simp) (by simpa using hal)]
    simp only [Res.bind_ok, strLen_eq_byteLen]
    rw [insert_eq pre this hsep.starts]
    simp [byteRange]

theorem byteRange_nonempty {a e : Nat} (h1 : a < e) (h2 : e ≤ s.length) :
    (byteRange s a e).start < (byteRange s a e).stop := by
  simp only [byteRange]
  have : s.take e = s.take a ++ (s.take e).drop a := by
    conv_lhs => rw [← List.take_append_drop a (s.take e)]
    rw [List.take_take, Nat.min_eq_left (by omega)]
  rw [this, byteLen_append]
  have hl : ((s.take e).drop a) ≠ [] := by
    rw [← List.length_pos_iff]; simp; omega
  have : 0 < byteLen ((s.take e).drop a) := by
    obtain ⟨x, xs, hx⟩ := List.exists_cons_of_ne_nil hl
    rw [hx]; simp only [byteLen, List.map_cons, List.sum_cons]
    have := utf8Size_pos x; omega
  omega

/-! ### `zip` loops -/

theorem zipLoop_eq (f : Bool) (p l : List Char) :
    (zipLoop eq f p l = some ([], l.drop p.length) ∧ pmatch eq p l = true) ∨
    (pmatch eq p l = false ∧ (zipLoop eq f p l = none ∨
      (l.length < p.length ∧ ∃ r, zipLoop eq f p l = some (r, []) ∧ (f = false → r ≠ [])))) := by
  induction p generalizing l with
  | nil => left; simp [zipLoop, pmatch]
  | cons q p ih =>
    cases l with
    | nil =>
      right
      refine ⟨rfl, .inr ⟨by simp, ?_⟩⟩
      refine ⟨if f then p else q :: p, rfl, ?_⟩
      rintro rfl; simp
    | cons c l =>
      simp only [zipLoop, pmatch]
      cases h : eq q c with
      | false => right; simp
      | true => simpa using ih l

/-! ### `exact_match` -/

/-- The update made when an occurrence ending at `e` is found. -/
def foundAt (st : ExactState) (e : Nat) : ExactState :=
  let st := { st with matched := true }
  if st.currentBonus > st.bestBonus then
    { st with bestBonus := st.currentBonus, bestBonusCharStart := st.bonusStart, bestBonusCharEnd := e }
  else st

theorem boundary_eq : Bonus.boundary = 8 := rfl

section Seen
variable (U : Unicode) (sch : Scheme) (eq : CharEq)

/-- The previous class after an attempt to match `qs` against `l`: it is updated at every matching character but the last
of the pattern. -/
def restClass : (qs l : List Char) → CharClass → CharClass
  | q :: qs, c :: l, pc => if qs = [] then pc else if eq q c = true then restClass qs l (charClass U c sch) else pc
  | _, _, pc => pc

/-- The class that the search for `q :: qs` takes the character before index `i` to have. -/
def seenCls (q : Char) (qs s : List Char) : Nat → CharClass
  | 0 => sch.initialCharClass
  | i + 1 =>
    match s[i]? with
    | none => sch.initialCharClass
    | some c =>
      if eq q c = true then restClass U sch eq (q :: qs) (s.drop i) (seenCls q qs s i) else charClass U c sch

/-- The bonus that the search computes for index `i`. -/
def seenBonusOf (q : Char) (qs s : List Char) (i : Nat) : Score :=
  match s[i]? with
  | none => 0
  | some c => computeBonus (seenCls U sch eq q qs s i) (charClass U c sch) sch

end Seen

theorem exactInner_rest (U : Unicode) (sch : Scheme) (p : Pattern) (eq : CharEq) (cso : Nat) :
    ∀ (l : List Char) (k : Nat) (st : ExactState) (qs : List Char), 0 < st.patternCharIdx →
    qs ≠ [] → p.text.drop st.patternCharIdx = qs →
    ∃ idx, let pc := restClass U sch eq qs l st.prevClass
      (pmatch eq qs l = true ∧ exactInner U p eq sch cso l k st =
        .ok (if st.currentBonus ≥ 8 then .breakOuter else .done (l.drop qs.length),
          { foundAt st (cso + k + qs.length) with prevClass := pc, patternCharIdx := idx })) ∨
      (pmatch eq qs l = false ∧ ∃ t ≤ qs.length, exactInner U p eq sch cso l k st =
        .ok (.done (l.drop t), { st with prevClass := pc, patternCharIdx := idx })) := by
  intro l
  induction l with
  | nil =>
    intro k st qs _ hne _
    obtain ⟨q, qs, rfl⟩ := List.exists_cons_of_ne_nil hne
    exact ⟨st.patternCharIdx, .inr ⟨rfl, 0, by omega, rfl⟩⟩
  | cons c l ih =>
    intro k st qs hidx hne hqs
    obtain ⟨q, qs, rfl⟩ := List.exists_cons_of_ne_nil hne
    obtain ⟨hq, hd⟩ := drop_head (w := qs) (t := []) (by simpa using hqs)
    have hlt : st.patternCharIdx < p.text.length := (List.getElem?_eq_some_iff.mp hq).1
    have hlen : p.text.length = st.patternCharIdx + 1 + qs.length := by
      have := congrArg List.length hqs; simp at this; omega
    have hidx0 : (st.patternCharIdx == 0) = false := by simp; omega
    have hchar : p.char st.patternCharIdx = .ok q := by
      simp only [Pattern.char, getR_eq_ok]; exact hq
    simp only [exactInner, hchar, Res.bind_ok, hidx0, Bool.false_eq_true, if_false, Pattern.charLen]
    cases he : eq q c with
    | false =>
      simp only [Bool.false_eq_true, if_false, if_pos hidx]
      exact ⟨st.patternCharIdx, .inr ⟨by simp [pmatch, he], 1, by simp, by simp [restClass, he]⟩⟩
    | true =>
      simp only [if_true]
      cases qs with
      | nil =>
        simp only [List.length_nil, Nat.add_zero] at hlen
        rw [if_pos (by simp [hlen])]
        refine ⟨st.patternCharIdx + 1, .inl ⟨by simp [pmatch, he], ?_⟩⟩
        simp only [restClass, if_true, foundAt, boundary_eq, Res.pure_def, List.length_cons, List.length_nil, Nat.zero_add]
        by_cases h1 : st.currentBonus > st.bestBonus
        · simp only [h1, if_true]; split <;> simp [*]
        · simp only [h1, if_false]; split <;> simp [*]
      | cons q' qs =>
        simp only [List.length_cons] at hlen
        rw [if_neg (by simp; omega)]
        obtain ⟨idx, h⟩ := ih (k + 1)
          { st with patternCharIdx := st.patternCharIdx + 1, prevClass := charClass U c sch } (q' :: qs)
          (by simp) (by simp) (by simpa using hd)
        have hpc : restClass U sch eq (q :: q' :: qs) (c :: l) st.prevClass =
            restClass U sch eq (q' :: qs) l (charClass U c sch) := by simp [restClass, he]
        refine ⟨idx, ?_⟩
        rw [hpc]
        simp only at h ⊢
        rcases h with ⟨h1, h2⟩ | ⟨h1, t, ht, h2⟩
        · left
          refine ⟨by simp [pmatch, he] at h1 ⊢; exact h1, ?_⟩
          rw [h2]
          simp only [foundAt, List.length_cons, List.drop_succ_cons]
          rw [show cso + (k + 1) + (qs.length + 1) = cso + k + (qs.length + 1 + 1) by omega]
          by_cases h1 : st.currentBonus > st.bestBonus
          · simp only [h1, if_true]
          · simp only [h1, if_false]
        · right
          refine ⟨by simp [pmatch, he] at h1 ⊢; exact h1, t + 1, by simp at ht ⊢; omega, ?_⟩
          rw [h2]; simp

theorem exactInner_first (U : Unicode) (sch : Scheme) (p : Pattern) (eq : CharEq) (cso : Nat) (s : List Char)
    (q : Char) (qs : List Char) (hp : p.text = q :: qs) :
    ∀ (l : List Char) (k : Nat) (st : ExactState), st.patternCharIdx = 0 → s.drop (cso + k) = l →
    st.prevClass = seenCls U sch eq q qs s (cso + k) →
    (findFrom (fun x => eq q x) s (cso + k) = none ∧ ∃ pc, exactInner U p eq sch cso l k st =
      .ok (.done [], { st with prevClass := pc })) ∨
    ∃ j c pc idx b st1, findFrom (fun x => eq q x) s (cso + k) = some j ∧ s[j]? = some c ∧
      b = seenBonusOf U sch eq q qs s j ∧ pc = seenCls U sch eq q qs s (j + 1) ∧
      st1 = { st with bonusStart := j, startOffset := st.startOffset + (j - cso + 1), currentBonus := b } ∧
      ((pmatch eq p.text (s.drop j) = true ∧ exactInner U p eq sch cso l k st =
        .ok (if b ≥ 8 then .breakOuter else .done (s.drop (j + p.text.length)),
          { foundAt st1 (j + p.text.length) with prevClass := pc, patternCharIdx := idx })) ∨
      (pmatch eq p.text (s.drop j) = false ∧ ∃ t ≤ j + p.text.length, exactInner U p eq sch cso l k st =
        .ok (.done (s.drop t), { st1 with prevClass := pc, patternCharIdx := idx }))) := by
  intro l
  induction l with
  | nil =>
    intro k st h0 hl _
    left
    refine ⟨?_, st.prevClass, rfl⟩
    unfold findFrom; rw [hl]; rfl
  | cons c l ih =>
    intro k st h0 hl hpv
    obtain ⟨hx, hl'⟩ := drop_head (w := l) (t := []) (by simpa using hl)
    rw [List.append_nil] at hl'
    have hchar : p.char st.patternCharIdx = .ok q := by
      simp [Pattern.char, h0, hp]
    simp only [exactInner, hchar, Res.bind_ok, Pattern.charLen]
    cases he : eq q c with
    | false =>
      have hf : findFrom (fun x => eq q x) s (cso + k) = findFrom (fun x => eq q x) s (cso + (k + 1)) := by
        unfold findFrom
        rw [hl, ← Nat.add_assoc, hl', List.findIdx?_cons]; simp [he]
        cases List.findIdx? (fun x => eq q x) l <;> simp; omega
      rw [hf]
      simp only [Bool.false_eq_true, if_false]
      rw [if_neg (by omega)]
      rcases ih (k + 1) { st with prevClass := charClass U c sch } h0 (by rw [← hl']; rfl)
          (by rw [← Nat.add_assoc]; simp [seenCls, hx, he]) with
        ⟨h1, pc, h2⟩ | ⟨j, c', pc, idx, b, st1, h1, h2, h3, h3', h4, h5⟩
      · left; exact ⟨h1, pc, h2⟩
      · right
        have hj := (findFrom_some h1).1
        refine ⟨j, c', pc, idx, b, { st1 with prevClass := st.prevClass }, h1, h2, h3, h3', by rw [h4], ?_⟩
        · rcases h5 with ⟨h5, h6⟩ | ⟨h5, t, ht, h6⟩
          · left
            refine ⟨h5, ?_⟩
            rw [h6]
            simp only [foundAt]
            by_cases h1 : st1.currentBonus > st1.bestBonus
            · simp only [h1, if_true]
            · simp only [h1, if_false]
          · right; exact ⟨h5, t, ht, h6⟩
    | true =>
      right
      have hf : findFrom (fun x => eq q x) s (cso + k) = some (cso + k) := by
        unfold findFrom; rw [hl, List.findIdx?_cons]; simp [he]
      simp only [if_true, h0, beq_self_eq_true]
      rw [hf]
      have hdj : s.drop (cso + k) = c :: l := hl
      have hk : cso + k - cso = k := by omega
      have hb : computeBonus st.prevClass (charClass U c sch) sch = seenBonusOf U sch eq q qs s (cso + k) := by
        simp [seenBonusOf, hx, hpv]
      have hpc : restClass U sch eq (q :: qs) (c :: l) st.prevClass = seenCls U sch eq q qs s (cso + k + 1) := by
        simp [seenCls, hx, he, hdj, hpv]
      cases hqs : qs with
      | nil =>
        subst hqs
        rw [if_pos (by simp [hp])]
        refine ⟨cso + k, c, st.prevClass, 1, _, _, rfl, hx, rfl, by rw [← hpc]; simp [restClass], rfl, .inl ⟨?_, ?_⟩⟩
        · rw [hdj, hp]; simp [pmatch, he]
        · rw [hp]
          simp only [foundAt, boundary_eq, Res.pure_def, List.length_cons, List.length_nil, hk,
            Nat.zero_add]
          rw [hl']
          rw [hb]
          generalize seenBonusOf U sch eq q [] s (cso + k) = b
          by_cases h1 : b > st.bestBonus
          · simp only [h1, if_true]; split <;> simp [*]
          · simp only [h1, if_false]; split <;> simp [*]
      | cons q' qs' =>
        subst hqs
        rw [if_neg (by simp [hp])]
        obtain ⟨idx, h⟩ := exactInner_rest U sch p eq cso l (k + 1)
          { st with
            bonusStart := cso + k, startOffset := st.startOffset + (k + 1)
            currentBonus := computeBonus st.prevClass (charClass U c sch) sch
            patternCharIdx := 0 + 1, prevClass := charClass U c sch } (q' :: qs')
          (by simp) (by simp) (by simp [hp])
        have hpc' : restClass U sch eq (q' :: qs') l (charClass U c sch) =
            seenCls U sch eq q (q' :: qs') s (cso + k + 1) := by
          rw [← hpc]; simp [restClass, he]
        simp only [hpc', hb] at h
        refine ⟨cso + k, c, _, idx, _, _, rfl, hx, rfl, rfl, rfl, ?_⟩
        rw [hdj, hp, hk, hb]
        rcases h with ⟨h1, h2⟩ | ⟨h1, t, ht, h2⟩
        · left
          refine ⟨by simp [pmatch, he] at h1 ⊢; exact h1, ?_⟩
          rw [h2]
          simp only [foundAt, List.length_cons]
          have : l.drop (qs'.length + 1) = s.drop (cso + k + (qs'.length + 1 + 1)) := by
            rw [← hl', List.drop_drop]; congr 1; omega
          rw [this, show cso + (k + 1) + (qs'.length + 1) = cso + k + (qs'.length + 1 + 1) by omega]
          generalize seenBonusOf U sch eq q (q' :: qs') s (cso + k) = b
          by_cases h1 : b > st.bestBonus
          · simp only [h1, if_true]
          · simp only [h1, if_false]
        · right
          refine ⟨by simp [pmatch, he] at h1 ⊢; exact h1, cso + k + (t + 1), by simp at ht ⊢; omega, ?_⟩
          rw [h2]
          have : l.drop t = s.drop (cso + k + (t + 1)) := by
            rw [← hl', List.drop_drop]; congr 1; omega
          rw [this]

/-- Invariant of the `'outer` loop: what is known about the occurrences that start before `startOffset`. -/
structure ExactInv (U : Unicode) (sch : Scheme) (eq : CharEq) (q : Char) (qs s : List Char) (st : ExactState) :
    Prop where
  le : st.startOffset ≤ s.length
  absent : st.matched = false → st.bestBonus = -1 ∧ ∀ i < st.startOffset, ¬ OccursAt (rel eq) (q :: qs) s i
  found : st.matched = true → OccursAt (rel eq) (q :: qs) s st.bestBonusCharStart ∧
    st.bestBonusCharEnd = st.bestBonusCharStart + (q :: qs).length ∧ st.bestBonus < 8
  cls : st.prevClass = seenCls U sch eq q qs s st.startOffset
  best : st.matched = true →
    st.bestBonus = seenBonusOf U sch eq q qs s st.bestBonusCharStart ∧ st.bestBonusCharStart < st.startOffset ∧
    (∀ i < st.startOffset, OccursAt (rel eq) (q :: qs) s i → seenBonusOf U sch eq q qs s i < 8 ∧
      seenBonusOf U sch eq q qs s i ≤ st.bestBonus ∧
      (i < st.bestBonusCharStart → seenBonusOf U sch eq q qs s i < st.bestBonus))

/-- What `exact_match` finds. -/
structure ExactResult (U : Unicode) (sch : Scheme) (eq : CharEq) (q : Char) (qs s : List Char)
    (st : ExactState) : Prop where
  absent : st.matched = false → ¬ Substring (rel eq) (q :: qs) s
  found : st.matched = true → OccursAt (rel eq) (q :: qs) s st.bestBonusCharStart ∧
    st.bestBonusCharEnd = st.bestBonusCharStart + (q :: qs).length
  best : st.matched = true →
    BestPlaced (seenBonusOf U sch eq q qs s) (rel eq) (q :: qs) s st.bestBonusCharStart

theorem occursAt_head {q : Char} {qs : List Char} {i : Nat} (h : OccursAt (rel eq) (q :: qs) s i) :
    ∃ c, s[i]? = some c ∧ eq q c = true := by
  obtain ⟨hi, hm⟩ := occursAt_iff.mp h
  cases hd : s.drop i with
  | nil => simp [hd, pmatch] at hm
  | cons c l =>
    rw [hd] at hm
    simp only [pmatch, Bool.and_eq_true] at hm
    exact ⟨c, (drop_head (w := l) (t := []) (by simpa using hd)).1, hm.1⟩

theorem occursAt_le {p : List Char} {i : Nat} (h : OccursAt (rel eq) p s i) : i + p.length ≤ s.length := by
  obtain ⟨hi, hm⟩ := occursAt_iff.mp h
  have := pmatch_length hm
  rw [List.length_drop] at this; omega

/-- At the end of the search. -/
theorem ExactInv.result {U : Unicode} {sch : Scheme} {q : Char} {qs : List Char} {st : ExactState}
    (h : ExactInv U sch eq q qs s st) (hno : ∀ i, st.startOffset ≤ i → ¬ OccursAt (rel eq) (q :: qs) s i) :
    ExactResult U sch eq q qs s st where
  absent := by
    rintro hm ⟨i, hi⟩
    by_cases hlt : i < st.startOffset
    · exact (h.absent hm).2 i hlt hi
    · exact hno i (by omega) hi
  found := fun hm => ⟨(h.found hm).1, (h.found hm).2.1⟩
  best := by
    intro hm
    obtain ⟨h4, _, h5⟩ := h.best hm
    refine ⟨(h.found hm).1, .inr ?_⟩
    intro i hi
    rw [← h4]
    by_cases hlt : i < st.startOffset
    · exact h5 i hlt hi
    · exact absurd hi (hno i (by omega))

theorem exactOuter_eq (U : Unicode) (sch : Scheme) (p : Pattern) (eq : CharEq) (c : Candidate)
    (q : Char) (qs : List Char) (hp : p.text = q :: qs) (hnn : ∀ x y, 0 ≤ computeBonus x y sch) :
    ∀ (fuel : Nat) (st : ExactState), c.toChars.length < st.startOffset + fuel →
    ExactInv U sch eq q qs c.toChars st →
    ∃ st', exactOuter U p c eq sch fuel st = .ok st' ∧ ExactResult U sch eq q qs c.toChars st' := by
  intro fuel
  induction fuel with
  | zero => intro st hf hinv; have := hinv.le; omega
  | succ fuel ih =>
    intro st hf hinv
    simp only [exactOuter, Candidate.charsFrom_eq, sliceFromR_of_le hinv.le, Res.bind_ok]
    have hfirst := exactInner_first U sch p eq st.startOffset c.toChars q qs hp
      (c.toChars.drop st.startOffset) 0 { st with bonusStart := 0, currentBonus := 0, patternCharIdx := 0 }
      rfl rfl hinv.cls
    simp only [Nat.add_zero] at hfirst
    rcases hfirst with ⟨hf0, pc, h⟩ | ⟨j, ch, pc, idx, b, st1, hj, hch, hb, hpc, hst1, h⟩
    · rw [h]
      refine ⟨_, rfl, ?_⟩
      have hno : ∀ i, st.startOffset ≤ i → ¬ OccursAt (rel eq) (q :: qs) c.toChars i := by
        intro i hle hi
        obtain ⟨d, hd, hde⟩ := occursAt_head hi
        have := findFrom_none hf0 i d (by omega) hd
        rw [hde] at this; simp at this
      have hr := hinv.result hno
      exact ⟨hr.absent, hr.found, hr.best⟩
    · obtain ⟨hge, ⟨ch', hch', heq⟩, hmin⟩ := findFrom_some hj
      rw [hch] at hch'; simp at hch'; subst hch'
      have hjl := (List.getElem?_eq_some_iff.mp hch).1
      have hso : st.startOffset + (j - st.startOffset + 1) = j + 1 := by omega
      simp only [hso] at hst1
      have hb0 : 0 ≤ b := by rw [hb]; simp only [seenBonusOf, hch]; exact hnn _ _
      -- no occurrence in between
      have hbetween : ∀ i, i < j → OccursAt (rel eq) (q :: qs) c.toChars i → i < st.startOffset := by
        intro i h2 hi
        by_contra h1
        obtain ⟨d, hd, hde⟩ := occursAt_head hi
        have := hmin i d (by omega) h2 hd
        rw [hde] at this; simp at this
      -- what remains after `t` characters, none of which ends an occurrence after `j`
      have hcont : ∀ (st2 : ExactState) (t : Nat), t ≤ j + p.text.length → st2.startOffset = j + 1 →
          ExactInv U sch eq q qs c.toChars st2 →
          ∃ st', (match ExactExit.done (c.toChars.drop t) with
            | .breakOuter => pure st2
            | .done [] => pure st2
            | .done (_ :: _) => exactOuter U p c eq sch fuel st2) = Res.ok st' ∧
            ExactResult U sch eq q qs c.toChars st' := by
        intro st2 t ht hs2 hinv2
        cases hd : c.toChars.drop t with
        | nil =>
          refine ⟨st2, rfl, hinv2.result ?_⟩
          intro i hi hocc
          have h1 := occursAt_le hocc
          have h2 := congrArg List.length hd
          rw [← hp] at h1
          simp at h2
          omega
        | cons x xs =>
          simp only
          exact ih st2 (by omega) hinv2
      rcases h with ⟨hm, h⟩ | ⟨hm, t, ht, h⟩
      · -- an occurrence at `j`
        have hocc : OccursAt (rel eq) (q :: qs) c.toChars j := occursAt_iff.mpr ⟨by omega, by rw [← hp]; exact hm⟩
        rw [h]
        simp only [Res.bind_ok]
        by_cases hb8 : b ≥ 8
        · rw [if_pos hb8]
          refine ⟨_, rfl, ?_⟩
          have hgt : st1.currentBonus > st1.bestBonus := by
            rw [hst1]; simp only
            cases hmt : st.matched with
            | false => rw [(hinv.absent hmt).1]; exact Int.lt_of_lt_of_le (by decide) hb0
            | true => exact Int.lt_of_lt_of_le (hinv.found hmt).2.2 hb8
          simp only [foundAt, if_pos hgt]
          constructor
          · simp
          · intro _; simp only [hst1]; exact ⟨hocc, by rw [hp]⟩
          · intro _
            simp only [hst1]
            refine ⟨hocc, .inl ⟨by rw [← hb]; exact hb8, ?_⟩⟩
            intro i hi hoi
            have hlt := hbetween i hi hoi
            cases hmt : st.matched with
            | false => exact absurd hoi ((hinv.absent hmt).2 i hlt)
            | true => exact ((hinv.best hmt).2.2 i hlt hoi).1
        · rw [if_neg hb8]
          refine hcont _ (j + p.text.length) (Nat.le_refl _) ?_ ?_
          · simp only [foundAt, hst1]; split <;> rfl
          · by_cases hgt : st1.currentBonus > st1.bestBonus
            · simp only [foundAt, if_pos hgt]
              simp only [hst1] at hgt ⊢
              constructor
              · simp only; omega
              · simp
              · intro _; exact ⟨hocc, by rw [hp], Int.not_le.mp hb8⟩
              · exact hpc
              · intro _
                refine ⟨hb, by simp, ?_⟩
                intro i hi hoi
                simp only at hi ⊢
                by_cases hij : i = j
                · subst hij; rw [← hb]; exact ⟨by somega, by somega, fun h => by omega⟩
                · have hlt := hbetween i (by omega) hoi
                  cases hmt : st.matched with
                  | false => exact absurd hoi ((hinv.absent hmt).2 i hlt)
                  | true =>
                    have := ((hinv.best hmt).2.2 i hlt hoi)
                    exact ⟨this.1, by somega, fun _ => by somega⟩
            · simp only [foundAt, if_neg hgt]
              simp only [hst1] at hgt ⊢
              have hmt : st.matched = true := by
                by_contra hcon
                have := (hinv.absent (by simpa using hcon)).1
                rw [this] at hgt; exact hgt (Int.lt_of_lt_of_le (by decide) hb0)
              constructor
              · simp only; omega
              · simp
              · intro _; exact ⟨(hinv.found hmt).1, (hinv.found hmt).2⟩
              · exact hpc
              · intro _
                obtain ⟨h1, h2, h3⟩ := hinv.best hmt
                refine ⟨h1, by simp only; omega, ?_⟩
                intro i hi hoi
                simp only at hi ⊢
                by_cases hij : i = j
                · subst hij; rw [← hb]; exact ⟨by somega, by somega, fun h => by omega⟩
                · exact h3 i (hbetween i (by omega) hoi) hoi
      · rw [h]
        have hnocc : ¬ OccursAt (rel eq) (q :: qs) c.toChars j := by
          intro hocc
          have := (occursAt_iff.mp hocc).2
          rw [← hp, hm] at this; simp at this
        have hbefore : ∀ i, i < j + 1 → OccursAt (rel eq) (q :: qs) c.toChars i → i < st.startOffset := by
          intro i hi hoi
          by_cases hij : i = j
          · subst hij; exact absurd hoi hnocc
          · exact hbetween i (by omega) hoi
        refine hcont _ t ht (by rw [hst1]) ?_
        simp only [hst1]
        constructor
        · simp only; omega
        · intro hmt
          refine ⟨(hinv.absent hmt).1, ?_⟩
          intro i hi hoi
          exact (hinv.absent hmt).2 i (hbefore i hi hoi) hoi
        · exact hinv.found
        · exact hpc
        · intro hmt
          obtain ⟨h1, h2, h3⟩ := hinv.best hmt
          refine ⟨h1, by simp only; omega, ?_⟩
          intro i hi hoi
          exact h3 i (hbefore i hi hoi) hoi

/-- The state `exact_match` starts from. -/
def exactInit (sch : Scheme) : ExactState where
  bestBonus := -1
  bestBonusCharStart := 0
  bestBonusCharEnd := 0
  matched := false
  prevClass := sch.initialCharClass
  startOffset := 0
  bonusStart := 0
  currentBonus := 0
  patternCharIdx := 0

/-- Where `exact_match` finds the pattern. -/
def exactPos (U : Unicode) (sch : Scheme) (eq : CharEq) (p : Pattern) (s : List Char) : Option Nat :=
  match exactOuter U p (.unicode s) eq sch (s.length + 1) (exactInit sch) with
  | .ok st => if st.matched then some st.bestBonusCharStart else none
  | .panic => none

theorem exactOuter_repr (U : Unicode) (sch : Scheme) (eq : CharEq) (p : Pattern) (c : Candidate) (fuel : Nat)
    (st : ExactState) : exactOuter U p c eq sch fuel st = exactOuter U p (.unicode c.toChars) eq sch fuel st := by
  induction fuel generalizing st with
  | zero => rfl
  | succ fuel ih =>
    simp only [exactOuter, Candidate.charsFrom_eq, ih]
    rfl

/-- `exact_match`. -/
theorem exactMatch_eq (U : Unicode) (sch : Scheme) (R : Bool) {c : Candidate} (hwf : c.WF) (p : Pattern)
    (eq : CharEq) (hp : p.text ≠ []) (hnn : ∀ x y, 0 ≤ computeBonus x y sch)
    (pre this : List Range) (hsep : Sep this) :
    exactMatch U R p c eq sch ⟨pre ++ this, pre.length⟩ =
      .ok (match exactPos U sch eq p c.toChars with
        | none => (⟨pre ++ this, pre.length⟩, none)
        | some a =>
          (⟨pre ++ (if R then pinsert this (byteRange c.toChars a (a + p.text.length)) else this), pre.length⟩,
            some (alignScore (bonusOf U sch c.toChars) (List.range' a p.text.length)))) ∧
    (exactPos U sch eq p c.toChars = none → ¬ Substring (rel eq) p.text c.toChars) ∧
    ∀ a, exactPos U sch eq p c.toChars = some a → OccursAt (rel eq) p.text c.toChars a ∧
      ∀ q qs, p.text = q :: qs → BestPlaced (seenBonusOf U sch eq q qs c.toChars) (rel eq) p.text c.toChars a := by
  obtain ⟨q, qs, hq⟩ := List.exists_cons_of_ne_nil hp
  obtain ⟨st, hst, hr⟩ := exactOuter_eq U sch p eq c q qs hq hnn (c.toChars.length + 1) (exactInit sch)
    (by simp [exactInit]) ⟨by simp [exactInit], by simp [exactInit], by simp [exactInit], rfl, by simp [exactInit]⟩
  have hpos : exactPos U sch eq p c.toChars = if st.matched then some st.bestBonusCharStart else none := by
    unfold exactPos
    rw [exactOuter_repr] at hst
    rw [hst]
  have hemp : p.isEmpty = false := by simp [Pattern.isEmpty, hq]
  refine ⟨?_, ?_, ?_⟩
  · unfold exactMatch
    rw [hemp]
    simp only [Bool.false_eq_true, if_false, Candidate.charLen_eq]
    have hst' := hst
    unfold exactInit at hst'
    rw [hst', hpos]
    simp only [Res.bind_ok]
    cases hm : st.matched with
    | false => simp
    | true =>
      simp only [Bool.not_true, Bool.false_eq_true, if_false, if_true]
      obtain ⟨h1, h2⟩ := hr.found hm
      rw [finishExact_eq U sch R hwf p eq hp (by rw [hq]; exact h2)
        (by rw [hq]; exact (occursAt_iff.mp h1).2) pre this hsep]
      rw [h2, hq]
  · intro h
    rw [hpos] at h
    rw [hq]
    exact hr.absent (by cases hm : st.matched <;> simp [hm] at h ⊢)
  · intro a h
    rw [hpos] at h
    cases hm : st.matched with
    | false => simp [hm] at h
    | true =>
      simp [hm] at h; subst h
      refine ⟨by rw [hq]; exact (hr.found hm).1, ?_⟩
      intro q' qs' hq'
      rw [hq] at hq'
      obtain ⟨rfl, rfl⟩ := List.cons.inj hq'
      rw [hq]
      exact hr.best hm

/-! ### Prefix, suffix and equality -/

theorem pmatch_take (p l : List Char) : pmatch eq p (l.take p.length) = pmatch eq p l := by
  induction p generalizing l with
  | nil => simp [pmatch]
  | cons q p ih =>
    cases l with
    | nil => rfl
    | cons c l => simp [pmatch, ih]

theorem pmatch_reverse (p l : List Char) :
    pmatch eq p.reverse l.reverse = true ↔
      p.length ≤ l.length ∧ pmatch eq p (l.drop (l.length - p.length)) = true := by
  constructor
  · intro h
    have hlen := pmatch_length h
    simp at hlen
    refine ⟨hlen, ?_⟩
    obtain ⟨m, b, hl, hf⟩ := pmatch_iff.mp h
    have hl' : l = b.reverse ++ m.reverse := by
      have := congrArg List.reverse hl; simpa using this
    have hm : m.length = p.length := by have := hf.length_eq; simp at this; omega
    rw [pmatch_iff]
    refine ⟨m.reverse, [], ?_, ?_⟩
    · rw [hl', List.append_nil]
      have : (b.reverse ++ m.reverse).length - p.length = b.reverse.length := by simp; omega
      rw [this, List.drop_left]
    · have := List.rel_reverse hf; simpa using this
  · rintro ⟨hlen, h⟩
    obtain ⟨m, b, hl, hf⟩ := pmatch_iff.mp h
    have hb : b = [] := by
      have h1 := congrArg List.length hl
      have h2 := hf.length_eq
      simp at h1
      exact List.length_eq_zero_iff.mp (by omega)
    subst hb
    rw [pmatch_iff]
    refine ⟨m.reverse, (l.take (l.length - p.length)).reverse, ?_, List.rel_reverse hf⟩
    rw [← List.reverse_append]
    congr 1
    conv_lhs => rw [← List.take_append_drop (l.length - p.length) l]
    rw [hl, List.append_nil]

variable (eq s) in
/-- Where `prefix_match` finds the pattern. -/
def prefixPos (p : Pattern) : Option Nat :=
  let ls := (s.takeWhile (· == ' ')).length
  if p.leadingSpaces ≤ ls ∧ pmatch eq p.text (s.drop (ls - p.leadingSpaces)) = true then
    some (ls - p.leadingSpaces)
  else none

variable (eq s) in
/-- Where `suffix_match` finds the pattern. -/
def suffixPos (p : Pattern) : Option Nat :=
  let ts := (s.reverse.takeWhile (· == ' ')).length
  let e := s.length - (ts - p.trailingSpaces)
  if p.trailingSpaces ≤ ts ∧ p.text.length ≤ e ∧
      pmatch eq p.text ((s.take e).drop (e - p.text.length)) = true then
    some (e - p.text.length)
  else none

variable (eq s) in
/-- Where `equal_match` finds the pattern. -/
def equalPos (p : Pattern) : Option Nat :=
  let ls := (s.takeWhile (· == ' ')).length
  let ts := (s.reverse.takeWhile (· == ' ')).length
  let a := ls - p.leadingSpaces
  let e := s.length - (ts - p.trailingSpaces)
  if p.leadingSpaces ≤ ls ∧ p.trailingSpaces ≤ ts ∧ e = a + p.text.length ∧
      pmatch eq p.text (s.drop a) = true then
    some a
  else none

/-- The outcome of a matcher that finds the pattern at a given position. -/
def outcome (U : Unicode) (sch : Scheme) (R : Bool) (p : Pattern) (s : List Char) (pre this : List Range) :
    Option Nat → MatchedRanges × Option Score
  | none => (⟨pre ++ this, pre.length⟩, none)
  | some a =>
    (⟨pre ++ (if R then pinsert this (byteRange s a (a + p.text.length)) else this), pre.length⟩,
      some (alignScore (bonusOf U sch s) (List.range' a p.text.length)))

theorem takeWhile_length_le {p : Char → Bool} (l : List Char) : (l.takeWhile p).length ≤ l.length :=
  (List.takeWhile_sublist p).length_le

theorem prefixMatch_eq (U : Unicode) (sch : Scheme) (R : Bool) {c : Candidate} (hwf : c.WF) (p : Pattern)
    (eq : CharEq) (hp : p.text ≠ []) (pre this : List Range) (hsep : Sep this) :
    prefixMatch U R p c eq sch ⟨pre ++ this, pre.length⟩ =
      .ok (outcome U sch R p c.toChars pre this (prefixPos eq c.toChars p)) := by
  have hemp : p.isEmpty = false := by
    obtain ⟨q, qs, hq⟩ := List.exists_cons_of_ne_nil hp; simp [Pattern.isEmpty, hq]
  unfold prefixMatch
  rw [hemp]
  simp only [Bool.false_eq_true, if_false, ignoredCandidateLeadingSpaces, Candidate.leadingSpaces_eq, prefixPos]
  generalize hls : (c.toChars.takeWhile (· == ' ')).length = ls
  have hlsl : ls ≤ c.toChars.length := by rw [← hls]; exact takeWhile_length_le _
  by_cases h1 : p.leadingSpaces ≤ ls
  · rw [if_neg (by omega), subR_of_le h1]
    simp only [Res.bind_ok, Res.pure_def, Candidate.charsFrom_eq]
    rw [sliceFromR_of_le (by omega)]
    simp only [Res.bind_ok]
    rcases zipLoop_eq (eq := eq) false p.text (c.toChars.drop (ls - p.leadingSpaces)) with
      ⟨h2, h3⟩ | ⟨h2, h3 | ⟨_, r, h3, h4⟩⟩
    · rw [h2]
      simp only
      rw [if_pos ⟨h1, h3⟩,
        finishExact_eq U sch R hwf p eq hp (by simp [Pattern.charLen]) h3 pre this hsep]
      rfl
    · rw [h3, if_neg (by simp [h2])]; rfl
    · obtain ⟨x, xs, rfl⟩ := List.exists_cons_of_ne_nil (h4 rfl)
      rw [h3, if_neg (by simp [h2])]; rfl
  · rw [if_pos (by omega), if_neg (by tauto)]; rfl

theorem suffixMatch_eq (U : Unicode) (sch : Scheme) (R : Bool) {c : Candidate} (hwf : c.WF) (p : Pattern)
    (eq : CharEq) (hp : p.text ≠ []) (pre this : List Range) (hsep : Sep this) :
    suffixMatch U R p c eq sch ⟨pre ++ this, pre.length⟩ =
      .ok (outcome U sch R p c.toChars pre this (suffixPos eq c.toChars p)) := by
  have hemp : p.isEmpty = false := by
    obtain ⟨q, qs, hq⟩ := List.exists_cons_of_ne_nil hp; simp [Pattern.isEmpty, hq]
  unfold suffixMatch
  rw [hemp]
  simp only [Bool.false_eq_true, if_false, ignoredCandidateTrailingSpaces, Candidate.trailingSpaces_eq, suffixPos]
  generalize hts : (c.toChars.reverse.takeWhile (· == ' ')).length = ts
  have htsl : ts ≤ c.toChars.length := by
    rw [← hts]; have := takeWhile_length_le (p := (· == ' ')) c.toChars.reverse; simpa using this
  by_cases h1 : p.trailingSpaces ≤ ts
  · rw [if_neg (by omega), subR_of_le h1]
    simp only [Res.bind_ok, Res.pure_def, Candidate.charLen_eq]
    rw [subR_of_le (by omega)]
    simp only [Res.bind_ok]
    generalize he : c.toChars.length - (ts - p.trailingSpaces) = e
    have hel : e ≤ c.toChars.length := by omega
    obtain ⟨c', hc', _, htc'⟩ := Candidate.slice_ok hwf (r := ⟨0, e⟩) (by simp) (by simpa using hel)
    rw [hc']
    simp only [Res.bind_ok, Candidate.chars_eq, htc', List.drop_zero]
    have hlen : (c.toChars.take e).length = e := by simp [hel]
    have hrev := pmatch_reverse (eq := eq) p.text (c.toChars.take e)
    rw [hlen] at hrev
    rcases zipLoop_eq (eq := eq) false p.text.reverse (c.toChars.take e).reverse with
      ⟨h2, h3⟩ | ⟨h2, h3 | ⟨_, r, h3, h4⟩⟩
    · rw [h2]
      obtain ⟨h5, h6⟩ := hrev.mp h3
      simp only [Pattern.charLen]
      rw [subR_of_le h5]
      simp only [Res.bind_ok]
      have h7 : pmatch eq p.text (c.toChars.drop (e - p.text.length)) = true := by
        rw [← pmatch_take] at h6 ⊢
        rw [← h6, List.drop_take, List.take_take]
        congr 2; omega
      rw [if_pos ⟨h1, h5, h6⟩, finishExact_eq U sch R hwf p eq hp (by omega) h7 pre this hsep]
      simp only [outcome]
      rw [show e - p.text.length + p.text.length = e by omega]
    · rw [h3, if_neg]; · rfl
      rintro ⟨_, h⟩; rw [hrev.mpr h] at h2; simp at h2
    · obtain ⟨x, xs, rfl⟩ := List.exists_cons_of_ne_nil (h4 rfl)
      rw [h3, if_neg]; · rfl
      rintro ⟨_, h⟩; rw [hrev.mpr h] at h2; simp at h2
  · rw [if_pos (by omega), if_neg (by tauto)]; rfl

theorem equalMatch_eq (U : Unicode) (sch : Scheme) (R : Bool) {c : Candidate} (hwf : c.WF) (p : Pattern)
    (eq : CharEq) (hp : p.text ≠ []) (pre this : List Range) (hsep : Sep this) :
    equalMatch U R p c eq sch ⟨pre ++ this, pre.length⟩ =
      .ok (outcome U sch R p c.toChars pre this (equalPos eq c.toChars p)) := by
  have hemp : p.isEmpty = false := by
    obtain ⟨q, qs, hq⟩ := List.exists_cons_of_ne_nil hp; simp [Pattern.isEmpty, hq]
  have hpos : 0 < p.text.length := List.length_pos_iff.mpr hp
  unfold equalMatch
  rw [hemp]
  simp only [Bool.false_eq_true, if_false, ignoredCandidateTrailingSpaces, ignoredCandidateLeadingSpaces,
    Candidate.leadingSpaces_eq, Candidate.trailingSpaces_eq, equalPos]
  generalize hls : (c.toChars.takeWhile (· == ' ')).length = ls
  have hlsl : ls ≤ c.toChars.length := by rw [← hls]; exact takeWhile_length_le _
  generalize hts : (c.toChars.reverse.takeWhile (· == ' ')).length = ts
  have htsl : ts ≤ c.toChars.length := by
    rw [← hts]; have := takeWhile_length_le (p := (· == ' ')) c.toChars.reverse; simpa using this
  by_cases h1 : p.leadingSpaces ≤ ls
  · rw [if_neg (by omega), subR_of_le h1]
    simp only [Res.bind_ok, Res.pure_def, Candidate.charLen_eq]
    by_cases h0 : ls - p.leadingSpaces = c.toChars.length
    · rw [if_pos (by simpa using h0), if_neg]; · rfl
      rintro ⟨_, _, h, _⟩; omega
    · rw [if_neg (by simpa using h0)]
      by_cases h2 : p.trailingSpaces ≤ ts
      · rw [if_neg (by omega), subR_of_le h2]
        simp only [Res.bind_ok]
        rw [subR_of_le (by omega)]
        simp only [Res.bind_ok]
        generalize ha : ls - p.leadingSpaces = a
        generalize he : c.toChars.length - (ts - p.trailingSpaces) = e
        have hel : e ≤ c.toChars.length := by omega
        by_cases h3 : (⟨a, e⟩ : Range).len < p.charLen
        · rw [if_pos h3, if_neg]; · rfl
          have h3 : e - a < p.text.length := h3
          rintro ⟨_, _, h, _⟩; omega
        · rw [if_neg h3]
          have h3 : ¬ e - a < p.text.length := h3
          obtain ⟨c', hc', _, htc'⟩ := Candidate.slice_ok hwf (r := ⟨a, e⟩) (by simp; omega) (by simpa using hel)
          rw [hc']
          simp only [Res.bind_ok, Candidate.chars_eq, htc']
          have hlen : ((c.toChars.take e).drop a).length = e - a := by simp [hel]
          have hpm : pmatch eq p.text ((c.toChars.take e).drop a) = pmatch eq p.text (c.toChars.drop a) := by
            rw [← pmatch_take, ← pmatch_take p.text (c.toChars.drop a), List.drop_take, List.take_take]
            congr 2; omega
          rcases zipLoop_eq (eq := eq) true p.text ((c.toChars.take e).drop a) with
            ⟨h4, h5⟩ | ⟨h4, h5 | ⟨h6, _⟩⟩
          · rw [h4]
            simp only [List.isEmpty_nil, Bool.not_true, Bool.false_or]
            by_cases h7 : e = a + p.text.length
            · have hnil : ((c.toChars.take e).drop a).drop p.text.length = [] := by
                apply List.eq_nil_of_length_eq_zero; rw [List.length_drop, hlen]; omega
              rw [hnil]
              simp only [List.isEmpty_nil, Bool.not_true, Bool.false_eq_true, if_false]
              rw [hpm] at h5
              rw [if_pos ⟨h1, h2, h7, h5⟩, finishExact_eq U sch R hwf p eq hp h7 h5 pre this hsep, h7]
              rfl
            · have hne : ((c.toChars.take e).drop a).drop p.text.length ≠ [] := by
                rw [← List.length_pos_iff, List.length_drop, hlen]; omega
              rw [if_pos (by simpa using hne), if_neg (by tauto)]; rfl
          · rw [h5, if_neg]; · rfl
            rw [← hpm, h4]; simp
          · omega
      · rw [if_pos (by omega), if_neg (by tauto)]; rfl
  · rw [if_pos (by omega)]
    simp only [Res.bind_ok]
    rw [if_neg (by tauto)]; rfl

end Norm
