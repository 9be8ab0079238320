import Verif.Proofs.V1
import Verif.Proofs.V2
import Verif.Proofs.Exact

/-!
# `Fzf::distance` as a pure function of the settings, the query and the candidate

`queryHit` computes, without any metric state, the byte ranges a call inserts (in insertion order) and the
score it returns. `distance_eq` proves that a call on any metric refining the pure fuzzy matcher
`pf` computes exactly this, never panics, and keeps the settings. -/

set_option linter.unusedSimpArgs false

namespace Norm

open Spec

/-- The character comparison used for a pattern. -/
def Settings.eqOf (st : Settings) (p : Pattern) : CharEq :=
  charEq (isSensitive st.caseSensitivity p) st.normalization

/-! ### The candidate slab -/

theorem slabWriteChars_eq (text : List Char) : ∀ (pre rest : List Char), text.length ≤ rest.length →
    slabWriteChars (pre ++ rest) text pre.length =
      .ok (pre ++ text ++ rest.drop text.length, pre.length + text.length) := by
  induction text with
  | nil => intro pre rest _; simp [slabWriteChars]
  | cons ch text ih =>
    intro pre rest h
    cases rest with
    | nil => simp at h
    | cons r rest =>
      have hs := setR_append pre [] rest r ch
      simp only [List.nil_append, List.length_nil, Nat.add_zero] at hs
      rw [slabWriteChars, hs, Res.bind_ok]
      have := ih (pre ++ [ch]) rest (by simpa using h)
      simp only [List.append_assoc, List.singleton_append, List.length_append, List.length_singleton] at this
      rw [this]
      simp; omega

theorem candidateAlloc_eq (slab text : List Char) : ∃ slab', candidateAlloc slab text = .ok (slab', text) := by
  unfold candidateAlloc
  have hlen := length_ite_resize slab (strLen text) (Char.ofNat 0)
  generalize (if strLen text > slab.length then resize slab (strLen text) (Char.ofNat 0) else slab) = sl at hlen
  have h := slabWriteChars_eq text [] sl (by have := length_le_strLen text; omega)
  simp only [List.nil_append, List.length_nil, Nat.zero_add] at h
  simp only [h, Res.bind_ok]
  rw [sliceToR_of_le (by simp)]
  simp

/-! ### The pure fuzzy matchers -/

/-- What a fuzzy matcher computes, given the positional bonuses, the comparison, the pattern text and the candidate: the
highlighted positions in insertion order, and the score. -/
abbrev PureFuzzy := (B : Nat → Int) → CharEq → (p s : List Char) → Option (List Nat × Int)

/-- `FzfV1::fuzzy`. -/
def v1Result : PureFuzzy := fun B eq p s => (v1Align eq s p).map (fun g => (g, alignScore B g))

/-- What a pattern contributes, ignoring `!`: inserted ranges, in order, and score. -/
def rawHit (U : Unicode) (pf : PureFuzzy) (st : Settings) (s : List Char) (p : Pattern) :
    Option (List Range × Int) :=
  let block := fun a => ([byteRange s a (a + p.text.length)],
    alignScore (posBonus U st.scheme s) (List.range' a p.text.length))
  match p.matchType with
  | .fuzzy => (pf (posBonus U st.scheme s) (st.eqOf p) p.text s).map (fun x => (x.1.map (charRange s), x.2))
  | .exact => (exactPos U st.scheme.intoInner (st.eqOf p) p s).map block
  | .prefixExact => (prefixPos (st.eqOf p) s p).map block
  | .suffixExact => (suffixPos (st.eqOf p) s p).map block
  | .equalExact => (equalPos (st.eqOf p) s p).map block

/-- What a pattern contributes. -/
def patHit (U : Unicode) (pf : PureFuzzy) (st : Settings) (s : List Char) (p : Pattern) :
    Option (List Range × Int) :=
  if p.isInverse then
    (match rawHit U pf st s p with
    | none => some ([], 0)
    | some _ => none)
  else rawHit U pf st s p

/-- What a condition contributes: its first matching alternative. -/
def condHit (U : Unicode) (pf : PureFuzzy) (st : Settings) (s : List Char) (ps : Condition) :
    Option (List Range × Int) := ps.findSome? (patHit U pf st s)

/-- Inserted ranges and score of a list of conditions; evaluation stops at the first that fails. -/
def condsHit (U : Unicode) (pf : PureFuzzy) (st : Settings) (s : List Char) : List Condition → List Range × Option Int
  | [] => ([], some 0)
  | c :: cs =>
    match condHit U pf st s c with
    | none => ([], none)
    | some h => (h.1 ++ (condsHit U pf st s cs).1, (condsHit U pf st s cs).2.map (h.2 + ·))

/-- Inserted ranges and score of a query. -/
def queryHit (U : Unicode) (pf : PureFuzzy) (st : Settings) (s : List Char) (q : FzfQuery) :
    List Range × Option Int :=
  if q.isEmpty then ([], some 0)
  else match q with
    | .notExtended p =>
      (match pf (posBonus U st.scheme s) (st.eqOf p) p.text s with
      | none => ([], none)
      | some x => (x.1.map (charRange s), some x.2))
    | .extended cs => condsHit U pf st s cs

/-- The parser yields no empty pattern, except for `parse_not_extended("")`. -/
def FzfQuery.NonEmpty : FzfQuery → Prop
  | .notExtended _ => True
  | .extended cs => ∀ c ∈ cs, ∀ p ∈ c, p.text ≠ []

/-! ### The refinement -/

/-- A metric implementation `I` whose states have settings (`has`) and whose `fuzzy` computes `pf`. -/
structure Refines {σ : Type} (U : Unicode) (I : FzfImpl σ) (has : σ → Settings → Prop) (pf : PureFuzzy) : Prop where
  alloc : ∀ m st s, has m st → ∃ m', I.allocChars m s = .ok (m', s) ∧ has m' st
  eq : ∀ m st p, has m st → I.charEq m p = st.eqOf p
  scheme : ∀ m st, has m st → I.scheme m = st.scheme.intoInner
  fuzzy : ∀ (R : Bool) m st (p : Pattern) (c : Candidate) (pre this : List Range), has m st → p.text ≠ [] → c.WF →
    Sep this → ∃ m', has m' st ∧ I.fuzzy R m p c ⟨pre ++ this, pre.length⟩ = .ok (m',
      match pf (posBonus U st.scheme c.toChars) (st.eqOf p) p.text c.toChars with
      | none => (⟨pre ++ this, pre.length⟩, none)
      | some x => (⟨pre ++ (if R then insertAll this (x.1.map (charRange c.toChars)) else this), pre.length⟩,
          some x.2))
  pos : ∀ B eq p s x, p ≠ [] → pf B eq p s = some x → ∀ i ∈ x.1, i < s.length

/-- The state of a matcher's result. -/
def hitOut (R : Bool) (pre this : List Range) : Option (List Range × Int) → MatchedRanges × Option Score
  | none => (⟨pre ++ this, pre.length⟩, none)
  | some h => (⟨pre ++ (if R then insertAll this h.1 else this), pre.length⟩, some h.2)

theorem occursAt_lt {R : Char → Char → Prop} {p s : List Char} {a : Nat} (h : OccursAt R p s a) :
    a + p.length ≤ s.length := by
  obtain ⟨x, m, y, rfl, hx, hf⟩ := h
  have := hf.length_eq
  simp; omega

theorem pmatch_le {eq : CharEq} {p s : List Char} {a : Nat} (h : pmatch eq p (s.drop a) = true) (hp : p ≠ []) :
    a + p.length ≤ s.length := by
  have h1 := pmatch_length h
  have h2 := List.length_pos_iff.mpr hp
  simp at h1; omega

theorem prefixPos_le {eq : CharEq} {s : List Char} {p : Pattern} {a : Nat} (hp : p.text ≠ [])
    (h : prefixPos eq s p = some a) : a + p.text.length ≤ s.length := by
  unfold prefixPos at h
  dsimp only at h
  split at h
  · rename_i h1
    simp at h; subst h
    exact pmatch_le h1.2 hp
  · simp at h

theorem suffixPos_le {eq : CharEq} {s : List Char} {p : Pattern} {a : Nat}
    (h : suffixPos eq s p = some a) : a + p.text.length ≤ s.length := by
  unfold suffixPos at h
  dsimp only at h
  split at h
  · rename_i h1
    simp at h; subst h
    omega
  · simp at h

theorem equalPos_le {eq : CharEq} {s : List Char} {p : Pattern} {a : Nat} (hp : p.text ≠ [])
    (h : equalPos eq s p = some a) : a + p.text.length ≤ s.length := by
  unfold equalPos at h
  dsimp only at h
  split at h
  · rename_i h1
    simp at h; subst h
    exact pmatch_le h1.2.2.2 hp
  · simp at h

theorem computeBonus_nonneg (S : FzfScheme) (x y : CharClass) : 0 ≤ computeBonus x y S.intoInner := by
  rw [computeBonus_eq]; exact bonus_nonneg _ _ _

theorem exactPos_occurs {U : Unicode} {S : FzfScheme} {eq : CharEq} {s : List Char} {p : Pattern} {a : Nat}
    (hp : p.text ≠ []) (h : exactPos U S.intoInner eq p s = some a) : OccursAt (rel eq) p.text s a := by
  have := exactMatch_eq U S.intoInner false (c := .unicode s) (by simp [Candidate.WF]) p eq hp
    (computeBonus_nonneg S) [] [] sep_nil
  exact (this.2.2 a h).1

variable {σ : Type} {U : Unicode} {I : FzfImpl σ} {has : σ → Settings → Prop} {pf : PureFuzzy}

/-- Ranges inserted by a pattern are non-empty. -/
theorem rawHit_nonempty (hI : Refines U I has pf) {st : Settings} {s : List Char} {p : Pattern} (hp : p.text ≠ [])
    {h : List Range × Int} (hh : rawHit U pf st s p = some h) : ∀ r ∈ h.1, r.start < r.stop := by
  have hpos := List.length_pos_iff.mpr hp
  have hblock : ∀ (o : Option Nat), (∀ a, o = some a → a + p.text.length ≤ s.length) →
      o.map (fun a => ([byteRange s a (a + p.text.length)],
        alignScore (posBonus U st.scheme s) (List.range' a p.text.length))) = some h →
      ∀ r ∈ h.1, r.start < r.stop := by
    intro o ho he
    cases o with
    | none => simp at he
    | some a =>
      simp at he; subst he
      intro r hr
      simp at hr; subst hr
      exact byteRange_nonempty (by omega) (ho a rfl)
  unfold rawHit at hh
  dsimp only at hh
  cases hm : p.matchType <;> rw [hm] at hh <;> simp only at hh
  · cases hx : pf (posBonus U st.scheme s) (st.eqOf p) p.text s with
    | none => rw [hx] at hh; simp at hh
    | some x =>
      rw [hx] at hh; simp at hh; subst hh
      intro r hr
      simp at hr
      obtain ⟨i, hi, rfl⟩ := hr
      exact charRange_nonempty (hI.pos _ _ _ _ x hp hx i hi)
  · exact hblock _ (fun a ha => occursAt_lt (exactPos_occurs hp ha)) hh
  · exact hblock _ (fun a ha => prefixPos_le hp ha) hh
  · exact hblock _ (fun a ha => suffixPos_le ha) hh
  · exact hblock _ (fun a ha => equalPos_le hp ha) hh

theorem patHit_nonempty (hI : Refines U I has pf) {st : Settings} {s : List Char} {p : Pattern} (hp : p.text ≠ [])
    {h : List Range × Int} (hh : patHit U pf st s p = some h) : ∀ r ∈ h.1, r.start < r.stop := by
  unfold patHit at hh
  split at hh
  · split at hh
    · simp at hh; subst hh; simp
    · simp at hh
  · exact rawHit_nonempty hI hp hh

theorem outcome_hitOut (S : FzfScheme) (R : Bool) (p : Pattern) (s : List Char) (pre this : List Range) (o : Option Nat) :
    outcome U S.intoInner R p s pre this o = hitOut R pre this (o.map fun a => ([byteRange s a (a + p.text.length)],
        alignScore (posBonus U S s) (List.range' a p.text.length))) := by
  cases o with
  | none => rfl
  | some a => simp only [outcome, Option.map_some, hitOut, insertAll_cons, insertAll_nil, bonusOf_eq]

theorem score_eq (hI : Refines U I has pf) (R : Bool) {m : σ} {st : Settings} (hm : has m st) {p : Pattern}
    (hp : p.text ≠ []) {c : Candidate} (hwf : c.WF) (pre this : List Range) (hsep : Sep this) :
    ∃ m', has m' st ∧ I.score U R m p c ⟨pre ++ this, pre.length⟩ =
      .ok (m', hitOut R pre this (patHit U pf st c.toChars p)) := by
  have key : ∀ (o : Option (List Range × Int)) (m' : σ), has m' st → rawHit U pf st c.toChars p = o →
      ∃ m'', has m'' st ∧
      ((.ok (m', hitOut (if p.isInverse then false else R) pre this o) : Res _) >>= fun x =>
        match x with
        | (self, ranges, score) =>
          match score.isSome, p.isInverse with
          | true, false => (pure (self, ranges, score) : Res (σ × MatchedRanges × Option Score))
          | false, true => pure (self, ranges, some 0)
          | _, _ => pure (self, ranges, none)) =
        .ok (m'', hitOut R pre this (patHit U pf st c.toChars p)) := by
    intro o m' hm' ho
    refine ⟨m', hm', ?_⟩
    unfold patHit
    rw [ho]
    cases hi : p.isInverse <;> cases o <;> simp [hitOut]
  have hblock : ∀ (o : Option Nat) (f : Res (MatchedRanges × Option Score)),
      f = .ok (outcome U st.scheme.intoInner (if p.isInverse then false else R) p c.toChars pre this o) →
      rawHit U pf st c.toChars p = o.map (fun a => ([byteRange c.toChars a (a + p.text.length)],
        alignScore (posBonus U st.scheme c.toChars) (List.range' a p.text.length))) →
      ∃ m'', has m'' st ∧
      (f >>= fun x => (pure (m, x.1, x.2) : Res (σ × MatchedRanges × Option Score)) >>= fun x =>
        match x with
        | (self, ranges, score) =>
          match score.isSome, p.isInverse with
          | true, false => (pure (self, ranges, score) : Res (σ × MatchedRanges × Option Score))
          | false, true => pure (self, ranges, some 0)
          | _, _ => pure (self, ranges, none)) =
        .ok (m'', hitOut R pre this (patHit U pf st c.toChars p)) := by
    intro o f hf hr
    rw [outcome_hitOut] at hf
    rw [hf]
    exact key _ m hm hr
  unfold FzfImpl.score
  dsimp only
  cases hmt : p.matchType
  · obtain ⟨m', hm', hf⟩ := hI.fuzzy (if p.isInverse then false else R) m st p c pre this hm hp hwf hsep
    dsimp only
    rw [hf]
    have := key (rawHit U pf st c.toChars p) m' hm' rfl
    obtain ⟨m'', h1, h2⟩ := this
    refine ⟨m'', h1, ?_⟩
    rw [← h2]
    congr 2
    unfold rawHit
    rw [hmt]
    dsimp only
    cases pf (posBonus U st.scheme c.toChars) (st.eqOf p) p.text c.toChars <;> rfl
  · dsimp only
    have he := (exactMatch_eq U st.scheme.intoInner (if p.isInverse then false else R) hwf p (st.eqOf p) hp
      (computeBonus_nonneg st.scheme) pre this hsep).1
    rw [hI.eq m st p hm, hI.scheme m st hm]
    refine hblock (exactPos U st.scheme.intoInner (st.eqOf p) p c.toChars) _ ?_ ?_
    · rw [he]
      cases exactPos U st.scheme.intoInner (st.eqOf p) p c.toChars <;> rfl
    · unfold rawHit; rw [hmt]
  · dsimp only
    rw [hI.eq m st p hm, hI.scheme m st hm]
    refine hblock (prefixPos (st.eqOf p) c.toChars p) _
      (prefixMatch_eq U st.scheme.intoInner _ hwf p (st.eqOf p) hp pre this hsep) ?_
    unfold rawHit; rw [hmt]
  · dsimp only
    rw [hI.eq m st p hm, hI.scheme m st hm]
    refine hblock (suffixPos (st.eqOf p) c.toChars p) _
      (suffixMatch_eq U st.scheme.intoInner _ hwf p (st.eqOf p) hp pre this hsep) ?_
    unfold rawHit; rw [hmt]
  · dsimp only
    rw [hI.eq m st p hm, hI.scheme m st hm]
    refine hblock (equalPos (st.eqOf p) c.toChars p) _
      (equalMatch_eq U st.scheme.intoInner _ hwf p (st.eqOf p) hp pre this hsep) ?_
    unfold rawHit; rw [hmt]

theorem sep_hit (R : Bool) {this : List Range} (hsep : Sep this) {h : List Range × Int}
    (hh : ∀ r ∈ h.1, r.start < r.stop) : Sep (if R then insertAll this h.1 else this) := by
  split
  · exact sep_insertAll hsep hh
  · exact hsep

theorem condHit_nonempty (hI : Refines U I has pf) {st : Settings} {s : List Char} {ps : Condition}
    (hp : ∀ p ∈ ps, p.text ≠ []) {h : List Range × Int} (hh : condHit U pf st s ps = some h) :
    ∀ r ∈ h.1, r.start < r.stop := by
  obtain ⟨p, hps, hh⟩ := List.exists_of_findSome?_eq_some hh
  exact patHit_nonempty hI (hp p hps) hh

theorem scoreCondition_eq (hI : Refines U I has pf) (R : Bool) {st : Settings} {c : Candidate} (hwf : c.WF)
    (pre this : List Range) (hsep : Sep this) : ∀ (ps : List Pattern) (m : σ), has m st → (∀ p ∈ ps, p.text ≠ []) →
    ∃ m', has m' st ∧ I.scoreCondition U R c ps m ⟨pre ++ this, pre.length⟩ =
      .ok (m', hitOut R pre this (condHit U pf st c.toChars ps)) := by
  intro ps
  induction ps with
  | nil => intro m hm _; exact ⟨m, hm, rfl⟩
  | cons p ps ih =>
    intro m hm hp
    obtain ⟨m1, hm1, h1⟩ := score_eq hI R hm (hp p (by simp)) hwf pre this hsep
    unfold FzfImpl.scoreCondition
    rw [h1]
    cases hh : patHit U pf st c.toChars p with
    | none =>
      obtain ⟨m2, hm2, h2⟩ := ih m1 hm1 (fun q hq => hp q (by simp [hq]))
      refine ⟨m2, hm2, ?_⟩
      simp only [condHit, List.findSome?_cons, hh]
      exact h2
    | some h =>
      refine ⟨m1, hm1, ?_⟩
      simp only [condHit, List.findSome?_cons, hh]
      rfl

/-- The result of a list of conditions. -/
def condsOut (R : Bool) (pre this : List Range) (total : Int) (x : List Range × Option Int) :
    MatchedRanges × Option Score :=
  (⟨pre ++ (if R then insertAll this x.1 else this), pre.length⟩, x.2.map (total + ·))

theorem insertAll_append (this a b : List Range) : insertAll this (a ++ b) = insertAll (insertAll this a) b := by
  simp [insertAll]

theorem scoreConditions_eq (hI : Refines U I has pf) (R : Bool) {st : Settings} {c : Candidate} (hwf : c.WF)
    (pre : List Range) : ∀ (cs : List Condition) (this : List Range) (total : Int) (m : σ), Sep this → has m st →
    (∀ d ∈ cs, ∀ p ∈ d, p.text ≠ []) →
    ∃ m', has m' st ∧ I.scoreConditions U R c cs m ⟨pre ++ this, pre.length⟩ total =
      .ok (m', condsOut R pre this total (condsHit U pf st c.toChars cs)) := by
  intro cs
  induction cs with
  | nil => intro this total m _ hm _; exact ⟨m, hm, by simp [FzfImpl.scoreConditions, condsOut, condsHit]⟩
  | cons d cs ih =>
    intro this total m hsep hm hp
    obtain ⟨m1, hm1, h1⟩ := scoreCondition_eq hI R hwf pre this hsep d m hm (hp d (by simp))
    unfold FzfImpl.scoreConditions
    rw [h1]
    cases hh : condHit U pf st c.toChars d with
    | none =>
      refine ⟨m1, hm1, ?_⟩
      simp [condsHit, hh, condsOut, hitOut]
    | some h =>
      obtain ⟨m2, hm2, h2⟩ := ih (if R then insertAll this h.1 else this) (total + h.2) m1
        (sep_hit R hsep (condHit_nonempty hI (hp d (by simp)) hh)) hm1 (fun d' hd' => hp d' (by simp [hd']))
      refine ⟨m2, hm2, ?_⟩
      simp only [hitOut, Res.bind_ok, condsHit, hh]
      rw [h2]
      simp only [condsOut, insertAll_append, Option.map_map, Function.comp_def]
      congr 3
      · cases R <;> simp
      · congr 1; funext x; exact Int.add_assoc _ _ _

/-- **A call never panics, keeps the settings, and computes `queryHit`.** -/
theorem distance_eq (hI : Refines U I has pf) (R : Bool) {m : σ} {st : Settings} (hm : has m st) (q : FzfQuery)
    (hq : q.NonEmpty) (s : List Char) (buf : List Range) :
    ∃ m', has m' st ∧ I.distance U R m q s buf =
      .ok (m', buf ++ (if R then insertAll [] (queryHit U pf st s q).1 else []),
        (queryHit U pf st s q).2.map FzfDistance.fromScore) := by
  unfold FzfImpl.distance queryHit
  by_cases hemp : q.isEmpty
  · rw [if_pos hemp, if_pos hemp]
    exact ⟨m, hm, by simp⟩
  rw [if_neg hemp, if_neg hemp]
  have key : ∀ (m : σ) (c : Candidate), has m st → c.WF → c.toChars = s →
      ∃ m', has m' st ∧ ((do
        let ranges := MatchedRanges.ofVec buf
        let (self, ranges, s) ←
          match q with
          | .notExtended pattern => I.fuzzy R m pattern c ranges
          | .extended conditions => I.scoreConditions U R c conditions m ranges 0
        return (self, ranges.ranges, s.map FzfDistance.fromScore)) : Res (σ × List Range × Option FzfDistance)) =
        .ok (m', buf ++ (if R then insertAll [] (match q with
          | .notExtended p =>
            (match pf (posBonus U st.scheme s) (st.eqOf p) p.text s with
            | none => ([], none)
            | some x => (x.1.map (charRange s), some x.2))
          | .extended cs => condsHit U pf st s cs).1 else []),
        (match q with
          | .notExtended p =>
            (match pf (posBonus U st.scheme s) (st.eqOf p) p.text s with
            | none => ([], none)
            | some x => (x.1.map (charRange s), some x.2))
          | .extended cs => condsHit U pf st s cs).2.map FzfDistance.fromScore) := by
    intro m c hm hwf hc
    subst hc
    have hbuf : MatchedRanges.ofVec buf = ⟨buf ++ [], buf.length⟩ := by simp [MatchedRanges.ofVec]
    dsimp only
    rw [hbuf]
    cases q with
    | notExtended p =>
      have hp : p.text ≠ [] := by
        intro h; apply hemp; simp [FzfQuery.isEmpty, Pattern.isEmpty, h]
      obtain ⟨m', hm', hf⟩ := hI.fuzzy R m st p c buf [] hm hp hwf sep_nil
      refine ⟨m', hm', ?_⟩
      dsimp only
      rw [hf]
      cases pf (posBonus U st.scheme c.toChars) (st.eqOf p) p.text c.toChars <;> simp
    | extended cs =>
      obtain ⟨m', hm', hf⟩ := scoreConditions_eq hI R hwf buf cs [] 0 m sep_nil hm hq
      refine ⟨m', hm', ?_⟩
      dsimp only
      rw [hf]
      simp [condsOut]
  by_cases ha : strIsAscii s = true
  · obtain ⟨h1, h2⟩ := ascii_candidate ha
    rw [if_pos ha]
    exact key m _ hm h1 h2
  · rw [if_neg ha]
    obtain ⟨m1, halloc, hm1⟩ := hI.alloc m st s hm
    rw [halloc]
    exact key m1 (.unicode s) hm1 (by simp [Candidate.WF]) rfl

/-! ### The two metrics -/

/-- `m` has the settings `st`. -/
structure FzfV1.Has (m : FzfV1) (st : Settings) : Prop where
  caseSensitivity : m.caseSensitivity = st.caseSensitivity
  normalization : m.candidateNormalization = st.normalization
  scheme : m.scoringScheme = st.scheme.intoInner

@[inherit_doc FzfV1.Has]
structure FzfV2.Has (m : FzfV2) (st : Settings) : Prop where
  caseSensitivity : m.caseSensitivity = st.caseSensitivity
  normalization : m.candidateNormalization = st.normalization
  scheme : m.scoringScheme = st.scheme.intoInner

theorem FzfV1.refines (U : Unicode) : Refines U (FzfV1.impl U) FzfV1.Has v1Result where
  alloc := by
    intro m st s h
    obtain ⟨slab, hs⟩ := candidateAlloc_eq m.candidateSlab s
    refine ⟨{ m with candidateSlab := slab }, ?_, h.1, h.2, h.3⟩
    simp [FzfV1.impl, FzfV1.allocChars, hs]
  eq := by
    intro m st p h
    simp [FzfV1.impl, FzfV1.charEq, Settings.eqOf, h.1, h.2]
  scheme := by
    intro m st h
    simp [FzfV1.impl, h.3]
  fuzzy := by
    intro R m st p c pre this h hp hwf hsep
    refine ⟨m, h, ?_⟩
    show FzfV1.fuzzy U R m p c _ = _
    rw [FzfV1.fuzzy_eq U R m p hp hwf pre this hsep, h.3, bonusOf_eq]
    have : m.charEq p = st.eqOf p := by simp [FzfV1.charEq, Settings.eqOf, h.1, h.2]
    rw [this]
    unfold v1Result
    cases v1Align (st.eqOf p) c.toChars p.text <;> rfl
  pos := by
    intro B eq p s x hp hx i hi
    unfold v1Result at hx
    cases hv : v1Align eq s p with
    | none => rw [hv] at hx; simp at hx
    | some g =>
      rw [hv] at hx; simp at hx; subst hx
      obtain ⟨_, _, _, _, _, hal, _⟩ := v1Align_some hp hv
      exact hal.lt_length i hi

theorem tb_le {h n : Nat} {H : Nat → Nat → Int} {C : Nat → Nat → Nat} {prefer : Bool} {row col : Nat} :
    ∀ i ∈ tb h n H C prefer row col, i ≤ col := by
  induction col generalizing prefer row with
  | zero =>
    intro i hi
    unfold tb at hi
    split at hi
    · simp at hi; omega
    · simp at hi
  | succ c ih =>
    intro i hi
    unfold tb at hi
    by_cases hc : H row (c + 1) > (if row = 0 then 0 else H (row - 1) c) ∧
        (H row (c + 1) > H row c ∨ (H row (c + 1) = H row c ∧ prefer = true))
    · rw [if_pos hc] at hi
      rcases List.mem_cons.mp hi with rfl | hi
      · exact Nat.le_refl _
      · split at hi
        · simp at hi
        · have := ih i hi; omega
    · rw [if_neg hc] at hi
      have := ih i hi; omega

theorem v2Result_pos {B : Nat → Int} {eq : CharEq} {p s : List Char} {x : List Nat × Int} (hp : p ≠ [])
    (hx : v2Result B eq p s = some x) : ∀ i ∈ x.1, i < s.length := by
  intro i hi
  unfold v2Result at hx
  split at hx
  · unfold singleResult at hx
    dsimp only at hx
    split at hx
    · simp at hx
    · rename_i h0
      obtain rfl := Option.some.inj hx
      obtain rfl := List.mem_singleton.mp hi
      rcases bestPos_mem B (idxsFrom (fun x => eq (p.headD 'a') x) s 0) (0, 0) with h | h
      · rw [h] at h0; exact absurd rfl h0
      · obtain ⟨_, x, hx, _⟩ := mem_idxsFrom.mp h
        exact (List.getElem?_eq_some_iff.mp hx).1
  · cases hg : greedyFrom eq s p 0 with
    | none => rw [hg] at hx; simp at hx
    | some g =>
      rw [hg] at hx; simp at hx; subst hx
      simp only [v2Trace, List.mem_map] at hi
      obtain ⟨j, hj, rfl⟩ := hi
      have hj := tb_le j hj
      obtain ⟨hW, _⟩ := windowOk hp hg
      have h1 := hW.le
      have h2 := hW.lt
      have h3 := hW.len
      have h4 : (v2Best B eq p s g (p.length - 1)).2 % (v2Chars eq p s g).length < (v2Chars eq p s g).length :=
        Nat.mod_lt _ (by omega)
      omega

theorem FzfV2.refines (U : Unicode) : Refines U (FzfV2.impl U) FzfV2.Has v2Result where
  alloc := by
    intro m st s h
    obtain ⟨slab, hs⟩ := candidateAlloc_eq m.candidateSlab s
    refine ⟨{ m with candidateSlab := slab }, ?_, h.1, h.2, h.3⟩
    simp [FzfV2.impl, FzfV2.allocChars, hs]
  eq := by
    intro m st p h
    simp [FzfV2.impl, FzfV2.charEq, Settings.eqOf, h.1, h.2]
  scheme := by
    intro m st h
    simp [FzfV2.impl, h.3]
  fuzzy := by
    intro R m st p c pre this h hp hwf hsep
    obtain ⟨slab, hf⟩ := FzfV2.fuzzy_eq U R m p hp hwf
      (by intro i; rw [h.3, bonusOf_eq]; exact ⟨posBonus_nonneg _ _ _ _, posBonus_le _ _ _ _⟩) pre this hsep
    refine ⟨{ m with slab := slab }, ⟨h.1, h.2, h.3⟩, ?_⟩
    show FzfV2.fuzzy U R m p c _ = _
    rw [hf, h.3, bonusOf_eq]
    have : m.charEq p = st.eqOf p := by simp [FzfV2.charEq, Settings.eqOf, h.1, h.2]
    rw [this]
    cases v2Result (posBonus U st.scheme c.toChars) (st.eqOf p) p.text c.toChars <;> rfl
  pos := fun B eq p s x hp hx => v2Result_pos hp hx

end Norm
