import Verif.Proofs.StepsExact
import Verif.Proofs.StepsV2
import Verif.Proofs.Highlights

/-!
# Helper lemmas: how many steps a call takes

`Cost T F E`: on a candidate of `L` bytes, `fuzzy` takes at most `F m L` steps for a pattern of `m` characters, and at most `E m L` more
when it also reports ranges. `distance_steps` sums this up over the patterns of a query. -/

namespace Norm

open Spec Timed

/-- A bound of the steps of `allocChars` and `fuzzy`. -/
structure Cost {σ : Type} (T : TimedImpl σ) (F E : Nat → Nat → Nat) : Prop where
  alloc : ∀ m s, (T.allocChars m s).steps ≤ strLen s + s.length
  fuzzy : ∀ R m (p : Pattern) (c : Candidate) (ranges : MatchedRanges) (L : Nat), 0 < p.charLen → c.charLen ≤ L → ranges.own ≤ L →
    (T.fuzzy R m p c ranges).steps ≤ F p.charLen L + extra R (E p.charLen L)

/-- The steps for one pattern. -/
def patCost (F : Nat → Nat → Nat) (L : Nat) (p : Pattern) : Nat :=
  match p.matchType with
  | .fuzzy => F p.charLen L
  | .exact => 2 * (p.charLen * L) + (2 * L + 2)
  | _ => 6 * L + 3

/-- The further steps for the ranges of one pattern. -/
def patExtra (E : Nat → Nat → Nat) (L : Nat) (p : Pattern) : Nat :=
  match p.matchType with
  | .fuzzy => E p.charLen L
  | _ => 3 * L + 1

theorem extra_mono (R : Bool) {a b : Nat} (h : a ≤ b) : extra R a ≤ extra R b := by
  cases R
  · exact Nat.le_refl _
  · exact h

theorem v1_cost (U : Unicode) : Cost (Timed.V1.impl U) (fun _ L => 6 * L + 4) (fun m L => L + m * (4 * L + 1)) where
  alloc m s := bind_le (candidateAlloc_steps ..) (fun _ _ => Nat.le_refl 0) (Nat.le_refl _)
  fuzzy R m p c ranges L _ hL ho := by
    refine Nat.le_trans (v1_fuzzy_steps U R m p c ranges) ?_
    have : c.charLen + p.charLen * (2 * (ranges.own + c.charLen) + 1) ≤ L + p.charLen * (4 * L + 1) :=
      Nat.add_le_add hL (Nat.mul_le_mul_left _ (by omega))
    have := extra_mono R this
    omega

theorem v2_cost (U : Unicode) : Cost (Timed.V2.impl U) (fun m L => 24 * (m * L) + 4 * m + 3) (fun m L => 6 * L + m * (5 * L + 2)) where
  alloc m s := bind_le (candidateAlloc_steps ..) (fun _ _ => Nat.le_refl 0) (Nat.le_refl _)
  fuzzy R m p c ranges L hp hL ho := by
    refine Nat.le_trans (v2_fuzzy_steps U R m p c ranges hp) ?_
    have : 6 * c.charLen + p.charLen * (3 * c.charLen + 2 * ranges.own + 2) ≤ 6 * L + p.charLen * (5 * L + 2) :=
      Nat.add_le_add (by omega) (Nat.mul_le_mul_left _ (by omega))
    have := extra_mono R this
    have : p.charLen * c.charLen ≤ p.charLen * L := Nat.mul_le_mul_left _ hL
    omega

variable {σ : Type} {U : Unicode} {T : TimedImpl σ} {F E : Nat → Nat → Nat}

theorem score_steps (hT : Cost T F E) (R : Bool) (m : σ) (p : Pattern) (c : Candidate) (ranges : MatchedRanges) (L : Nat)
    (hp : 0 < p.charLen) (hL : c.charLen ≤ L) (ho : ranges.own ≤ L) :
    (T.score U R m p c ranges).steps ≤ patCost F L p + extra R (patExtra E L p) := by
  unfold TimedImpl.score
  have hR : ∀ n, extra (if p.isInverse then false else R) n ≤ extra R n := by
    intro n
    cases p.isInverse
    · exact Nat.le_refl _
    · exact Nat.zero_le _
  have hm : p.charLen * c.charLen ≤ p.charLen * L := Nat.mul_le_mul_left _ hL
  have hE : ∀ R', extra R' (c.charLen + (2 * ranges.own + 1)) ≤ extra R' (3 * L + 1) := fun R' => extra_mono R' (by omega)
  generalize hR' : (if p.isInverse then false else R) = R' at *
  have fin : ∀ x : σ × MatchedRanges × Option Score,
      (match x with
        | (self, ranges, score) =>
          match score.isSome, p.isInverse with
          | true, false => (pure (self, ranges, score) : Timed (σ × MatchedRanges × Option Score))
          | false, true => pure (self, ranges, some 0)
          | _, _ => pure (self, ranges, none)).steps ≤ 0 := by
    rintro ⟨a, b, c⟩
    dsimp only
    split <;> exact Nat.le_refl _
  unfold patCost patExtra
  cases p.matchType <;> dsimp only
  · exact Nat.le_trans (bind_le (hT.fuzzy R' m p c ranges L hp hL ho) (fun x _ => fin x) (Nat.le_refl _)) (Nat.add_le_add_left (hR _) _)
  all_goals
    have h1 := hE R'
    have h2 := hR (3 * L + 1)
  · exact bind_le (exactMatch_steps ..) (b := 0) (fun x _ => by rw [steps_pure_bind]; exact fin (m, x.1, x.2)) (by omega)
  · exact bind_le (prefixMatch_steps ..) (b := 0) (fun x _ => by rw [steps_pure_bind]; exact fin (m, x.1, x.2)) (by omega)
  · exact bind_le (suffixMatch_steps ..) (b := 0) (fun x _ => by rw [steps_pure_bind]; exact fin (m, x.1, x.2)) (by omega)
  · exact bind_le (equalMatch_steps ..) (b := 0) (fun x _ => by rw [steps_pure_bind]; exact fin (m, x.1, x.2)) (by omega)

/-- Separate ranges within the first `L` bytes are at most `L`. -/
theorem sep_length {L : Nat} : ∀ {l : List Range} (k : Nat), Sep l → (∀ r ∈ l, k ≤ r.start ∧ r.stop ≤ L) → l.length ≤ L - k := by
  intro l
  induction l with
  | nil => intro k _ _; exact Nat.zero_le _
  | cons r l ih =>
    intro k hs hl
    obtain ⟨h1, h2, h3⟩ := sep_cons.mp hs
    have hr := hl r (by simp)
    have := ih (r.start + 1) h3 (fun x hx => ⟨by have := h2 x hx; omega, (hl x (by simp [hx])).2⟩)
    rw [List.length_cons]
    omega

theorem own_le {s : List Char} {pre this : List Range} (hs : Sep this) (hl : ∀ r ∈ this, Slice s r) :
    (⟨pre ++ this, pre.length⟩ : MatchedRanges).own ≤ strLen s := by
  unfold MatchedRanges.own
  simp only [List.length_append, Nat.add_sub_cancel_left]
  refine sep_length 0 hs fun r hr => ⟨Nat.zero_le _, ?_⟩
  obtain ⟨i, j, _, h2, rfl⟩ := hl r hr
  have := byteLen_take_le (s := s) (i := j) (j := s.length) h2
  rw [List.take_length] at this
  rw [← strLen_eq_byteLen s] at this
  exact this

/-- The steps for one condition. -/
def condCost (F E : Nat → Nat → Nat) (R : Bool) (L : Nat) (ps : List Pattern) : Nat :=
  (ps.map fun p => 1 + (patCost F L p + extra R (patExtra E L p))).sum

/-- The steps for a list of conditions. -/
def condsCost (F E : Nat → Nat → Nat) (R : Bool) (L : Nat) (cs : List Condition) : Nat :=
  (cs.map fun ps => 1 + condCost F E R L ps).sum

variable {I : FzfImpl σ} {has : σ → Settings → Prop} {a : Algo} {st : Settings}

theorem scoreCondition_steps (hT : Cost T F E) (hA : T.Agrees I) (hI : Refines U I has (pureOf a)) (R : Bool) {c : Candidate} (hwf : c.WF)
    (hL : c.charLen ≤ strLen c.toChars) (pre this : List Range) (hsep : Sep this) (hs : ∀ r ∈ this, Slice c.toChars r) :
    ∀ (ps : List Pattern) (m : σ), has m st → (∀ p ∈ ps, p.text ≠ []) →
    (T.scoreCondition U R c ps m ⟨pre ++ this, pre.length⟩).steps ≤ condCost F E R (strLen c.toChars) ps := by
  intro ps
  induction ps with
  | nil => intro m _ _; exact Nat.le_refl _
  | cons p ps ih =>
    intro m hm hp
    have hp1 := hp p (by simp)
    unfold TimedImpl.scoreCondition
    rw [steps_tick_bind]
    unfold condCost
    rw [List.map_cons, List.sum_cons, Nat.add_assoc]
    refine Nat.add_le_add_left ?_ _
    refine bind_le (score_steps hT R m p c _ _ (List.length_pos_iff.mpr hp1) hL (own_le hsep hs)) (fun x hx => ?_) (Nat.le_refl _)
    rw [TimedImpl.res_score hA] at hx
    obtain ⟨m1, hm1, h1⟩ := score_eq hI R hm hp1 hwf pre this hsep
    rw [h1] at hx
    cases hx
    cases patHit U (pureOf a) st c.toChars p with
    | some h => exact Nat.zero_le _
    | none => exact ih m1 hm1 (fun q hq => hp q (by simp [hq]))

theorem scoreConditions_steps (hT : Cost T F E) (hA : T.Agrees I) (hI : Refines U I has (pureOf a)) (R : Bool) {c : Candidate} (hwf : c.WF)
    (hL : c.charLen ≤ strLen c.toChars) (pre : List Range) : ∀ (cs : List Condition) (this : List Range) (total : Score) (m : σ),
    Sep this → (∀ r ∈ this, Slice c.toChars r) → has m st → (∀ d ∈ cs, ∀ p ∈ d, p.text ≠ []) →
    (T.scoreConditions U R c cs m ⟨pre ++ this, pre.length⟩ total).steps ≤ condsCost F E R (strLen c.toChars) cs := by
  intro cs
  induction cs with
  | nil => intro this total m _ _ _ _; exact Nat.le_refl _
  | cons d cs ih =>
    intro this total m hsep hs hm hp
    unfold TimedImpl.scoreConditions
    rw [steps_tick_bind]
    unfold condsCost
    rw [List.map_cons, List.sum_cons, Nat.add_assoc]
    refine Nat.add_le_add_left ?_ _
    refine bind_le (scoreCondition_steps hT hA hI R hwf hL pre this hsep hs d m hm (hp d (by simp))) (fun x hx => ?_) (Nat.le_refl _)
    rw [TimedImpl.res_scoreCondition hA] at hx
    obtain ⟨m1, hm1, h1⟩ := scoreCondition_eq hI R hwf pre this hsep d m hm (hp d (by simp))
    rw [h1] at hx
    cases hx
    cases hc : condHit U (pureOf a) st c.toChars d with
    | none => exact Nat.zero_le _
    | some h =>
      obtain ⟨p, hpd, hh⟩ := List.exists_of_findSome?_eq_some hc
      have hsl := patHit_slice (hp d (by simp) p hpd) hh
      refine ih _ _ m1 (sep_hit R hsep fun r hr => (hsl r hr).lt) ?_ hm1 (fun d' hd' => hp d' (by simp [hd']))
      cases R
      · exact hs
      · exact insertAll_slice hsep hs hsl

/-- The steps for a query that is not empty. -/
def queryCost (F E : Nat → Nat → Nat) (R : Bool) (L : Nat) : FzfQuery → Nat
  | .notExtended p => F p.charLen L + extra R (E p.charLen L)
  | .extended cs => condsCost F E R L cs

theorem distance_steps (hT : Cost T F E) (hA : T.Agrees I) (hI : Refines U I has (pureOf a)) (R : Bool) {m : σ} (hm : has m st)
    (q : FzfQuery) (hq : q.NonEmpty) (s : List Char) (buf : List Range) :
    (T.distance U R m q s buf).steps ≤ if q.isEmpty then 0 else 3 * strLen s + queryCost F E R (strLen s) q := by
  unfold TimedImpl.distance
  by_cases hemp : q.isEmpty
  · rw [if_pos hemp, if_pos hemp]; exact Nat.le_refl _
  rw [if_neg hemp, if_neg hemp, steps_tick_bind]
  have hls := length_le_strLen s
  have key : ∀ (m : σ) (c : Candidate), has m st → c.WF → c.toChars = s → c.charLen ≤ strLen s →
      ((do
        let (self, ranges, s) ←
          match q with
          | .notExtended pattern => T.fuzzy R m pattern c (MatchedRanges.ofVec buf)
          | .extended conditions => T.scoreConditions U R c conditions m (MatchedRanges.ofVec buf) 0
        return (self, ranges.ranges, s.map FzfDistance.fromScore)) : Timed (σ × List Range × Option FzfDistance)).steps ≤
        queryCost F E R (strLen s) q := by
    intro m c hm hwf hc hL
    have hbuf : MatchedRanges.ofVec buf = ⟨buf ++ [], buf.length⟩ := by simp [MatchedRanges.ofVec]
    rw [hbuf]
    cases q with
    | notExtended p =>
      refine bind_le (b := 0) ?_ (fun _ _ => Nat.le_refl 0) (Nat.le_refl _)
      refine hT.fuzzy R m p c _ _ ?_ hL (own_le sep_nil (by simp))
      refine List.length_pos_iff.mpr fun h => hemp ?_
      simp [FzfQuery.isEmpty, Pattern.isEmpty, h]
    | extended cs =>
      have := scoreConditions_steps (E := E) hT hA hI R hwf (by rw [hc]; exact hL) buf cs [] 0 m sep_nil (by simp) hm hq
      rw [hc] at this
      exact bind_le this (b := 0) (fun _ _ => Nat.le_refl 0) (Nat.le_refl _)
  by_cases ha : strIsAscii s = true
  · obtain ⟨h1, h2⟩ := ascii_candidate ha
    rw [if_pos ha, steps_pure_bind]
    have := key m _ hm h1 h2 (Nat.le_refl _)
    exact Nat.le_trans (Nat.add_le_add_left this _) (by omega)
  · rw [if_neg ha]
    have hin : (do
        let (self, chars) ← T.allocChars m s
        return (self, Candidate.unicode chars) : Timed (σ × Candidate)).steps ≤ strLen s + s.length :=
      bind_le (hT.alloc m s) (b := 0) (fun _ _ => Nat.le_refl 0) (Nat.le_refl _)
    have hle : strLen s + (strLen s + s.length + queryCost F E R (strLen s) q) ≤ 3 * strLen s + queryCost F E R (strLen s) q := by omega
    refine Nat.le_trans (Nat.add_le_add_left (bind_le hin (b := queryCost F E R (strLen s) q) (fun x hx => ?_) (Nat.le_refl _)) _) hle
    rw [Timed.res_bind, hA.allocChars] at hx
    obtain ⟨m1, halloc, hm1⟩ := hI.alloc m st s hm
    rw [halloc] at hx
    cases hx
    exact key m1 (.unicode s) hm1 (by simp [Candidate.WF]) rfl hls

end Norm
