import Verif.Proofs.StepsMetric
import Verif.Proofs.StepsV2

/-!
# Helper lemmas: `FzfV2` goes over two matrices for each match -/

namespace Norm

open Spec Timed

/-- If the computation returns, it takes at least `n` steps. -/
def AtLeast {α : Type} (n : Nat) (x : Timed α) : Prop := ∀ v, x.res = .ok v → n ≤ x.steps

namespace AtLeast

variable {α β : Type} {x : Timed α} {f : α → Timed β} {a b n : Nat}

theorem zero : AtLeast 0 x := fun _ _ => Nat.zero_le _

theorem left (h : AtLeast n x) : AtLeast n (x >>= f) := by
  intro v hv
  rw [res_bind] at hv
  obtain ⟨y, hy, _⟩ := Res.bind_eq_ok.mp hv
  exact Nat.le_trans (h y hy) (le_steps_bind _ _)

theorem bind (h1 : AtLeast a x) (h2 : ∀ y, x.res = .ok y → AtLeast b (f y)) (h : n ≤ a + b) : AtLeast n (x >>= f) := by
  intro v hv
  rw [res_bind] at hv
  obtain ⟨y, hy, hv⟩ := Res.bind_eq_ok.mp hv
  rw [steps_bind_ok hy]
  have := h1 y hy
  have := h2 y hy v hv
  omega

theorem right (h : ∀ y, x.res = .ok y → AtLeast n (f y)) : AtLeast n (x >>= f) :=
  bind zero h (by omega)

theorem free {r : Res α} (h : ∀ y, r = .ok y → AtLeast n (f y)) : AtLeast n (Timed.free r >>= f) :=
  right fun y hy => h y (by rw [← res_free r]; exact hy)

theorem ite {c : Prop} [Decidable c] {x y : Timed α} (h1 : c → AtLeast n x) (h2 : ¬ c → AtLeast n y) :
    AtLeast n (if c then x else y) := by
  split <;> rename_i h
  exacts [h1 h, h2 h]

end AtLeast

theorem matrixAlloc_lower {α : Type} (fill : α) (vec : List α) (w h : Nat) : AtLeast (h * w) (Timed.matrixAlloc fill vec w h) := by
  unfold Timed.matrixAlloc
  refine .free fun _ _ => .right fun vec hv => .free fun sl hs => ?_
  have hl : sl.length = h * w := by
    unfold sliceToR at hs
    split at hs
    · cases hs; rw [List.length_take]; omega
    · cases hs
  intro v _
  rw [steps_tick_bind]
  omega

theorem v2Score_lower (U : Unicode) (ss : List Score) (cs : List Nat) (p : Pattern) (c : CandidateV2) (l : List Nat) (S : Scheme) :
    AtLeast (2 * (p.charLen * c.base.charLen)) (Timed.v2Score U ss cs p c l S) := by
  unfold Timed.v2Score
  refine .bind (matrixAlloc_lower _ _ _ _) (fun x _ => ?_) (b := p.charLen * c.base.charLen) (by omega)
  exact (matrixAlloc_lower _ _ _ _).left

theorem greedy_head {eq : CharEq} {p s : List Char} {g : List Nat} (hp : p ≠ []) (hg : greedyFrom eq s p 0 = some g) {i : Nat} {x : Char}
    (hx : s[i]? = some x) (he : eq (p.headD 'a') x = true) : g.getD 0 0 ≤ i := by
  cases p with
  | nil => exact absurd rfl hp
  | cons c p =>
    unfold greedyFrom at hg
    cases hf : findFrom (fun x => eq c x) s 0 with
    | none => rw [hf] at hg; cases hg
    | some j =>
      rw [hf] at hg
      dsimp only at hg
      obtain ⟨g', _, rfl⟩ := Option.map_eq_some_iff.mp hg
      show j ≤ i
      by_contra hlt
      have := (findFrom_some hf).2.2 i x (Nat.zero_le _) (by omega) hx
      rw [List.headD_cons] at he
      rw [he] at this
      cases this

theorem v2_fuzzy_lower (U : Unicode) (R : Bool) (self : FzfV2) (p : Pattern) (h2 : 2 ≤ p.text.length) {c : Candidate} (hwf : c.WF)
    (ranges : MatchedRanges) (hsub : Subseq (rel (self.charEq p)) p.text c.toChars) {i j : Nat} {x y : Char}
    (hx : c.toChars[i]? = some x) (hy : c.toChars[j]? = some y) (hi : self.charEq p (p.text.headD 'a') x = true)
    (hj : self.charEq p (p.text.getLastD 'a') y = true) :
    AtLeast (2 * (p.text.length * (j + 1 - i))) (Timed.V2.fuzzy U R self p c ranges) := by
  have hp : p.text ≠ [] := by intro h; rw [h] at h2; simp at h2
  unfold FzfV2.charEq at hsub hi hj
  unfold Timed.V2.fuzzy
  rw [if_neg (by simp [Pattern.charLen]; omega)]
  refine .right fun z hz => ?_
  obtain ⟨ind, offs, last⟩ := z
  rw [res_v2Matches] at hz
  obtain ⟨ind', offs', hm, hm'⟩ := v2Matches_eq hwf p hp (isSensitive self.caseSensitivity p) self.candidateNormalization
    self.slab.matchedIndices
  rw [hm] at hz
  cases hg : greedyFrom (charEq (isSensitive self.caseSensitivity p) self.candidateNormalization) c.toChars p.text 0 with
  | none => exact absurd hsub (greedyFrom_none.mp hg)
  | some g =>
    obtain ⟨hoffs, _⟩ := hm' g hg
    obtain ⟨hW, k, hk, hk2⟩ := windowOk hp hg
    rw [getLastD_of_ne _ hp] at hk
    rw [hg, hk] at hz
    simp only [Option.map_some, Res.ok.injEq, Prod.mk.injEq] at hz
    obtain ⟨-, rfl, rfl⟩ := hz
    dsimp only
    subst hoffs
    refine .right fun first hfirst => ?_
    have hfirst : first = offs'.getD 0 0 := by
      rw [res_get, getR_eq_ok] at hfirst
      rw [hW.ga 0 (by omega)] at hfirst
      exact (Option.some.inj hfirst).symm
    have hhead := greedy_head hp hg hx hi
    have hlast := hW.last j y (List.getElem?_eq_some_iff.mp hy).1 hy hj
    have hle := hW.lt
    rw [hk2] at hlast hle
    have key : ∀ {γ : Type} (f : Candidate → Timed γ),
        (∀ base : Candidate, j + 1 - i ≤ base.charLen → AtLeast (2 * (p.text.length * (j + 1 - i))) (f base)) →
        AtLeast (2 * (p.text.length * (j + 1 - i))) (Timed.free (c.slice ⟨first, k + 1⟩) >>= f) := by
      intro γ f hf
      refine .free fun base hbase => hf base ?_
      by_cases hfk : first ≤ k + 1
      · obtain ⟨base', hb, _, hc⟩ := Candidate.slice_ok hwf (r := ⟨first, k + 1⟩) hfk hle
        rw [hb] at hbase
        cases hbase
        rw [Candidate.charLen_eq, hc, List.length_drop, List.length_take]
        dsimp only
        omega
      · omega
    have last : ∀ {γ : Type} (base : Candidate) (b : List BonusCell) (cls : CharClass) (o : CandidateOpts) (l : List Nat)
        (f : _ → Timed γ), j + 1 - i ≤ base.charLen → AtLeast (2 * (p.text.length * (j + 1 - i)))
          (Timed.v2Score U self.slab.scoringMatrix self.slab.consecutiveMatrix p ⟨b, base, cls, o⟩ l self.scoringScheme >>= f) := by
      intro γ base b cls o l f hlen
      refine AtLeast.left fun v hv => Nat.le_trans ?_ (v2Score_lower U _ _ p _ _ _ v hv)
      exact Nat.mul_le_mul_left _ (Nat.mul_le_mul_left _ hlen)
    refine .ite (fun _ => .right fun sb _ => .ite (fun _ => .right fun cls _ => ?_) fun _ => .right fun cls _ => ?_)
      fun _ => .right fun sb _ => .ite (fun _ => .right fun cls _ => ?_) fun _ => .right fun cls _ => ?_
    all_goals exact key _ fun base hlen => .right fun z _ => .right fun offs _ => last base _ _ _ _ _ hlen

/-! ### Calls -/

variable {U : Unicode} {st : Settings} {q : FzfQuery} {p : Pattern} {s : List Char}

/-- A call takes at least the steps of scoring the candidate. -/
theorem distance_lower_of {σ : Type} {T : TimedImpl σ} {I : FzfImpl σ} {has : σ → Settings → Prop} {pf : PureFuzzy} (hA : T.Agrees I)
    (hI : Refines U I has pf) (R : Bool) {m : σ} (hm : has m st) (hne : q.isEmpty = false)
    (buf : List Range) {n : Nat} (h : ∀ m' c, has m' st → c.WF → c.toChars = s → AtLeast n (match q with
      | .notExtended pattern => T.fuzzy R m' pattern c (MatchedRanges.ofVec buf)
      | .extended conditions => T.scoreConditions U R c conditions m' (MatchedRanges.ofVec buf) 0)) :
    AtLeast n (T.distance U R m q s buf) := by
  unfold TimedImpl.distance
  rw [if_neg (by simp [hne])]
  refine .right fun _ _ => ?_
  by_cases ha : strIsAscii s = true
  · obtain ⟨h1, h2⟩ := ascii_candidate ha
    rw [if_pos ha]
    refine .right fun x hx => ?_
    cases hx
    have := h m _ hm h1 h2
    cases q <;> exact this.left
  · rw [if_neg ha]
    refine .right fun x hx => ?_
    rw [Timed.res_bind, hA.allocChars] at hx
    obtain ⟨m1, halloc, hm1⟩ := hI.alloc m st s hm
    rw [halloc] at hx
    cases hx
    have := h m1 (.unicode s) hm1 (by simp [Candidate.WF]) rfl
    cases q <;> exact this.left

theorem scoreConditions_lower {σ : Type} {T : TimedImpl σ} {R : Bool} {m : σ} {c : Candidate} {ranges : MatchedRanges} {t : Score} {n : Nat}
    {ps : List Pattern} {cs : List Condition} (hf : p.matchType = .fuzzy)
    (h : ∀ R, AtLeast n (T.fuzzy R m p c ranges)) : AtLeast n (T.scoreConditions U R c ((p :: ps) :: cs) m ranges t) := by
  unfold TimedImpl.scoreConditions
  refine .right fun _ _ => .left ?_
  unfold TimedImpl.scoreCondition
  refine .right fun _ _ => .left ?_
  unfold TimedImpl.score
  rw [hf]
  exact (h _).left

theorem v2_distance_lower (R : Bool) {m : FzfV2} (hm : m.Has st) (hne : q.isEmpty = false) (hc : ∀ cs, q = .extended cs → ∀ c ∈ cs, c ≠ [])
    (hp : (patterns q).head? = some p) (hf : p.matchType = .fuzzy) (h2 : 2 ≤ p.text.length)
    (hsub : Subseq (rel (st.eqOf p)) p.text s) {i j : Nat} {x y : Char} (hx : s[i]? = some x) (hy : s[j]? = some y)
    (hi : st.eqOf p (p.text.headD 'a') x = true) (hj : st.eqOf p (p.text.getLastD 'a') y = true) (buf : List Range) :
    AtLeast (2 * (p.text.length * (j + 1 - i))) ((Timed.V2.impl U).distance U R m q s buf) := by
  refine distance_lower_of (Timed.V2.agrees U) (FzfV2.refines U) R hm hne buf fun m' c hm' hwf hs => ?_
  have heq : m'.charEq p = st.eqOf p := (FzfV2.refines U).eq m' st p hm'
  have key : ∀ R ranges, AtLeast (2 * (p.text.length * (j + 1 - i))) ((Timed.V2.impl U).fuzzy R m' p c ranges) := fun R ranges =>
    v2_fuzzy_lower U R m' p h2 hwf ranges (by rw [heq, hs]; exact hsub) (by rw [hs]; exact hx) (by rw [hs]; exact hy)
      (by rw [heq]; exact hi) (by rw [heq]; exact hj)
  cases q with
  | notExtended p' =>
    cases hp
    exact key R _
  | extended cs =>
    cases cs with
    | nil => cases hp
    | cons d cs =>
      cases d with
      | nil => exact absurd rfl (hc _ rfl [] (by simp))
      | cons p' ps =>
        cases hp
        exact scoreConditions_lower hf fun R => key R _

variable {m : Metric}

/-- The two matrices have a row for each character of the pattern, and a column for each character between a match of the first and a
match of the last one. -/
theorem timed_v2_lower (hm : Reachable U .v2 m st) (hq : QueryOk U q) (hp : (patterns q).head? = some p) (hf : p.matchType = .fuzzy)
    (h2 : 2 ≤ p.text.length) (hsub : Subseq (rel (st.eqOf p)) p.text s) {i j : Nat} {x y : Char} (hx : s[i]? = some x)
    (hy : s[j]? = some y) (hi : st.eqOf p (p.text.headD 'a') x = true) (hj : st.eqOf p (p.text.getLastD 'a') y = true)
    (buf : List Range) :
    2 * (p.text.length * (j + 1 - i)) ≤ (m.timedDistance U q s).steps ∧
    2 * (p.text.length * (j + 1 - i)) ≤ (m.timedDistanceAndRanges U q s buf).steps := by
  have hne : q.isEmpty = false := by
    cases q with
    | notExtended p' =>
      cases hp
      cases h : p.text with
      | nil => rw [h] at h2; simp at h2
      | cons => simp [FzfQuery.isEmpty, Pattern.isEmpty, h]
    | extended cs =>
      cases cs with
      | nil => cases hp
      | cons d cs => rfl
  have hc : ∀ cs, q = .extended cs → ∀ c ∈ cs, c ≠ [] := by
    rintro cs rfl c hc
    exact (hq c hc).1
  obtain ⟨m1, _, h1⟩ := call hm hq s
  obtain ⟨m2, _, h2'⟩ := callR hm hq s buf
  obtain ⟨ha, hm⟩ := reachable_has hm
  cases m with
  | v1 m => cases ha
  | v2 m =>
    exact ⟨AtLeast.left (v2_distance_lower false hm hne hc hp hf h2 hsub hx hy hi hj []) _
        ((Metric.res_timedDistance U q s (.v2 m)).trans h1),
      AtLeast.left (v2_distance_lower true hm hne hc hp hf h2 hsub hx hy hi hj buf) _
        ((Metric.res_timedDistanceAndRanges U q s buf (.v2 m)).trans h2')⟩

/-! ### A first condition that does not match -/

/-- The steps of a pattern that is not exact, if the candidate does not match. -/
def missCost (L : Nat) (p : Pattern) : Nat := 9 * L + 5 + p.text.length

theorem v2_score_miss (R : Bool) {m : FzfV2} (hm : m.Has st) {c : Candidate} (hwf : c.WF) (hL : c.charLen ≤ strLen c.toChars)
    (pre this : List Range) (hsep : Sep this) (hs : ∀ r ∈ this, Slice c.toChars r) (hp : p.text ≠ []) (he : p.matchType ≠ .exact)
    (hi : p.matchType = .fuzzy → p.isInverse = false) (hn : patHit U (pureOf .v2) st c.toChars p = none) :
    ((Timed.V2.impl U).score U R m p c ⟨pre ++ this, pre.length⟩).steps + 1 ≤ missCost (strLen c.toChars) p := by
  by_cases hf : p.matchType = .fuzzy
  · have hi := hi hf
    have hpf : v2Result (posBonus U st.scheme c.toChars) (st.eqOf p) p.text c.toChars = none := by
      unfold patHit rawHit at hn
      rw [hi, hf] at hn
      simp only [Bool.false_eq_true, if_false] at hn
      cases h : v2Result (posBonus U st.scheme c.toChars) (st.eqOf p) p.text c.toChars with
      | none => rfl
      | some x =>
        have : pureOf .v2 (posBonus U st.scheme c.toChars) (st.eqOf p) p.text c.toChars = some x := h
        rw [this] at hn
        cases hn
    obtain ⟨m2, _, h⟩ := (FzfV2.refines U).fuzzy R m st p c pre this hm hp hwf hsep
    rw [hpf] at h
    have h1 := v2_fuzzy_none U R m p c _ h rfl
    have h2 := growth_le m.slab.matchedIndices p.charLen
    have h3 : p.charLen = p.text.length := rfl
    have : ((Timed.V2.impl U).score U R m p c ⟨pre ++ this, pre.length⟩).steps ≤ p.text.length + (3 * strLen c.toChars + 1) := by
      unfold TimedImpl.score
      rw [hf, hi]
      refine bind_le (a := p.text.length + (3 * strLen c.toChars + 1)) (b := 0) ?_ (fun x _ => ?_) (Nat.le_refl _)
      · exact Nat.le_trans h1 (by omega)
      · obtain ⟨a, b, o⟩ := x
        cases o <;> exact Nat.le_refl _
    unfold missCost
    omega
  · have := score_steps (U := U) (v2_cost U) R m p c ⟨pre ++ this, pre.length⟩ _ (List.length_pos_iff.mpr hp) hL (own_le hsep hs)
    unfold patCost patExtra at this
    unfold missCost
    have hR : extra R (3 * strLen c.toChars + 1) ≤ 3 * strLen c.toChars + 1 := by cases R; exact Nat.zero_le _; exact Nat.le_refl _
    cases hk : p.matchType <;> rw [hk] at this he hf <;> dsimp only at this
    · exact absurd rfl hf
    · exact absurd rfl he
    all_goals omega

theorem v2_condition_miss (R : Bool) {c : Candidate} (hwf : c.WF) (hL : c.charLen ≤ strLen c.toChars)
    (pre this : List Range) (hsep : Sep this) (hs : ∀ r ∈ this, Slice c.toChars r) : ∀ (ps : List Pattern) (m : FzfV2), m.Has st →
    (∀ p ∈ ps, p.text ≠ [] ∧ p.matchType ≠ .exact ∧ (p.matchType = .fuzzy → p.isInverse = false)) →
    condHit U (pureOf .v2) st c.toChars ps = none →
    ((Timed.V2.impl U).scoreCondition U R c ps m ⟨pre ++ this, pre.length⟩).steps ≤ (ps.map (missCost (strLen c.toChars))).sum := by
  intro ps
  induction ps with
  | nil => intro m _ _ _; exact Nat.le_refl _
  | cons p ps ih =>
    intro m hm hp hn
    obtain ⟨hp1, hp2, hp3⟩ := hp p (by simp)
    have hn1 : patHit U (pureOf .v2) st c.toChars p = none ∧ condHit U (pureOf .v2) st c.toChars ps = none := by
      unfold condHit at hn ⊢
      rw [List.findSome?_cons] at hn
      cases h : patHit U (pureOf .v2) st c.toChars p with
      | none => rw [h] at hn; exact ⟨rfl, hn⟩
      | some x => rw [h] at hn; cases hn
    have h1 := v2_score_miss (U := U) R hm hwf hL pre this hsep hs hp1 hp2 hp3 hn1.1
    unfold TimedImpl.scoreCondition
    rw [steps_tick_bind, List.map_cons, List.sum_cons]
    refine Nat.le_trans (Nat.add_le_add_left (bind_le (Nat.le_refl _) (b := (ps.map (missCost (strLen c.toChars))).sum) (fun x hx => ?_)
      (Nat.le_refl _)) 1) (by omega)
    rw [TimedImpl.res_score (Timed.V2.agrees U)] at hx
    obtain ⟨m1, hm1, h2⟩ := score_eq (FzfV2.refines U) R hm hp1 hwf pre this hsep
    rw [h2] at hx
    cases hx
    have hn2 := hn1.1
    unfold pureOf at hn2
    rw [hn2]
    exact ih m1 hm1 (fun q hq => hp q (by simp [hq])) hn1.2

theorem v2_first_miss (R : Bool) {m : FzfV2} (hm : m.Has st) {ps : List Pattern} {cs : List Condition}
    (hp : ∀ p ∈ ps, p.text ≠ [] ∧ p.matchType ≠ .exact ∧ (p.matchType = .fuzzy → p.isInverse = false))
    (hn : condHit U (pureOf .v2) st s ps = none) (buf : List Range) :
    ((Timed.V2.impl U).distance U R m (.extended (ps :: cs)) s buf).steps ≤ 3 * strLen s + 1 + (ps.map (missCost (strLen s))).sum := by
  unfold TimedImpl.distance
  rw [if_neg (by simp [FzfQuery.isEmpty]), steps_tick_bind]
  have hls := length_le_strLen s
  have key : ∀ (m : FzfV2) (c : Candidate), m.Has st → c.WF → c.toChars = s → c.charLen ≤ strLen s →
      ((do
        let (self, ranges, s) ← (Timed.V2.impl U).scoreConditions U R c (ps :: cs) m (MatchedRanges.ofVec buf) 0
        return (self, ranges.ranges, s.map FzfDistance.fromScore)) : Timed (FzfV2 × List Range × Option FzfDistance)).steps ≤
        1 + (ps.map (missCost (strLen s))).sum := by
    intro m c hm hwf hc hL
    have hbuf : MatchedRanges.ofVec buf = ⟨buf ++ [], buf.length⟩ := by simp [MatchedRanges.ofVec]
    rw [hbuf]
    refine bind_le (b := 0) ?_ (fun _ _ => Nat.le_refl 0) (Nat.le_refl _)
    unfold TimedImpl.scoreConditions
    rw [steps_tick_bind]
    have hn' : condHit U (pureOf .v2) st c.toChars ps = none := by rw [hc]; exact hn
    have h := v2_condition_miss (U := U) R hwf (by rw [hc]; exact hL) buf [] sep_nil (by simp) ps m hm hp hn'
    rw [hc] at h
    refine Nat.add_le_add_left (bind_le h (b := 0) (fun x hx => ?_) (Nat.le_refl _)) 1
    rw [TimedImpl.res_scoreCondition (Timed.V2.agrees U)] at hx
    obtain ⟨m1, _, h1⟩ := scoreCondition_eq (FzfV2.refines U) R hwf buf [] sep_nil ps m hm (fun p hpp => (hp p hpp).1)
    rw [h1] at hx
    cases hx
    have hn2 := hn'
    unfold pureOf at hn2
    rw [hn2]
    exact Nat.le_refl _
  by_cases ha : strIsAscii s = true
  · obtain ⟨h1, h2⟩ := ascii_candidate ha
    rw [if_pos ha, steps_pure_bind]
    have := key m _ hm h1 h2 (Nat.le_refl _)
    exact Nat.le_trans (Nat.add_le_add_left this _) (by omega)
  · rw [if_neg ha]
    have hin : (do
        let (self, chars) ← (Timed.V2.impl U).allocChars m s
        return (self, Candidate.unicode chars) : Timed (FzfV2 × Candidate)).steps ≤ strLen s + s.length :=
      bind_le ((v2_cost U).alloc m s) (b := 0) (fun _ _ => Nat.le_refl 0) (Nat.le_refl _)
    refine Nat.le_trans (Nat.add_le_add_left (bind_le hin (b := 1 + (ps.map (missCost (strLen s))).sum) (fun x hx => ?_) (Nat.le_refl _)) _)
      (by omega)
    rw [Timed.res_bind, (Timed.V2.agrees U).allocChars] at hx
    obtain ⟨m1, halloc, hm1⟩ := (FzfV2.refines U).alloc m st s hm
    rw [halloc] at hx
    cases hx
    exact key m1 (.unicode s) hm1 (by simp [Candidate.WF]) rfl hls

end Norm
