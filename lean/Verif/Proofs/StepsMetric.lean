import Verif.Proofs.StepsQuery
import Verif.Proofs.StepsLower
import Verif.Proofs.Sizes

/-!
# Helper lemmas: the steps of the calls of a metric -/

namespace Norm

open Spec Timed

variable {U : Unicode} {a : Algo} {m : Metric} {st : Settings} {q : FzfQuery} {p : Pattern} {s : List Char}

/-- The steps of `fuzzy`, without and with ranges: `v1_cost`, `v2_cost`. -/
def fuzzyCost : Algo → Nat → Nat → Nat
  | .v1, _, L => 6 * L + 4
  | .v2, k, L => 24 * (k * L) + 4 * k + 3

@[inherit_doc fuzzyCost]
def fuzzyExtra : Algo → Nat → Nat → Nat
  | .v1, k, L => L + k * (4 * L + 1)
  | .v2, k, L => 6 * L + k * (5 * L + 2)

theorem timedDistance_v1 (m : FzfV1) :
    ((Metric.v1 m).timedDistance U q s).steps ≤ ((Timed.V1.impl U).distance U false m q s []).steps :=
  bind_le (Nat.le_refl _) (b := 0) (fun _ _ => Nat.le_refl 0) (Nat.le_refl _)

theorem timedDistance_v2 (m : FzfV2) :
    ((Metric.v2 m).timedDistance U q s).steps ≤ ((Timed.V2.impl U).distance U false m q s []).steps :=
  bind_le (Nat.le_refl _) (b := 0) (fun _ _ => Nat.le_refl 0) (Nat.le_refl _)

theorem timedRanges_v1 (m : FzfV1) (buf : List Range) :
    ((Metric.v1 m).timedDistanceAndRanges U q s buf).steps ≤ ((Timed.V1.impl U).distance U true m q s buf).steps :=
  bind_le (Nat.le_refl _) (b := 0) (fun _ _ => Nat.le_refl 0) (Nat.le_refl _)

theorem timedRanges_v2 (m : FzfV2) (buf : List Range) :
    ((Metric.v2 m).timedDistanceAndRanges U q s buf).steps ≤ ((Timed.V2.impl U).distance U true m q s buf).steps :=
  bind_le (Nat.le_refl _) (b := 0) (fun _ _ => Nat.le_refl 0) (Nat.le_refl _)

theorem timedDistance_steps (hm : Reachable U a m st) (hq : QueryOk U q) (s : List Char) :
    (m.timedDistance U q s).steps ≤ if q.isEmpty then 0 else
      3 * strLen s + queryCost (fuzzyCost a) (fuzzyExtra a) false (strLen s) q := by
  obtain ⟨ha, hm'⟩ := reachable_has hm
  subst ha
  cases m with
  | v1 m =>
    exact Nat.le_trans (timedDistance_v1 m)
      (distance_steps (a := .v1) (v1_cost U) (Timed.V1.agrees U) (FzfV1.refines U) false hm' q (queryOk_nonEmpty hq) s [])
  | v2 m =>
    exact Nat.le_trans (timedDistance_v2 m)
      (distance_steps (a := .v2) (v2_cost U) (Timed.V2.agrees U) (FzfV2.refines U) false hm' q (queryOk_nonEmpty hq) s [])

theorem timedRanges_steps (hm : Reachable U a m st) (hq : QueryOk U q) (s : List Char) (buf : List Range) :
    (m.timedDistanceAndRanges U q s buf).steps ≤ if q.isEmpty then 0 else
      3 * strLen s + queryCost (fuzzyCost a) (fuzzyExtra a) true (strLen s) q := by
  obtain ⟨ha, hm'⟩ := reachable_has hm
  subst ha
  cases m with
  | v1 m =>
    exact Nat.le_trans (timedRanges_v1 m buf)
      (distance_steps (a := .v1) (v1_cost U) (Timed.V1.agrees U) (FzfV1.refines U) true hm' q (queryOk_nonEmpty hq) s buf)
  | v2 m =>
    exact Nat.le_trans (timedRanges_v2 m buf)
      (distance_steps (a := .v2) (v2_cost U) (Timed.V2.agrees U) (FzfV2.refines U) true hm' q (queryOk_nonEmpty hq) s buf)

/-- If every pattern costs at most `K` steps per character, so does the query. -/
theorem product_steps {F E : Nat → Nat → Nat} {R : Bool} {L K n : Nat} (hq : QueryOk U q)
    (hK : ∀ p ∈ patterns q, 0 < p.text.length → 2 + (patCost F L p + extra R (patExtra E L p)) ≤ K * p.text.length)
    (hn : n ≤ if q.isEmpty then 0 else 3 * L + queryCost F E R L q) : n ≤ (K + 3 * L) * queryLen q := by
  by_cases he : q.isEmpty = true
  · rw [if_pos he] at hn; omega
  · rw [if_neg he] at hn
    have he : q.isEmpty = false := by simpa using he
    have h1 := queryCost_le hq he hK
    have h2 : 3 * L ≤ 3 * L * queryLen q := Nat.le_mul_of_pos_right _ (queryLen_pos hq he)
    rw [Nat.add_mul]
    omega

theorem v1_pattern (L : Nat) (h : 0 < p.text.length) :
    2 + (patCost (fuzzyCost .v1) L p + extra false (patExtra (fuzzyExtra .v1) L p)) ≤ (6 * L + 6) * p.text.length ∧
    2 + (patCost (fuzzyCost .v1) L p + extra true (patExtra (fuzzyExtra .v1) L p)) ≤ (11 * L + 7) * p.text.length := by
  have hL : L ≤ L * p.text.length := Nat.le_mul_of_pos_right _ h
  have hc : p.charLen = p.text.length := rfl
  rw [extra_false, extra_true, Nat.add_mul, Nat.add_mul, Nat.mul_assoc, Nat.mul_assoc]
  unfold patCost patExtra
  cases p.matchType <;> simp only [fuzzyCost, fuzzyExtra, hc, Nat.mul_comm p.text.length, Nat.add_mul, Nat.mul_assoc, Nat.one_mul] <;> omega

theorem v2_pattern (L : Nat) (h : 0 < p.text.length) :
    2 + (patCost (fuzzyCost .v2) L p + extra false (patExtra (fuzzyExtra .v2) L p)) ≤ (24 * L + 9) * p.text.length ∧
    2 + (patCost (fuzzyCost .v2) L p + extra true (patExtra (fuzzyExtra .v2) L p)) ≤ (35 * L + 11) * p.text.length := by
  have hL : L ≤ L * p.text.length := Nat.le_mul_of_pos_right _ h
  have hc : p.charLen = p.text.length := rfl
  rw [extra_false, extra_true, Nat.add_mul, Nat.add_mul, Nat.mul_assoc, Nat.mul_assoc]
  unfold patCost patExtra
  cases p.matchType <;> simp only [fuzzyCost, fuzzyExtra, hc, Nat.mul_comm p.text.length, Nat.add_mul, Nat.mul_assoc] <;> omega

/-! ### Queries without exact patterns -/

theorem conds_linear {L : Nat} : ∀ {cs : List Condition}, (∀ c ∈ cs, c ≠ []) → (∀ c ∈ cs, ∀ p ∈ c, p.matchType ≠ .exact) →
    condsCost (fuzzyCost .v1) (fuzzyExtra .v1) false L cs ≤ (6 * L + 6) * cs.flatten.length := by
  have one : ∀ ps : List Pattern, (∀ p ∈ ps, p.matchType ≠ .exact) →
      condCost (fuzzyCost .v1) (fuzzyExtra .v1) false L ps + ps.length ≤ (6 * L + 6) * ps.length := by
    intro ps
    induction ps with
    | nil => intro _; exact Nat.le_refl _
    | cons p ps ih =>
      intro h
      have ih := ih fun q hq => h q (by simp [hq])
      have hp := h p (by simp)
      simp only [condCost, List.map_cons, List.sum_cons, List.length_cons, Nat.mul_add, extra_false] at ih ⊢
      unfold patCost at ih ⊢
      cases hm : p.matchType <;> simp only [fuzzyCost] at ih ⊢
      · omega
      · exact absurd hm hp
      all_goals omega
  intro cs
  induction cs with
  | nil => intro _ _; exact Nat.le_refl _
  | cons c cs ih =>
    intro hne h
    have ih := ih (fun d hd => hne d (by simp [hd])) (fun d hd => h d (by simp [hd]))
    have h1 := one c (h c (by simp))
    have hc := List.length_pos_iff.mpr (hne c (by simp))
    simp only [condsCost, List.map_cons, List.sum_cons, List.flatten_cons, List.length_append, Nat.mul_add] at ih ⊢
    omega

theorem query_linear {L : Nat} (hq : QueryOk U q) (h : ∀ p ∈ patterns q, p.matchType ≠ .exact) :
    queryCost (fuzzyCost .v1) (fuzzyExtra .v1) false L q ≤ (6 * L + 6) * (patterns q).length := by
  cases q with
  | notExtended p => simp [queryCost, patterns, fuzzyCost, extra_false]
  | extended cs =>
    refine conds_linear (fun c hc => (hq c hc).1) fun c hc p hp => h p ?_
    simpa [patterns] using ⟨c, hc, hp⟩

/-! ### Fuzzy queries -/

/-- The steps of a call for a non-extended query, apart from looking at the candidate. -/
theorem distance_fuzzy {σ : Type} {T : TimedImpl σ} {I : FzfImpl σ} {has : σ → Settings → Prop} {pf : PureFuzzy} (hA : T.Agrees I)
    (hI : Refines U I has pf) (halloc : ∀ m s, (T.allocChars m s).steps ≤ strLen s + s.length) (R : Bool) {m : σ} (hm : has m st)
    (buf : List Range) {n : Nat} (h : ∀ m' c, has m' st → (m' = m ∨ ∃ y, I.allocChars m s = .ok (m', y)) → c.WF → c.toChars = s →
      c.charLen ≤ strLen s → (T.fuzzy R m' p c (MatchedRanges.ofVec buf)).steps ≤ n) :
    (T.distance U R m (.notExtended p) s buf).steps ≤ 3 * strLen s + n := by
  unfold TimedImpl.distance
  refine ite_le (fun _ => Nat.zero_le _) fun _ => ?_
  rw [steps_tick_bind]
  have hls := length_le_strLen s
  by_cases ha : strIsAscii s = true
  · obtain ⟨h1, h2⟩ := ascii_candidate ha
    rw [if_pos ha, steps_pure_bind]
    have := h m _ hm (.inl rfl) h1 h2 (Nat.le_refl _)
    exact Nat.le_trans (Nat.add_le_add_left (bind_le this (b := 0) (fun _ _ => Nat.le_refl 0) (Nat.le_refl _)) _) (by omega)
  · rw [if_neg ha]
    have hin : (do
        let (self, chars) ← T.allocChars m s
        return (self, Candidate.unicode chars) : Timed (σ × Candidate)).steps ≤ strLen s + s.length :=
      bind_le (halloc m s) (b := 0) (fun _ _ => Nat.le_refl 0) (Nat.le_refl _)
    have hle : strLen s + (strLen s + s.length + n) ≤ 3 * strLen s + n := by omega
    refine Nat.le_trans (Nat.add_le_add_left (bind_le hin (b := n) (fun x hx => ?_) (Nat.le_refl _)) _) hle
    rw [Timed.res_bind, hA.allocChars] at hx
    obtain ⟨m1, halloc, hm1⟩ := hI.alloc m st s hm
    rw [halloc] at hx
    cases hx
    have := h m1 (.unicode s) hm1 (.inr ⟨_, halloc⟩) (by simp [Candidate.WF]) rfl hls
    exact bind_le this (b := 0) (fun _ _ => Nat.le_refl 0) (Nat.le_refl _)

theorem timedRanges_fuzzy (hm : Reachable U .v1 m st) (p : Pattern) (s : List Char) (buf : List Range) :
    (m.timedDistanceAndRanges U (.notExtended p) s buf).steps ≤ 3 * strLen s + (6 * strLen s + 4 + strLen s * ((strLen s).log2 + 2)) := by
  obtain ⟨ha, hm⟩ := reachable_has hm
  cases m with
  | v2 m => cases ha
  | v1 m =>
    refine Nat.le_trans (timedRanges_v1 m buf) (distance_fuzzy (Timed.V1.agrees U) (FzfV1.refines U) (v1_cost U).alloc true hm buf ?_)
    intro m' c _ _ _ _ hL
    refine Nat.le_trans (v1_fuzzy_append U m' p c buf) ?_
    have h1 : c.charLen * (c.charLen.log2 + 2) ≤ strLen s * ((strLen s).log2 + 2) :=
      Nat.mul_le_mul hL (Nat.add_le_add_right (log2_mono hL) _)
    omega

/-- What making the buffer of the offsets longer takes. -/
def indicesGrowth (m : Metric) (p : Pattern) : Nat := if p.text.length > (sizes m).indices then p.text.length else 0

theorem v2_nonmatch (R : Bool) {m : FzfV2} (hm : m.Has st) (hr : (result U .v2 st s (.notExtended p)).2 = none) (buf : List Range) :
    ((Timed.V2.impl U).distance U R m (.notExtended p) s buf).steps ≤ 6 * strLen s + 1 + indicesGrowth (.v2 m) p := by
  have hp : p.text ≠ [] := by
    intro h
    simp [result, queryHit, FzfQuery.isEmpty, Pattern.isEmpty, h] at hr
  rw [result_notExtended hp] at hr
  have hpf : pureOf .v2 (posBonus U st.scheme s) (st.eqOf p) p.text s = none := by
    cases h : pureOf .v2 (posBonus U st.scheme s) (st.eqOf p) p.text s with
    | none => rfl
    | some x => rw [h] at hr; cases hr
  refine Nat.le_trans (distance_fuzzy (n := indicesGrowth (.v2 m) p + (3 * strLen s + 1)) (Timed.V2.agrees U) (FzfV2.refines U)
    (v2_cost U).alloc R hm buf ?_) (by omega)
  intro m' c hm' hmm hwf hc hL
  have hbuf : MatchedRanges.ofVec buf = ⟨buf ++ [], buf.length⟩ := by simp [MatchedRanges.ofVec]
  rw [hbuf]
  obtain ⟨m2, _, hf⟩ := (FzfV2.refines U).fuzzy R m' st p c buf [] hm' hp hwf sep_nil
  rw [hc] at hf
  have hpf' : v2Result (posBonus U st.scheme s) (st.eqOf p) p.text s = none := hpf
  rw [hpf'] at hf
  refine Nat.le_trans (v2_fuzzy_none U R m' p c _ hf rfl) (Nat.add_le_add ?_ (by omega))
  have : m'.slab.matchedIndices = m.slab.matchedIndices := by
    rcases hmm with rfl | ⟨y, hy⟩
    · rfl
    · obtain ⟨z, _, hz⟩ := Res.bind_eq_ok.mp hy
      cases hz
      rfl
  rw [this]
  exact Nat.le_refl _

theorem within_queryLen (q : FzfQuery) : Within (queryLen q) q := by
  unfold Within queryLen
  generalize patterns q = ps
  induction ps with
  | nil => intro p hp; cases hp
  | cons p ps ih =>
    intro p' hp'
    rw [List.map_cons, List.sum_cons]
    rcases List.mem_cons.mp hp' with rfl | h
    · omega
    · have := ih p' h; omega

/-- API calls do not make the buffers shorter. -/
theorem sizes_reachable (hm : Reachable U a m st) : (sizes (Metric.new a)).indices ≤ (sizes m).indices := by
  induction hm with
  | new => exact Nat.le_refl _
  | @setCandidateNormalization m _ _ _ ih => cases m <;> exact ih
  | @setCaseSensitivity m _ _ _ ih => cases m <;> exact ih
  | @setScoringScheme m _ _ _ ih => cases m <;> exact ih
  | @distance m m' st q s d _ _ h ih =>
    exact Nat.le_trans ih (metric_distance_sizes U (within_queryLen q) (Nat.le_refl _) (Nat.le_refl _) h).2.lo.indices
  | @distanceAndRanges m m' st q s buf buf' d _ _ h ih =>
    exact Nat.le_trans ih (metric_ranges_sizes U (within_queryLen q) (Nat.le_refl _) (Nat.le_refl _) h).2.lo.indices
  | unwound _ hu ih =>
    cases hu with
    | v1 => exact ih
    | v2 _ _ _ h => exact Nat.le_trans ih h

/-! ### The query `'a…ab` -/

theorem forall₂_mem {R : Char → Char → Prop} {l l' : List Char} (h : List.Forall₂ R l l') {x : Char} (hx : x ∈ l) : ∃ y ∈ l', R x y := by
  induction h with
  | nil => cases hx
  | cons h _ ih =>
    rcases List.mem_cons.mp hx with rfl | hx
    · exact ⟨_, List.mem_cons_self .., h⟩
    · obtain ⟨y, hy, hr⟩ := ih hx
      exact ⟨y, List.mem_cons_of_mem _ hy, hr⟩

theorem exact_none {k N : Nat} (hp : p.text = List.replicate k 'a' ++ ['b']) (hi : p.isInverse = false) (hmt : p.matchType = .exact) :
    (result U a st (List.replicate N 'a') (single p)).2 = none := by
  have hne : p.text ≠ [] := by rw [hp]; simp
  rw [result_single_score]
  unfold patHit
  rw [hi, if_neg (by simp)]
  unfold rawHit
  rw [hmt]
  dsimp only
  cases h : exactPos U st.scheme.intoInner (st.eqOf p) p (List.replicate N 'a') with
  | none => rfl
  | some i =>
    exfalso
    obtain ⟨x, y, z, hs, _, hf⟩ := exactPos_occurs hne h
    obtain ⟨c, hc, hb⟩ := forall₂_mem hf (x := 'b') (by rw [hp]; simp)
    have : c ∈ List.replicate N 'a' := by rw [hs]; simp [hc]
    rw [List.eq_of_mem_replicate this] at hb
    have := (charEq_aa (isSensitive st.caseSensitivity p) st.normalization).2
    unfold rel Settings.eqOf at hb
    rw [this] at hb
    cases hb

theorem timedDistance_lower {k : Nat} (hm : Reachable U a m st) (hp : p.text = List.replicate k 'a' ++ ['b']) (hk : 0 < k)
    (hmt : p.matchType = .exact) (l : Nat) :
    2 * (k + 1) * l ≤ (m.timedDistance U (single p) (List.replicate (k + 1 + l) 'a')).steps := by
  cases m with
  | v1 m =>
    exact Nat.le_trans (distance_lower (Timed.V1.impl U) false m hp hk hmt ⟨_, _, rfl⟩ l []) (le_steps_bind _ _)
  | v2 m =>
    exact Nat.le_trans (distance_lower (Timed.V2.impl U) false m hp hk hmt ⟨_, _, rfl⟩ l []) (le_steps_bind _ _)

end Norm
