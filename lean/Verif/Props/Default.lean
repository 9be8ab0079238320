import Verif.Props.Decision
import Verif.Props.Score

/-!
# The default distance

Property C56. -/

namespace Norm.Props

open Spec

variable {U : Unicode} {a : Algo} {m : Metric} {st : Settings} {q : FzfQuery} {t s : List Char}

/-- **C56** (empty queries). `FzfDistance::default()` is the distance from a query without patterns. -/
theorem C56_empty (h : Reachable U a m st)
    (hq : ParsedRaw U [] q ∨ (Parsed U t q ∧ ∀ w ∈ words t, w = ['|'] ∨
      ∃ inv sg dol, Decorates w inv sg dol [])) (s : List Char) : Returns U m q s (some FzfDistance.default) :=
  (C11_empty h hq s []).1

example : Returns Concrete.U (Concrete.metric .v1) (Concrete.parse "") "abc".toList (some FzfDistance.default) :=
  C56_empty (t := "".toList) (Concrete.reachable ..) (.inr ⟨Concrete.parsed "", by rw [show words "".toList = [] by decide]; simp⟩) _

/-- What matches some pattern, and not just the absence of one, is closer than the default distance. -/
def C56 : Prop :=
  ∀ (U : Unicode) (a : Algo) (m : Metric) (st : Settings) (t : List Char) (q : FzfQuery) (s : List Char) (d : FzfDistance),
    Reachable U a m st → Parsed U t q → (∃ p ∈ patterns q, p.text ≠ []) → (∀ p ∈ patterns q, p.isInverse = false) →
    Returns U m q s (some d) → d.cmp FzfDistance.default = .lt

/-- **C56 is false.** In FzfV1 a long gap costs more than the matched characters are worth. -/
theorem C56_false : ¬ C56 := by
  intro h
  exact absurd (h Concrete.U .v1 (Concrete.metric .v1) _ _ _
    "axxxxxxxxxxxxxxxxxxxxxxxxxxxxxxxxxxxxxxxxxxxxxxxxxxxxxxxxxxxxb".toList ⟨-10⟩
    (Concrete.reachable ..) (Concrete.parsed "ab") (by decide +kernel) (by decide +kernel)
    (Concrete.returns (by decide +kernel))) (by decide)

/-- What the fuzzy pattern `p` scores is at least `K`. -/
def FuzzyGe (U : Unicode) (a : Algo) (st : Settings) (s : List Char) (K : Int) (p : Pattern) : Prop :=
  p.matchType = .fuzzy → ∀ x, pureOf a (posBonus U st.scheme s) (st.eqOf p) p.text s = some x → K ≤ x.2

/-- A condition whose alternatives are not negated scores at least `K`, if its fuzzy alternatives do. -/
theorem firstMatch_ge {K : Int} (hK : K ≤ 16) {c : Condition} (hok : ∀ p ∈ c, PatternOk U p) (hi : ∀ p ∈ c, p.isInverse = false)
    (ha : ∀ p ∈ c, FuzzyGe U a st s K p) {p : Pattern} (hf : FirstMatch U st s c p) :
    K ≤ ((patHit U (pureOf a) st s p).getD ([], 0)).2 := by
  have hB := posBonus_nonneg U st.scheme s
  have hp := hok p hf.mem
  obtain ⟨x, hx, _⟩ := firstMatch_hit (a := a) hok hf
  have hpl := List.length_pos_iff.mpr hp.1
  rw [hx, Option.getD_some]
  have hx' : rawHit U (pureOf a) st s p = some x := by simpa [patHit, hi p hf.mem] using hx
  by_cases hk : p.matchType = .fuzzy
  · simp only [rawHit, hk, Option.map_eq_some_iff] at hx'
    obtain ⟨y, hy, rfl⟩ := hx'
    exact ha p hf.mem hk y hy
  · obtain ⟨i, _, rfl, _, _⟩ := block_hit hk hp hx'
    have := alignScore_range hB i p.text.length (by omega)
    simp only
    omega

/-- A query without negated patterns scores at least `K`, if its fuzzy patterns do. -/
theorem query_ge {K : Int} (hK : 0 ≤ K ∧ K ≤ 16) (h : Reachable U a m st) (hok : QueryOk U q)
    (hne : ∃ p ∈ patterns q, p.text ≠ []) (hi : ∀ p ∈ patterns q, p.isInverse = false)
    (ha : ∀ p ∈ patterns q, p.text ≠ [] → FuzzyGe U a st s K p) {d : FzfDistance} (hd : Returns U m q s (some d)) :
    K ≤ d.score := by
  cases q with
  | notExtended p =>
    obtain ⟨p', hp', hne⟩ := hne
    simp only [patterns, List.mem_singleton] at hp' ha
    subst hp'
    have hk : p'.matchType = .fuzzy := by rw [hok]; rfl
    obtain ⟨x, hx, rfl⟩ := fuzzy_returns h (.inl rfl) hok hne hd
    exact ha p' rfl hne hk x hx
  | extended cs =>
    have hok' := fun c hc => (hok c hc).2
    have ha' : ∀ c ∈ cs, ∀ p ∈ c, FuzzyGe U a st s K p := by
      intro c hc p hp
      exact ha p (List.mem_flatten.mpr ⟨c, hc, hp⟩) (hok' c hc p hp).1
    have hi' : ∀ c ∈ cs, ∀ p ∈ c, p.isInverse = false := fun c hc p hp => hi p (List.mem_flatten.mpr ⟨c, hc, hp⟩)
    have hm : QueryMatches U st (.extended cs) s := by
      obtain ⟨d', h1, h2⟩ := decision h hok s
      obtain ⟨_, e1⟩ := h1
      obtain ⟨_, e2⟩ := hd
      rw [e2] at e1
      cases e1
      exact h2.mp rfl
    have hps : ∃ ps, List.Forall₂ (FirstMatch U st s) cs ps := by
      clear hd hok hne hi ha hok' ha' hi'
      induction cs with
      | nil => exact ⟨[], .nil⟩
      | cons c cs ih =>
        obtain ⟨p, hp⟩ := exists_firstMatch (hm c List.mem_cons_self)
        obtain ⟨ps, hps⟩ := ih fun c hc => hm c (List.mem_cons_of_mem _ hc)
        exact ⟨p :: ps, .cons hp hps⟩
    obtain ⟨ps, hps⟩ := hps
    have h2 := (returns_iff h hok).mp hd
    rw [result_extended, (condsHit_ranges hok' hps).2] at h2
    obtain rfl := Option.some.inj h2
    simp only [FzfDistance.fromScore]
    have hcs : cs ≠ [] := by rintro rfl; simp [patterns] at hne
    have key : cs ≠ [] → K ≤ ((ps.map fun p => ((patHit U (pureOf a) st s p).getD ([], 0)).2).sum) := by
      clear hd hok hne h2 hcs hm hi ha
      induction hps with
      | nil => exact fun h => absurd rfl h
      | @cons c p cs ps hf hps ih =>
        intro _
        have h1 := firstMatch_ge (a := a) hK.2 (hok' c List.mem_cons_self) (hi' c List.mem_cons_self)
          (ha' c List.mem_cons_self) hf
        simp only [List.map_cons, List.sum_cons]
        by_cases hcs : cs = []
        · subst hcs
          cases hps
          simpa using h1
        · have := ih (fun c hc => hok' c (List.mem_cons_of_mem _ hc)) (fun c hc => ha' c (List.mem_cons_of_mem _ hc))
            (fun c hc => hi' c (List.mem_cons_of_mem _ hc)) hcs
          omega
    exact key hcs

theorem cmp_default {d : FzfDistance} (h : 0 < d.score) : d.cmp FzfDistance.default = .lt :=
  (C40_order d _ d).1.mpr h

/-- **C56** for FzfV2, and for queries without fuzzy patterns: every such match is at least 16 closer. What is missing:
FzfV1's fuzzy matches (`C56_false`). -/
theorem C56_partial (h : Reachable U a m st) (hq : Parsed U t q ∨ ParsedRaw U t q)
    (hne : ∃ p ∈ patterns q, p.text ≠ []) (hi : ∀ p ∈ patterns q, p.isInverse = false)
    (ha : a = .v2 ∨ ∀ p ∈ patterns q, p.matchType ≠ .fuzzy) {d : FzfDistance} (hd : Returns U m q s (some d)) :
    16 ≤ d.score ∧ d.cmp FzfDistance.default = .lt := by
  have hok : QueryOk U q := by rcases hq with h | h; exacts [h.ok, h.ok]
  have h16 : 16 ≤ d.score := by
    refine query_ge ⟨by decide, by decide⟩ h hok hne hi ?_ hd
    intro p hp hpt hk x hx
    obtain rfl := ha.resolve_right fun h => h p hp hk
    exact (v2Result_score (posBonus_nonneg U st.scheme s) (posBonus_le U st.scheme s) hpt hx).1
  exact ⟨h16, cmp_default (Int.lt_of_lt_of_le (by decide) h16)⟩

/-- **C56** for either algorithm and candidates that are not much longer than the query's fuzzy patterns. What is missing: longer candidates, which
may match without being closer (`C56_sharp`). -/
theorem C56_short_partial (h : Reachable U a m st) (hq : Parsed U t q ∨ ParsedRaw U t q)
    (hne : ∃ p ∈ patterns q, p.text ≠ []) (hi : ∀ p ∈ patterns q, p.isInverse = false)
    (hs : ∀ p ∈ patterns q, p.matchType = .fuzzy → s.length ≤ 15 * p.text.length + 2) {d : FzfDistance}
    (hd : Returns U m q s (some d)) : d.cmp FzfDistance.default = .lt := by
  have hok : QueryOk U q := by rcases hq with h | h; exacts [h.ok, h.ok]
  have h1 : 1 ≤ d.score := by
    refine query_ge ⟨by decide, by decide⟩ h hok hne hi ?_ hd
    intro p hp hpt hk x hx
    have hB := posBonus_nonneg U st.scheme s
    cases a with
    | v1 =>
      have := v1_ge_length hB (posBonus_zero_ge U st.scheme s) hpt hx
      have := hs p hp hk
      omega
    | v2 =>
      have := (v2Result_score hB (posBonus_le U st.scheme s) hpt hx).1
      omega
  exact cmp_default h1

/-- The length up to which `C56_short_partial` applies is the largest. -/
theorem C56_sharp : Returns Concrete.U (Concrete.metric .v1) (Concrete.parse "ab") ('x' :: 'a' :: List.replicate 30 'x' ++ ['b'])
    (some FzfDistance.default) ∧ ('x' :: 'a' :: List.replicate 30 'x' ++ ['b']).length = 15 * 2 + 3 :=
  ⟨Concrete.returns (s := "xaxxxxxxxxxxxxxxxxxxxxxxxxxxxxxxb") (by decide +kernel), by decide⟩

example : Returns Concrete.U (Concrete.metric .v1) (Concrete.parse "ab 'x") "xaxxxxxxxxxxxxxxxxxxxxxxxxxxxxxb".toList (some ⟨37⟩) ∧
    ∀ d, Returns Concrete.U (Concrete.metric .v1) (Concrete.parse "ab 'x") "xaxxxxxxxxxxxxxxxxxxxxxxxxxxxxxb".toList (some d) →
      d.cmp FzfDistance.default = .lt :=
  ⟨Concrete.returns (by decide +kernel), fun _ => C56_short_partial (Concrete.reachable ..) (.inl (Concrete.parsed _))
    (by decide +kernel) (by decide +kernel) (by decide +kernel)⟩

example : Returns Concrete.U (Concrete.metric .v2) (Concrete.parse "ab | 'c")
      "axxxxxxxxxxxxxxxxxxxxxxxxxxxxxxxxxxxxxxxxxxxxxxxxxxxxxxxxxxxxb".toList (some ⟨36⟩) ∧
    ∀ d, Returns Concrete.U (Concrete.metric .v2) (Concrete.parse "ab | 'c")
      "axxxxxxxxxxxxxxxxxxxxxxxxxxxxxxxxxxxxxxxxxxxxxxxxxxxxxxxxxxxxb".toList (some d) →
      16 ≤ d.score ∧ d.cmp FzfDistance.default = .lt :=
  ⟨Concrete.returns (by decide +kernel), fun _ => C56_partial (Concrete.reachable ..) (.inl (Concrete.parsed _))
    (by decide +kernel) (by decide +kernel) (.inl rfl)⟩

end Norm.Props
