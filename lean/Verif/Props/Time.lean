import Verif.Proofs.StepsMetric
import Verif.Proofs.StepsFamily
import Verif.Proofs.Timed
import Verif.Props.Grammar

/-!
# How long a call takes

Properties C69–C71: the time complexities documented for the two metrics (`/repo/src/metrics/fzf/fzf_v1.rs:16-18`,
`/repo/src/metrics/fzf/fzf_v2.rs:52-59`), in the steps that `Verif.Model.Timed` counts. `len(candidate)` is the number of bytes,
`strLen s`. -/

namespace Norm.Props

open Spec

variable {U : Unicode} {a : Algo} {m : Metric} {st : Settings} {q : FzfQuery} {t s : List Char} {p : Pattern}

/-- **C69.** Counting steps does not change what the calls do: without the counts, the counting functions are those of the main
model. -/
theorem C69_result (m : Metric) (q : FzfQuery) (s : List Char) (buf : List Range) :
    (m.timedDistance U q s).res = m.distance U q s ∧
    (m.timedDistanceAndRanges U q s buf).res = m.distanceAndRanges U q s buf :=
  ⟨Metric.res_timedDistance U q s m, Metric.res_timedDistanceAndRanges U q s buf m⟩

/-! ### `FzfV1` -/

/-- **C69**, as documented: `O(len(candidate))` for `FzfV1::distance`, whatever the query; here for queries of one pattern. -/
def C69 (U : Unicode) : Prop := ∃ K, ∀ m st t q s, Reachable U .v1 m st → Parsed U t q → (patterns q).length = 1 →
  (m.timedDistance U q s).steps ≤ K * (strLen s + 1)

/-- The query `'a…ab`. -/
theorem exact_query (U : Unicode) (k : Nat) : ∃ t, Parsed U t (single (mkPattern U false .exact (List.replicate k 'a' ++ ['b']))) := by
  obtain ⟨P', _, h⟩ := FzfParser.parse_eq U FzfParser.new (literally (List.replicate k 'a' ++ ['b']))
  have hq : Parsed U (literally (List.replicate k 'a' ++ ['b'])) _ := ⟨_, P', .new, h⟩
  refine ⟨literally (List.replicate k 'a' ++ ['b']), ?_⟩
  have := C33_literally (by simp) hq
  rw [this] at hq
  exact hq

/-- For every constant, there is an exact query of one pattern for which any metric takes more steps than that constant times the
length of the candidate, only to find out that the candidate does not match. -/
theorem exact_not_linear (hm : Reachable U a m st) (K : Nat) : ∃ t q s, Parsed U t q ∧ (patterns q).length = 1 ∧
    Returns U m q s none ∧ K * (strLen s + 1) < (m.timedDistance U q s).steps := by
  obtain ⟨t, ht⟩ := exact_query U (K + 1)
  refine ⟨t, _, List.replicate (K + 1 + 1 + (K + 2)) 'a', ht, rfl, ?_, ?_⟩
  · obtain ⟨m', _, h⟩ := call hm ht.ok (List.replicate (K + 1 + 1 + (K + 2)) 'a')
    rw [exact_none (k := K + 1) rfl rfl rfl] at h
    exact ⟨m', h⟩
  · have h := timedDistance_lower (p := mkPattern U false .exact (List.replicate (K + 1) 'a' ++ ['b'])) hm rfl (by omega) rfl (K + 2)
    refine Nat.lt_of_lt_of_le ?_ h
    rw [replicate_strLen, show 2 * (K + 1 + 1) * (K + 2) = (2 * K + 4) * (K + 2) by
      rw [show 2 * (K + 1 + 1) = 2 * K + 4 by omega], show K + 1 + 1 + (K + 2) + 1 = 2 * K + 5 by omega, Nat.mul_add, Nat.add_mul, Nat.mul_add]
    have : K * (2 * K) = 2 * K * K := Nat.mul_comm _ _
    omega

/-- **C69 is false**: an exact pattern is compared anew at every occurrence of its first character. -/
theorem C69_false : ¬ C69 U := by
  rintro ⟨K, h⟩
  obtain ⟨t, q, s, h1, h2, _, h3⟩ := exact_not_linear (U := U) (.new (a := .v1)) K
  have := h _ _ t q s .new h1 h2
  omega

/-- **C69**, proved part: if no pattern is an exact one (`'` or `!`), `distance` takes at most `6 * len + 6` steps for each
pattern, and `3 * len` to look at and copy the candidate. For a query of one pattern, this is the documented
`O(len(candidate))`, for matches and non-matches. Missing: exact patterns, for which `C69_product` holds. -/
theorem C69_partial (hm : Reachable U .v1 m st) (hq : Parsed U t q ∨ ParsedRaw U t q) (h : ∀ p ∈ patterns q, p.matchType ≠ .exact)
    (s : List Char) : (m.timedDistance U q s).steps ≤ 3 * strLen s + (6 * strLen s + 6) * (patterns q).length := by
  have hok : QueryOk U q := by rcases hq with h | h; exacts [h.ok, h.ok]
  have h1 := timedDistance_steps hm hok s
  have h2 := query_linear (L := strLen s) hok h
  split at h1 <;> omega

/-- **C69**, fuzzy queries: a query of one fuzzy pattern, however long, takes at most `9 * len + 4` steps. -/
theorem C69_fuzzy (hm : Reachable U .v1 m st) (hq : QueryOk U (.notExtended p)) (s : List Char) :
    (m.timedDistance U (.notExtended p) s).steps ≤ 9 * strLen s + 4 := by
  have h1 := timedDistance_steps hm hq s
  simp only [queryCost, fuzzyCost, extra_false] at h1
  split at h1 <;> omega

/-- **C69**, fuzzy queries: reporting the ranges as well takes at most `len * (log2 len + 2)` steps more, however many ranges the
caller's vector already has. -/
theorem C69_ranges (hm : Reachable U .v1 m st) (p : Pattern) (s : List Char) (buf : List Range) :
    (m.timedDistanceAndRanges U (.notExtended p) s buf).steps ≤ 9 * strLen s + 4 + strLen s * ((strLen s).log2 + 2) := by
  have := timedRanges_fuzzy hm p s buf
  omega

/-- **C69**: all queries of `FzfV1`. The steps are at most proportional to the product of the lengths of the query and of the
candidate. -/
theorem C69_product (hm : Reachable U .v1 m st) (hq : QueryOk U q) (s : List Char) (buf : List Range) :
    (m.timedDistance U q s).steps ≤ (9 * strLen s + 6) * queryLen q ∧
    (m.timedDistanceAndRanges U q s buf).steps ≤ (14 * strLen s + 7) * queryLen q := by
  constructor
  · have := product_steps hq (fun p _ hp => (v1_pattern (strLen s) hp).1) (timedDistance_steps hm hq s)
    rw [show 6 * strLen s + 6 + 3 * strLen s = 9 * strLen s + 6 by omega] at this
    exact this
  · have := product_steps hq (fun p _ hp => (v1_pattern (strLen s) hp).2) (timedRanges_steps hm hq s buf)
    rw [show 11 * strLen s + 7 + 3 * strLen s = 14 * strLen s + 7 by omega] at this
    exact this

/-! ### `FzfV2` -/

/-- **C70.** `FzfV2` takes `O(len(query) * len(candidate))`, for all queries, whatever the state of its buffers. -/
theorem C70 (hm : Reachable U .v2 m st) (hq : QueryOk U q) (s : List Char) (buf : List Range) :
    (m.timedDistance U q s).steps ≤ (27 * strLen s + 9) * queryLen q ∧
    (m.timedDistanceAndRanges U q s buf).steps ≤ (38 * strLen s + 11) * queryLen q := by
  constructor
  · have := product_steps hq (fun p _ hp => (v2_pattern (strLen s) hp).1) (timedDistance_steps hm hq s)
    rw [show 24 * strLen s + 9 + 3 * strLen s = 27 * strLen s + 9 by omega] at this
    exact this
  · have := product_steps hq (fun p _ hp => (v2_pattern (strLen s) hp).2) (timedRanges_steps hm hq s buf)
    rw [show 35 * strLen s + 11 + 3 * strLen s = 38 * strLen s + 11 by omega] at this
    exact this

/-- **C70**: the patterns of a parsed query have at most as many characters as the string. -/
theorem C70_queryLen : (Parsed U t q → queryLen q ≤ t.length) ∧ (ParsedRaw U t q → queryLen q = t.length) :=
  ⟨queryLen_parsed, queryLen_parsedRaw⟩

/-- **C70** in terms of the string that was parsed. -/
theorem C70_text (hm : Reachable U .v2 m st) (hq : Parsed U t q ∨ ParsedRaw U t q) (s : List Char) (buf : List Range) :
    (m.timedDistance U q s).steps ≤ (27 * strLen s + 9) * t.length ∧
    (m.timedDistanceAndRanges U q s buf).steps ≤ (38 * strLen s + 11) * t.length := by
  have hok : QueryOk U q := by rcases hq with h | h; exacts [h.ok, h.ok]
  have hlen : queryLen q ≤ t.length := by
    rcases hq with h | h
    · exact queryLen_parsed h
    · exact Nat.le_of_eq (queryLen_parsedRaw h)
  have h := C70 hm hok s buf
  exact ⟨Nat.le_trans h.1 (Nat.mul_le_mul_left _ hlen), Nat.le_trans h.2 (Nat.mul_le_mul_left _ hlen)⟩

/-- **C70**, the other way round: if the query's first pattern is a fuzzy one of at least two characters that matches, `FzfV2` takes
at least twice the product of its length and the distance between any match of its first and any match of its last character. -/
theorem C70_lower (hm : Reachable U .v2 m st) (hq : QueryOk U q) (hp : (patterns q).head? = some p) (hf : p.matchType = .fuzzy)
    (h2 : 2 ≤ p.text.length) (hr : RawMatches U st p s) {i j : Nat} {c d x y : Char} (hc : p.text.head? = some c)
    (hd : p.text.getLast? = some d) (hx : s[i]? = some x) (hy : s[j]? = some y) (hi : Cmp U st p.text c x) (hj : Cmp U st p.text d y)
    (buf : List Range) :
    2 * (p.text.length * (j + 1 - i)) ≤ (m.timedDistance U q s).steps ∧
    2 * (p.text.length * (j + 1 - i)) ≤ (m.timedDistanceAndRanges U q s buf).steps := by
  have hu : p.hasUppercase = p.text.any U.isUppercase := by
    cases q with
    | notExtended p' => cases hp; exact (queryOk_upper hq).1
    | extended cs =>
      obtain ⟨c, hc, hpc⟩ := List.mem_flatten.mp (List.mem_of_mem_head? hp)
      exact ((hq c hc).2 p hpc).upper
  have hrel := rel_eqOf (U := U) st hu
  unfold RawMatches TextMatches at hr
  rw [hf, ← hrel] at hr
  rw [← hrel] at hi hj
  refine timed_v2_lower hm hq hp hf h2 hr hx hy ?_ ?_ buf
  · rw [List.headD_eq_head?_getD, hc]; exact hi
  · rw [List.getLastD_eq_getLast?, hd]; exact hj

/-- **C70**: the bound is attained, up to a constant factor, for all lengths `k` of a query (of one fuzzy pattern) and `n` of a
candidate. -/
theorem C70_attained (hm : Reachable U .v2 m st) {k n : Nat} (hk : 2 ≤ k) (hn : k ≤ n) :
    ∃ t q, Parsed U t q ∧ queryLen q = k ∧ 2 * (k * strLen (List.replicate n 'a')) ≤ (m.timedDistance U q (List.replicate n 'a')).steps := by
  have hp : Parsed U (List.replicate k 'a') (.notExtended (mkPattern U false .fuzzy (List.replicate k 'a'))) := by
    have h := parsed_of_query U (List.replicate k 'a')
    rw [query_one_fuzzy (w := List.replicate k 'a') (by
      have := words_escape (t := List.replicate k 'a') (by simp; omega)
      rwa [as_escape] at this) (as_not_bar k) (as_pattern U (by omega)) rfl] at h
    exact h
  refine ⟨_, _, hp, by simp [queryLen, patterns, mkPattern], ?_⟩
  rw [replicate_strLen]
  have hx : (List.replicate n 'a')[0]? = some 'a' := by rw [List.getElem?_replicate, if_pos (by omega)]
  have hy : (List.replicate n 'a')[n - 1]? = some 'a' := by rw [List.getElem?_replicate, if_pos (by omega)]
  have h := (timed_v2_lower (p := mkPattern U false .fuzzy (List.replicate k 'a')) hm hp.ok rfl rfl (by simpa [mkPattern] using hk)
    (as_subseq _ hn) hx hy (by
      show st.eqOf _ ((List.replicate k 'a').headD 'a') 'a' = true
      cases k with
      | zero => omega
      | succ k => exact eqOf_aa _ _) (by
      show st.eqOf _ ((List.replicate k 'a').getLastD 'a') 'a' = true
      rw [List.getLastD_eq_getLast?, List.getLast?_replicate]
      split <;> exact eqOf_aa _ _) []).1
  simp only [mkPattern, List.length_replicate, Nat.sub_zero] at h
  rw [show n - 1 + 1 = n by omega] at h
  exact h

/-! ### Non-matches of `FzfV2` -/

/-- **C71**, as documented: filtering out non-matches is done in `O(len(candidate))`; here for queries of one pattern. -/
def C71 (U : Unicode) : Prop := ∃ K, ∀ m st t q s, Reachable U .v2 m st → Parsed U t q → (patterns q).length = 1 →
  Returns U m q s none → (m.timedDistance U q s).steps ≤ K * (strLen s + 1)

/-- **C71 is false**, for the same reason as C69. -/
theorem C71_false : ¬ C71 U := by
  rintro ⟨K, h⟩
  obtain ⟨t, q, s, h1, h2, h3, h4⟩ := exact_not_linear (U := U) (.new (a := .v2)) K
  have := h _ _ t q s .new h1 h2 h3
  omega

/-- **C71 is false** for queries of fuzzy patterns, too, if they have more than one condition: the first one may match. -/
theorem C71_conditions_false : ¬ ∃ K, ∀ m st t q s, Reachable U .v2 m st → Parsed U t q → (patterns q).length = 2 →
    (∀ p ∈ patterns q, p.matchType = .fuzzy ∧ p.isInverse = false) → Returns U m q s none →
    (m.timedDistance U q s).steps ≤ K * (strLen s + 1) := by
  rintro ⟨K, h⟩
  have hq := parsed_of_query U (List.replicate (K + 2) 'a' ++ [' ', 'z'])
  rw [as_query U (by omega)] at hq
  have hm : Reachable U .v2 _ _ := .new (a := .v2)
  have hnone : Returns U (Metric.new .v2) (.extended [[mkPattern U false .fuzzy (List.replicate (K + 2) 'a')],
      [mkPattern U false .fuzzy ['z']]]) (List.replicate (K + 2) 'a') none := by
    obtain ⟨m', _, hc⟩ := call hm hq.ok (List.replicate (K + 2) 'a')
    cases hr : (result U .v2 _ (List.replicate (K + 2) 'a') (.extended [[mkPattern U false .fuzzy (List.replicate (K + 2) 'a')],
      [mkPattern U false .fuzzy ['z']]])).2 with
    | none => rw [hr] at hc; exact ⟨m', hc⟩
    | some x =>
      exfalso
      have hqm := (result_isSome hq.ok).mp (by rw [hr]; rfl)
      obtain ⟨p, hp, hpm⟩ := hqm [mkPattern U false .fuzzy ['z']] (by simp)
      rw [List.mem_singleton] at hp
      subst hp
      have hpm : Subseq (Cmp U defaultSettings (mkPattern U false .fuzzy ['z']).text) ['z'] (List.replicate (K + 2) 'a') := hpm
      rw [← rel_eqOf (p := mkPattern U false .fuzzy ['z']) _ rfl] at hpm
      obtain ⟨l, hl, hf⟩ := hpm
      obtain ⟨c, hc, he⟩ := forall₂_mem hf (x := 'z') (by simp)
      rw [List.eq_of_mem_replicate (hl.subset hc)] at he
      exact absurd he (by
        unfold rel Settings.eqOf
        generalize isSensitive _ _ = b1
        generalize Settings.normalization _ = b2
        cases b1 <;> cases b2 <;> decide +kernel)
  have h1 := h _ _ _ _ (List.replicate (K + 2) 'a') hm hq rfl (by
    intro p hp
    simp only [patterns, List.flatten_cons, List.flatten_nil, List.append_nil, List.cons_append, List.nil_append, List.mem_cons,
      List.not_mem_nil, or_false] at hp
    rcases hp with rfl | rfl <;> exact ⟨rfl, rfl⟩) hnone
  have hx : (List.replicate (K + 2) 'a')[0]? = some 'a' := by simp
  have hy : (List.replicate (K + 2) 'a')[K + 1]? = some 'a' := by simp
  have h2 := (timed_v2_lower (p := mkPattern U false .fuzzy (List.replicate (K + 2) 'a')) hm hq.ok rfl rfl (by simp [mkPattern])
    (as_subseq _ (Nat.le_refl _)) hx hy (eqOf_aa _ _) (by
      show Settings.eqOf _ _ ((List.replicate (K + 2) 'a').getLastD 'a') 'a' = true
      rw [List.getLastD_eq_getLast?, List.getLast?_replicate]
      split <;> exact eqOf_aa _ _) []).1
  simp only [mkPattern, List.length_replicate, Nat.sub_zero] at h2
  rw [replicate_strLen] at h1
  have h3 := Nat.le_trans h2 h1
  have h4 : K * (K + 2 + 1) ≤ (K + 2) * (K + 1 + 1) + K := by
    rw [show K + 1 + 1 = K + 2 by omega, Nat.mul_add K (K + 2) 1, Nat.add_mul K 2 (K + 2)]
    omega
  have h5 : K + 2 ≤ (K + 2) * (K + 1 + 1) := Nat.le_mul_of_pos_right _ (by omega)
  omega

/-- **C71**, proved part for queries of several patterns: if the first condition does not match, each of its patterns takes at most
`9 * len + 5` steps and one for each of its characters (to make a buffer longer), provided that it is not exact nor both
negated and fuzzy. The conditions after it are not looked at. -/
theorem C71_first_partial (hm : Reachable U .v2 m st) {c : Condition} {cs : List Condition} (hq : QueryOk U (.extended (c :: cs)))
    (hc : ∀ p ∈ c, p.matchType ≠ .exact ∧ (p.matchType = .fuzzy → p.isInverse = false)) (hn : Returns U m (.extended [c]) s none)
    (buf : List Range) :
    (m.timedDistance U (.extended (c :: cs)) s).steps ≤
      3 * strLen s + 1 + (c.map fun p => 9 * strLen s + 5 + p.text.length).sum ∧
    (m.timedDistanceAndRanges U (.extended (c :: cs)) s buf).steps ≤
      3 * strLen s + 1 + (c.map fun p => 9 * strLen s + 5 + p.text.length).sum := by
  obtain ⟨m', hd⟩ := hn
  have hq1 : QueryOk U (.extended [c]) := fun d hd => hq d (by simp at hd; simp [hd])
  have hr := call_inv hm hq1 hd
  have hr : condHit U (pureOf .v2) st s c = none := by
    rw [result_extended] at hr
    unfold condsHit at hr
    cases h : condHit U (pureOf .v2) st s c with
    | none => rfl
    | some x => rw [h] at hr; cases hr
  obtain ⟨ha, hm⟩ := reachable_has hm
  have hp : ∀ p ∈ c, p.text ≠ [] ∧ p.matchType ≠ .exact ∧ (p.matchType = .fuzzy → p.isInverse = false) :=
    fun p hp => ⟨((hq c (by simp)).2 p hp).1, hc p hp⟩
  cases m with
  | v1 m => cases ha
  | v2 m =>
    exact ⟨Nat.le_trans (timedDistance_v2 m) (v2_first_miss false hm hp hr []),
      Nat.le_trans (timedRanges_v2 m buf) (v2_first_miss true hm hp hr buf)⟩

/-- **C71**, proved part: with a query of one fuzzy pattern, a candidate that does not match takes at most `6 * len + 1` steps,
and once the length of the pattern, if it is longer than all before (and than 128), to make a buffer longer. Missing: exact
patterns, and queries of several patterns, of which the first ones may match. -/
theorem C71_partial (hm : Reachable U .v2 m st) (hq : QueryOk U (.notExtended p)) (hn : Returns U m (.notExtended p) s none)
    (buf : List Range) :
    (m.timedDistance U (.notExtended p) s).steps ≤
      6 * strLen s + 1 + (if p.text.length > (sizes m).indices then p.text.length else 0) ∧
    (m.timedDistanceAndRanges U (.notExtended p) s buf).steps ≤
      6 * strLen s + 1 + (if p.text.length > (sizes m).indices then p.text.length else 0) := by
  obtain ⟨m', hd⟩ := hn
  have hr := call_inv hm hq hd
  have hr : (result U .v2 st s (.notExtended p)).2 = none := by
    cases h : (result U .v2 st s (.notExtended p)).2 with
    | none => rfl
    | some x => rw [h] at hr; cases hr
  obtain ⟨ha, hm⟩ := reachable_has hm
  cases m with
  | v1 m => cases ha
  | v2 m =>
    exact ⟨Nat.le_trans (timedDistance_v2 m) (v2_nonmatch false hm hr []),
      Nat.le_trans (timedRanges_v2 m buf) (v2_nonmatch true hm hr buf)⟩

/-- **C71**: patterns of at most 128 characters never make that buffer longer. -/
theorem C71_small (hm : Reachable U .v2 m st) (hq : QueryOk U (.notExtended p)) (hn : Returns U m (.notExtended p) s none)
    (hp : p.text.length ≤ 128) (buf : List Range) :
    (m.timedDistance U (.notExtended p) s).steps ≤ 6 * strLen s + 1 ∧
    (m.timedDistanceAndRanges U (.notExtended p) s buf).steps ≤ 6 * strLen s + 1 := by
  have h := C71_partial hm hq hn buf
  have h128 : (128 : Nat) ≤ (sizes m).indices := sizes_reachable hm
  rw [if_neg (by omega)] at h
  exact h

/-! ### Concrete cases -/

/-- The steps of a call of `distance`, and of `distance_and_ranges` with an empty vector. -/
def stepsOf (a : Algo) (t s : String) : Nat × Nat :=
  (((Concrete.metric a).timedDistance Concrete.U (Concrete.parse t) s.toList).steps,
    ((Concrete.metric a).timedDistanceAndRanges Concrete.U (Concrete.parse t) s.toList []).steps)

theorem stepsOf_eq (a : Algo) (t s : String) : stepsOf a t s =
    (((Concrete.metric a).timedDistance Concrete.U (Concrete.parse t) s.toList).steps,
      ((Concrete.metric a).timedDistanceAndRanges Concrete.U (Concrete.parse t) s.toList []).steps) := rfl

/-- The example of `FzfV1`'s documentation: 32 steps, the bound is 76; the ranges take 3 steps more. -/
example : stepsOf .v1 "abc" "a_b_abcd" = (32, 35) := by decide +kernel
example : ((Concrete.metric .v1).timedDistance Concrete.U (.notExtended (mkPattern Concrete.U false .fuzzy "abc".toList))
      "a_b_abcd".toList).steps ≤ 76 ∧
    ((Concrete.metric .v1).timedDistanceAndRanges Concrete.U (.notExtended (mkPattern Concrete.U false .fuzzy "abc".toList))
      "a_b_abcd".toList [⟨0, 1⟩]).steps ≤ 116 := by
  have h1 := C69_fuzzy (Concrete.reachable .v1 .smart false .default) (p := mkPattern Concrete.U false .fuzzy "abc".toList) rfl
    "a_b_abcd".toList
  have h2 := C69_ranges (Concrete.reachable .v1 .smart false .default) (mkPattern Concrete.U false .fuzzy "abc".toList)
    "a_b_abcd".toList [⟨0, 1⟩]
  have hs : strLen "a_b_abcd".toList = 8 := by decide +kernel
  have hl : (8 : Nat).log2 = 3 := by decide +kernel
  rw [hs] at h1 h2
  rw [hl] at h2
  exact ⟨h1, h2⟩

/-- Two patterns that are not exact. -/
example : (stepsOf .v1 "^foo bar$" "foo bar").1 = 42 := by decide +kernel
example : (stepsOf .v1 "^foo bar$" "foo bar").1 ≤ 3 * 7 + (6 * 7 + 6) * 2 := by
  have h := C69_partial (Concrete.reachable .v1 .smart false .default) (.inl (Concrete.parsed "^foo bar$")) (by decide +kernel)
    "foo bar".toList
  have hs : strLen "foo bar".toList = 7 := by decide +kernel
  have hq : (patterns (Concrete.parse "^foo bar$")).length = 2 := by decide +kernel
  rw [hs, hq] at h
  rw [stepsOf_eq]
  dsimp only
  exact h

/-- An exact pattern: the steps grow with the pattern, while those of the fuzzy pattern stay below 220. -/
example : (stepsOf .v1 "'ab" "aaaaaaaaaaaaaaaaaaaaaaaa").1 = 118 ∧ (stepsOf .v1 "'aaaaaaaaaaab" "aaaaaaaaaaaaaaaaaaaaaaaa").1 = 338 ∧
    (stepsOf .v1 "aaaaaaaaaaab" "aaaaaaaaaaaaaaaaaaaaaaaa").1 = 60 := by decide +kernel
example : ∃ t q s, Parsed Concrete.U t q ∧ (patterns q).length = 1 ∧ Returns Concrete.U (Concrete.metric .v1) q s none ∧
    1000 * (strLen s + 1) < ((Concrete.metric .v1).timedDistance Concrete.U q s).steps :=
  exact_not_linear (Concrete.reachable .v1 .smart false .default) 1000

/-- Three patterns, one of them not tried. -/
theorem foo_lengths : strLen "xfoo_bar".toList = 8 ∧ queryLen (Concrete.parse "'foo b | c") = 5 := by decide +kernel
example : stepsOf .v1 "'foo b | c" "xfoo_bar" = (53, 55) ∧ stepsOf .v2 "'foo b | c" "xfoo_bar" = (51, 54) := by decide +kernel
example : (stepsOf .v1 "'foo b | c" "xfoo_bar").1 ≤ (9 * 8 + 6) * 5 ∧ (stepsOf .v1 "'foo b | c" "xfoo_bar").2 ≤ (14 * 8 + 7) * 5 := by
  have h := C69_product (Concrete.reachable .v1 .smart false .default) (Concrete.parsed "'foo b | c").ok "xfoo_bar".toList []
  rw [foo_lengths.1, foo_lengths.2] at h
  rw [stepsOf_eq]
  dsimp only
  exact h
example : (stepsOf .v2 "'foo b | c" "xfoo_bar").1 ≤ (27 * 8 + 9) * 5 ∧ (stepsOf .v2 "'foo b | c" "xfoo_bar").2 ≤ (38 * 8 + 11) * 5 := by
  have h := C70 (Concrete.reachable .v2 .smart false .default) (Concrete.parsed "'foo b | c").ok "xfoo_bar".toList []
  rw [foo_lengths.1, foo_lengths.2] at h
  rw [stepsOf_eq]
  dsimp only
  exact h
example : (stepsOf .v2 "'foo b | c" "xfoo_bar").1 ≤ (27 * 8 + 9) * 10 ∧ (stepsOf .v2 "'foo b | c" "xfoo_bar").2 ≤ (38 * 8 + 11) * 10 := by
  have h := C70_text (Concrete.reachable .v2 .smart false .default) (.inl (Concrete.parsed "'foo b | c")) "xfoo_bar".toList []
  rw [foo_lengths.1, show "'foo b | c".toList.length = 10 by decide +kernel] at h
  rw [stepsOf_eq]
  dsimp only
  exact h
example : queryLen (Concrete.parse "'foo b | c") ≤ "'foo b | c".toList.length := C70_queryLen.1 (Concrete.parsed "'foo b | c")

/-- `FzfV2` takes 146 steps for a match, 23 for a non-match; the bound is 49. -/
example : stepsOf .v2 "abc" "a_b_abcd" = (146, 168) ∧ stepsOf .v2 "abcx" "a_b_abcd" = (23, 23) := by decide +kernel
example : ((Concrete.metric .v2).timedDistance Concrete.U (.notExtended (mkPattern Concrete.U false .fuzzy "abcx".toList))
    "a_b_abcd".toList).steps ≤ 6 * strLen "a_b_abcd".toList + 1 :=
  (C71_small (p := mkPattern Concrete.U false .fuzzy "abcx".toList) (Concrete.reachable .v2 .smart false .default) rfl (Concrete.returns (s := "a_b_abcd") (by decide +kernel))
    (by decide +kernel) []).1

/-- A pattern of 129 characters makes the buffer longer. -/
example : ((Concrete.metric .v2).timedDistance Concrete.U
    (.notExtended (mkPattern Concrete.U false .fuzzy (List.replicate 129 'x'))) "a_b".toList).steps ≤ 6 * 3 + 1 + 129 := by
  have h := (C71_partial (p := mkPattern Concrete.U false .fuzzy (List.replicate 129 'x')) (Concrete.reachable .v2 .smart false .default)
    rfl (Concrete.returns (s := "a_b") (by decide +kernel)) []).1
  have hs : strLen "a_b".toList = 3 := by decide +kernel
  have hg : (mkPattern Concrete.U false .fuzzy (List.replicate 129 'x')).text.length = 129 := List.length_replicate
  have hi : (129 : Nat) > (sizes (Concrete.metric .v2 .smart false .default)).indices := by decide +kernel
  rw [hs, hg, if_pos hi] at h
  exact h

/-- A match: two matrices of three rows and eight columns, of which seven are between the first `a` and the last `c`. -/
example : 2 * (3 * 7) ≤ ((Concrete.metric .v2).timedDistance Concrete.U
    (.notExtended (mkPattern Concrete.U false .fuzzy "abc".toList)) "a_b_abcd".toList).steps :=
  (C70_lower (q := .notExtended (mkPattern Concrete.U false .fuzzy "abc".toList)) (i := 0) (j := 6)
    (Concrete.reachable .v2 .smart false .default) rfl rfl rfl (by decide +kernel)
    ⟨"abc".toList, by decide +kernel, .cons (CharMatches.refl _ _ _) (.cons (CharMatches.refl _ _ _) (.cons (CharMatches.refl _ _ _) .nil))⟩
    (by decide +kernel) (by decide +kernel) (by decide +kernel) (by decide +kernel) (CharMatches.refl _ _ 'a') (CharMatches.refl _ _ 'c')
    []).1
example : ∃ t q, Parsed Concrete.U t q ∧ queryLen q = 5 ∧ 2 * (5 * strLen (List.replicate 40 'a')) ≤
    ((Concrete.metric .v2).timedDistance Concrete.U q (List.replicate 40 'a')).steps :=
  C70_attained (Concrete.reachable .v2 .smart false .default) (by omega) (by omega)

/-- `aaaaaaaa` matches, `z` does not: most of the steps are spent on the former. In the other order, the first condition decides. -/
example : stepsOf .v2 "aaaaaaaa z" "aaaaaaaa" = (492, 553) ∧ stepsOf .v2 "z aaaaaaaa" "aaaaaaaa" = (19, 19) ∧
    stepsOf .v2 "^z | y | x$ aaaaaaaa" "aaaaaaaa" = (27, 27) := by decide +kernel
example : (stepsOf .v2 "^z | y | x$ aaaaaaaa" "aaaaaaaa").1 ≤ 3 * 8 + 1 + 3 * (9 * 8 + 5 + 1) := by
  have hq : Concrete.parse "^z | y | x$ aaaaaaaa" = .extended [[mkPattern Concrete.U false .prefixExact ['z'],
      mkPattern Concrete.U false .fuzzy ['y'], mkPattern Concrete.U false .suffixExact ['x']],
      [mkPattern Concrete.U false .fuzzy "aaaaaaaa".toList]] := by decide +kernel
  have hok := (Concrete.parsed "^z | y | x$ aaaaaaaa").ok
  rw [stepsOf_eq]
  dsimp only
  rw [hq] at hok ⊢
  have h := (C71_first_partial (s := "aaaaaaaa".toList) (Concrete.reachable .v2 .smart false .default) hok (by decide +kernel)
    (Concrete.returns (s := "aaaaaaaa") (by decide +kernel)) []).1
  have hs : strLen "aaaaaaaa".toList = 8 := by decide +kernel
  rw [hs] at h
  exact h

end Norm.Props
