import Verif.Proofs.Relations
import Verif.SpecSearch

/-!
# Helper lemmas on the programs that use the API -/

namespace Norm

open Spec

variable {U : Unicode} {a : Algo} {m : Metric} {st : Settings} {q q' : FzfQuery} {s : List Char}

theorem fresh_reachable (a : Algo) (st : Settings) : Reachable U a (fresh a st) st := by
  have h := (((Reachable.new (U := U) (a := a)).setCaseSensitivity st.caseSensitivity).setCandidateNormalization
    st.normalization).setScoringScheme st.scheme
  exact h

theorem returns_unique {d d' : Option FzfDistance} (h : Returns U m q s d) (h' : Returns U m q s d') : d = d' := by
  obtain ⟨_, e⟩ := h
  obtain ⟨_, e'⟩ := h'
  rw [e] at e'
  cases e'
  rfl

theorem hits_unique {l : List (List Char)} {r r' : List (List Char × FzfDistance)} (h : Hits U a st q l r)
    (h' : Hits U a st q l r') : r = r' := by
  induction h generalizing r' with
  | nil => cases h'; rfl
  | hit hd _ ih =>
    cases h' with
    | hit hd' h' => cases returns_unique hd hd'; rw [ih h']
    | miss hd' h' => cases returns_unique hd hd'
  | miss hd _ ih =>
    cases h' with
    | hit hd' h' => cases returns_unique hd hd'
    | miss hd' h' => exact ih h'

theorem hits_exists (hq : QueryOk U q) (l : List (List Char)) : ∃ r, Hits U a st q l r := by
  induction l with
  | nil => exact ⟨_, .nil⟩
  | cons s l ih =>
    obtain ⟨r, hr⟩ := ih
    obtain ⟨d, hd, _⟩ := decision (fresh_reachable (U := U) a st) hq s
    cases d with
    | none => exact ⟨_, .miss hd hr⟩
    | some d => exact ⟨_, .hit hd hr⟩

theorem filterList_hits (h : Reachable U a m st) (hq : QueryOk U q) {l : List (List Char)}
    {r : List (List Char × FzfDistance)} (hr : Hits U a st q l r) :
    ∃ m', Reachable U a m' st ∧ filterList U q l m = .ok (m', r) := by
  induction hr generalizing m with
  | nil => exact ⟨m, h, rfl⟩
  | @hit s l d r hd _ ih =>
    obtain ⟨m', h1, h2⟩ := call h hq s
    have hd' := (returns_iff (fresh_reachable (U := U) a st) hq).mp hd
    obtain ⟨m'', h3, h4⟩ := ih h1
    refine ⟨m'', h3, ?_⟩
    rw [filterList, h2, Res.bind_ok]
    simp only [h4, Res.bind_ok, Res.pure_def, ← hd']
  | @miss s l r hd _ ih =>
    obtain ⟨m', h1, h2⟩ := call h hq s
    have hd' := (returns_iff (fresh_reachable (U := U) a st) hq).mp hd
    obtain ⟨m'', h3, h4⟩ := ih h1
    refine ⟨m'', h3, ?_⟩
    rw [filterList, h2, Res.bind_ok]
    simp only [h4, Res.bind_ok, Res.pure_def, ← hd']

/-- Lists sorted by score with the same elements of every score in the same order are equal. -/
theorem sorted_ext {α : Type} : ∀ {r r' : List (α × FzfDistance)},
    r.Pairwise (fun x y => y.2.score ≤ x.2.score) → r'.Pairwise (fun x y => y.2.score ≤ x.2.score) →
    (∀ d, r.filter (fun x => x.2 = d) = r'.filter (fun x => x.2 = d)) → r = r' := by
  intro r
  induction r with
  | nil =>
    intro r' _ _ h
    cases r' with
    | nil => rfl
    | cons y ys => have := h y.2; simp at this
  | cons x xs ih =>
    intro r' hs hs' h
    cases r' with
    | nil => have := h x.2; simp at this
    | cons y ys =>
      have hx : x ∈ y :: ys := by
        have : x ∈ (y :: ys).filter (fun z => z.2 = x.2) := by rw [← h]; simp
        exact (List.mem_filter.mp this).1
      have hy : y ∈ x :: xs := by
        have : y ∈ (x :: xs).filter (fun z => z.2 = y.2) := by rw [h]; simp
        exact (List.mem_filter.mp this).1
      have h1 : y.2.score ≤ x.2.score := by
        rcases List.mem_cons.mp hy with rfl | hy
        · exact Int.le_refl _
        · exact (List.pairwise_cons.mp hs).1 y hy
      have h2 : x.2.score ≤ y.2.score := by
        rcases List.mem_cons.mp hx with rfl | hx
        · exact Int.le_refl _
        · exact (List.pairwise_cons.mp hs').1 x hx
      have e : y.2 = x.2 := by
        have := Int.le_antisymm h1 h2
        cases hx2 : x.2; cases hy2 : y.2
        rw [hx2, hy2] at this
        exact congrArg _ this
      have hxy : x = y := by
        have := h x.2
        simp only [List.filter_cons, e, decide_true, if_true] at this
        exact (List.cons.inj this).1
      subst hxy
      congr 1
      refine ih (List.pairwise_cons.mp hs).2 (List.pairwise_cons.mp hs').2 (fun d => ?_)
      have := h d
      simp only [List.filter_cons] at this
      by_cases hd : x.2 = d
      · simpa [hd] using this
      · simpa [hd] using this

theorem distance_le_iff (x y : FzfDistance) : x.cmp y ≠ .gt ↔ y.score ≤ x.score := by
  obtain ⟨x⟩ := x
  obtain ⟨y⟩ := y
  have e : FzfDistance.cmp ⟨x⟩ ⟨y⟩ = if (y : Int) < x then .lt else if (y : Int) = x then .eq else .gt := rfl
  rw [e]
  split
  · simp only [ne_eq, reduceCtorEq, not_false_eq_true, true_iff]
    exact Int.le_of_lt ‹_›
  · split
    · simp only [ne_eq, reduceCtorEq, not_false_eq_true, true_iff]
      exact Int.le_of_eq ‹_›
    · simp only [ne_eq, not_true_eq_false, false_iff]
      intro h
      exact (Int.lt_or_eq_of_le h).elim ‹_› ‹_›

theorem insertByDistance_perm (x : List Char × FzfDistance) (l : List (List Char × FzfDistance)) :
    (insertByDistance x l).Perm (x :: l) := by
  induction l with
  | nil => exact .refl _
  | cons y ys ih =>
    rw [insertByDistance]
    split
    · exact .refl _
    · exact (ih.cons y).trans (.swap ..)

theorem sortByDistance_perm (l : List (List Char × FzfDistance)) : (sortByDistance l).Perm l := by
  induction l with
  | nil => exact .refl _
  | cons x xs ih => exact (insertByDistance_perm ..).trans (ih.cons x)

theorem insertByDistance_sorted (x : List Char × FzfDistance) {l : List (List Char × FzfDistance)}
    (h : l.Pairwise (fun x y => y.2.score ≤ x.2.score)) :
    (insertByDistance x l).Pairwise (fun x y => y.2.score ≤ x.2.score) := by
  induction l with
  | nil => exact List.pairwise_singleton ..
  | cons y ys ih =>
    obtain ⟨h1, h2⟩ := List.pairwise_cons.mp h
    rw [insertByDistance]
    split
    · rename_i hle
      have hle := (distance_le_iff _ _).mp hle
      refine List.pairwise_cons.mpr ⟨?_, h⟩
      intro z hz
      rcases List.mem_cons.mp hz with rfl | hz
      · exact hle
      · exact Int.le_trans (h1 z hz) hle
    · rename_i hle
      have hle : x.2.score ≤ y.2.score := by
        rw [distance_le_iff] at hle
        exact Int.le_of_lt (Int.not_le.mp hle)
      refine List.pairwise_cons.mpr ⟨?_, ih h2⟩
      intro z hz
      rcases List.mem_cons.mp ((insertByDistance_perm x ys).mem_iff.mp hz) with rfl | hz
      · exact hle
      · exact h1 z hz

theorem sortByDistance_sorted (l : List (List Char × FzfDistance)) :
    (sortByDistance l).Pairwise (fun x y => y.2.score ≤ x.2.score) := by
  induction l with
  | nil => exact .nil
  | cons x xs ih => exact insertByDistance_sorted x ih

theorem insertByDistance_filter (x : List Char × FzfDistance) (l : List (List Char × FzfDistance)) (d : FzfDistance) :
    (insertByDistance x l).filter (fun x => x.2 = d) = (x :: l).filter (fun x => x.2 = d) := by
  induction l with
  | nil => rfl
  | cons y ys ih =>
    rw [insertByDistance]
    split
    · rfl
    · rename_i hle
      have hne : x.2 ≠ y.2 := by
        intro e
        rw [e, distance_le_iff] at hle
        exact hle (Int.le_refl _)
      rw [List.filter_cons, ih, List.filter_cons, List.filter_cons, List.filter_cons]
      by_cases h1 : x.2 = d
      · have h2 : y.2 ≠ d := fun e => hne (h1.trans e.symm)
        simp [h1, h2]
      · simp [h1]

/-- The sort is stable. -/
theorem sortByDistance_filter (l : List (List Char × FzfDistance)) (d : FzfDistance) :
    (sortByDistance l).filter (fun x => x.2 = d) = l.filter (fun x => x.2 = d) := by
  induction l with
  | nil => rfl
  | cons x xs ih => rw [sortByDistance, insertByDistance_filter, List.filter_cons, ih, List.filter_cons]

theorem hits_perm_exists {l l' : List (List Char)} (hl : l.Perm l') {r : List (List Char × FzfDistance)}
    (h : Hits U a st q l r) : ∃ r', Hits U a st q l' r' ∧ r.Perm r' := by
  induction hl generalizing r with
  | nil => exact ⟨r, h, .refl _⟩
  | cons x _ ih =>
    cases h with
    | hit hd h => obtain ⟨r', h1, h2⟩ := ih h; exact ⟨_, .hit hd h1, h2.cons _⟩
    | miss hd h => obtain ⟨r', h1, h2⟩ := ih h; exact ⟨_, .miss hd h1, h2⟩
  | swap x y l =>
    cases h with
    | hit hd h =>
      cases h with
      | hit he h => exact ⟨_, .hit he (.hit hd h), .swap ..⟩
      | miss he h => exact ⟨_, .miss he (.hit hd h), .refl _⟩
    | miss hd h =>
      cases h with
      | hit he h => exact ⟨_, .hit he (.miss hd h), .refl _⟩
      | miss he h => exact ⟨_, .miss he (.miss hd h), .refl _⟩
  | trans _ _ ih₁ ih₂ =>
    obtain ⟨_, h1, h2⟩ := ih₁ h
    obtain ⟨_, h3, h4⟩ := ih₂ h1
    exact ⟨_, h3, h2.trans h4⟩

theorem hits_perm {l l' : List (List Char)} (hl : l.Perm l') {r r' : List (List Char × FzfDistance)}
    (h : Hits U a st q l r) (h' : Hits U a st q l' r') : r.Perm r' := by
  obtain ⟨_, h1, h2⟩ := hits_perm_exists hl h
  rwa [hits_unique h1 h'] at h2

/-- Sorted lists with the same elements have the same scores at every place. -/
theorem scores_ext {α : Type} {r r' : List (α × FzfDistance)} (h : r.Perm r')
    (hs : r.Pairwise (fun x y => y.2.score ≤ x.2.score)) (hs' : r'.Pairwise (fun x y => y.2.score ≤ x.2.score)) :
    r.map (·.2) = r'.map (·.2) := by
  refine List.Perm.eq_of_pairwise (le := fun x y : FzfDistance => y.score ≤ x.score) ?_ (List.pairwise_map.mpr hs)
    (List.pairwise_map.mpr hs') (h.map _)
  rintro ⟨x⟩ ⟨y⟩ _ _ h1 h2
  exact congrArg _ (Int.le_antisymm h2 h1)

/-! ### Slicing -/

/-- Whole characters of the candidate. -/
def IsSlice (s : List Char) (r : Range) : Prop :=
  ∃ x y z, s = x ++ y ++ z ∧ r.start = byteLen x ∧ r.stop = byteLen (x ++ y)

theorem strSliceR_ok {r : Range} (h : IsSlice s r) : ∃ y, strSliceR s r = .ok y := by
  obtain ⟨x, y, z, rfl, h1, h2⟩ := h
  refine ⟨y, ?_⟩
  have e1 : strToR (x ++ y ++ z) r.stop = .ok (x ++ y) := by rw [h2, ← strLen_eq_byteLen]; exact strToR_append ..
  have e2 : strFromR (x ++ y) r.start = .ok y := by rw [h1, ← strLen_eq_byteLen]; exact strFromR_append ..
  rw [strSliceR, e1, Res.bind_ok, e2]

theorem sliceAll_ok {rs : List Range} (h : ∀ r ∈ rs, IsSlice s r) : sliceAll s rs = .ok () := by
  induction rs with
  | nil => rfl
  | cons r rs ih =>
    obtain ⟨y, hy⟩ := strSliceR_ok (h r (by simp))
    rw [sliceAll, hy, Res.bind_ok]
    exact ih (fun r hr => h r (List.mem_cons_of_mem _ hr))

end Norm
