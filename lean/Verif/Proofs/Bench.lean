import Verif.Proofs.Steady
import Verif.Proofs.Sizes
import Verif.Proofs.Timed
import Verif.Proofs.Calls

/-!
# Calls and benchmarks, from metrics with other buffers

What `Verif.Proofs.Steady` says about metrics that API calls have made, and about the benchmarks' loops. -/

namespace Norm

open Spec

variable {U : Unicode} {a : Algo} {m m' m₁ m₂ : Metric} {st : Settings} {q : FzfQuery} {s : List Char}

theorem exists_within (q : FzfQuery) : ∃ n, Within n q := by
  unfold Within
  induction patterns q with
  | nil => exact ⟨0, fun _ h => nomatch h⟩
  | cons p l ih =>
    obtain ⟨n, hn⟩ := ih
    refine ⟨max n p.text.length, fun p' hp' => ?_⟩
    cases hp' with
    | head => exact Nat.le_max_right _ _
    | tail _ h => exact Nat.le_trans (hn p' h) (Nat.le_max_left _ _)

theorem BufLens.sup_zero (x : BufLens) : (⟨0, 0, 0, 0, 0⟩ : BufLens).sup x = x := by
  simp [BufLens.sup]

theorem BufLens.sup_of_le {x y : BufLens} (h : x.Le y) : y.sup x = y := by
  obtain ⟨h1, h2, h3, h4, h5⟩ := h
  simp only [BufLens.sup, Nat.max_eq_left h1, Nat.max_eq_left h2, Nat.max_eq_left h3, Nat.max_eq_left h4, Nat.max_eq_left h5]

theorem sizes_for (m : Metric) : BufLens.For (sizes m) m.algo := by
  cases m with
  | v1 m => exact ⟨rfl, rfl, rfl, rfl⟩
  | v2 m => trivial

/-- Two metrics that calls have made, the second with buffers at least as long. -/
theorem similar_le (h : Reachable U a m st) (h' : Reachable U a m' st) (hs : (sizes m).Le (sizes m')) :
    Similar (sizes m') m m' := by
  obtain ⟨e, h⟩ := reachable_has h
  obtain ⟨e', h'⟩ := reachable_has h'
  exact similar_of (e.trans e'.symm) h h' (BufLens.sup_of_le hs).symm

/-- Two metrics that calls have made, with buffers of the same lengths. -/
theorem similar_eq (h : Reachable U a m st) (h' : Reachable U a m' st) (hs : sizes m = sizes m') :
    Similar ⟨0, 0, 0, 0, 0⟩ m m' := by
  obtain ⟨e, h⟩ := reachable_has h
  obtain ⟨e', h'⟩ := reachable_has h'
  exact similar_of (e.trans e'.symm) h h' (hs.symm.trans (BufLens.sup_zero _).symm)

/-! ### One iteration -/

/-- What one iteration leaves in the metric and in the vector of ranges. -/
theorem benchIteration_ok (hq : QueryOk U q) (l : List (List Char)) :
    ∀ {m : Metric}, Reachable U a m st → ∀ buf : Option (List Range),
    ∃ m', (benchIteration U q l m buf).res =
        .ok (m', buf.map (· ++ l.flatMap fun s => insertAll [] (result U a st s q).1)) ∧
      Reachable U a m' st ∧ (sizes m).Le (sizes m') := by
  obtain ⟨n, hn⟩ := exists_within q
  induction l with
  | nil =>
    intro m h buf
    refine ⟨m, ?_, h, .refl _⟩
    cases buf <;> simp [benchIteration, pure]
  | cons s l ih =>
    intro m h buf
    cases buf with
    | none =>
      obtain ⟨m₁, h1, e1⟩ := call h hq s
      obtain ⟨m₂, e2, h2, l2⟩ := ih h1 none
      refine ⟨m₂, ?_, h2, (metric_distance_sizes U hn (Nat.le_refl _) (Nat.le_refl _) e1).2.lo.trans l2⟩
      simp only [benchIteration, Timed.res_bind, Metric.res_timedDistance, e1]
      exact e2
    | some buf =>
      obtain ⟨m₁, h1, e1⟩ := callR h hq s buf
      obtain ⟨m₂, e2, h2, l2⟩ := ih h1 (some (buf ++ insertAll [] (result U a st s q).1))
      refine ⟨m₂, ?_, h2, (metric_ranges_sizes U hn (Nat.le_refl _) (Nat.le_refl _) e1).2.lo.trans l2⟩
      simp only [benchIteration, Timed.res_bind, Metric.res_timedDistanceAndRanges, e1]
      refine Eq.trans e2 ?_
      simp

theorem sameGrowth_refl (buf : Option (List Range)) (buf' : Option (List Range)) (h : buf.isSome = buf'.isSome) :
    SameGrowth buf buf' buf buf' := by
  cases buf with
  | none => cases buf' with
    | none => trivial
    | some _ => cases h
  | some _ => cases buf' with
    | none => cases h
    | some _ => exact ⟨[], by simp, by simp⟩

/-- An iteration with longer buffers takes at most as many steps, and leaves the longer buffers as long as those of the first
run, if they were that long before. -/
theorem benchIteration_le (hq : QueryOk U q) (l : List (List Char)) {buf buf' : Option (List Range)} {b b' : Option (List Range)}
    (hb : buf.isSome = buf'.isSome) (h : Reachable U a m st) (h' : Reachable U a m' st) (hs : (sizes m).Le (sizes m'))
    (e : (benchIteration U q l m buf).res = .ok (m₁, b)) (e' : (benchIteration U q l m' buf').res = .ok (m₂, b')) :
    (benchIteration U q l m' buf').steps ≤ (benchIteration U q l m buf).steps ∧ sizes m₂ = (sizes m').sup (sizes m₁) := by
  have hr := rel_benchIteration (c := False) (F := sizes m') (fun h => h.elim) U q l m m' buf buf' buf buf' (similar_le h h' hs)
    (sameGrowth_refl _ _ hb)
  obtain ⟨⟨-, h1⟩, h2⟩ := hr
  rw [e, e'] at h2
  refine ⟨h1, h2.1.sizes ?_⟩
  obtain ⟨m₃, e3, h3, -⟩ := benchIteration_ok hq l h buf
  rw [e] at e3
  cases e3
  rw [(reachable_has h3).1, ← (reachable_has h').1]
  exact sizes_for _

/-- An iteration with buffers of the same lengths takes the same steps, and leaves the same lengths. -/
theorem benchIteration_eq (l : List (List Char)) {buf buf' : Option (List Range)} {b b' : Option (List Range)}
    (hb : buf.isSome = buf'.isSome) (h : Reachable U a m st) (h' : Reachable U a m' st) (hs : sizes m = sizes m')
    (e : (benchIteration U q l m buf).res = .ok (m₁, b)) (e' : (benchIteration U q l m' buf').res = .ok (m₂, b')) :
    (benchIteration U q l m' buf').steps = (benchIteration U q l m buf).steps ∧ sizes m₂ = sizes m₁ := by
  have hr := rel_benchIteration (c := True) (F := ⟨0, 0, 0, 0, 0⟩) (fun _ => rfl) U q l m m' buf buf' buf buf' (similar_eq h h' hs)
    (sameGrowth_refl _ _ hb)
  obtain ⟨⟨h1, -⟩, h2⟩ := hr
  rw [e, e'] at h2
  have hz : BufLens.For ⟨0, 0, 0, 0, 0⟩ m₁.algo := by cases m₁.algo <;> simp [BufLens.For]
  exact ⟨(h1 trivial).symm, (h2.1.sizes hz).trans (BufLens.sup_zero _)⟩

/-! ### Many iterations -/

theorem benchIterations_ok (hq : QueryOk U q) (l : List (List Char)) (h : Reachable U a m st) (buf : Option (List Range)) (n : Nat) :
    ∃ m', (benchIterations U q l n m buf).res =
        .ok (m', buf.map (· ++ (List.replicate n (l.flatMap fun s => insertAll [] (result U a st s q).1)).flatten)) ∧
      Reachable U a m' st := by
  induction n with
  | zero =>
    refine ⟨m, ?_, h⟩
    cases buf <;> simp [benchIterations, pure]
  | succ n ih =>
    obtain ⟨m₁, e1, h1⟩ := ih
    obtain ⟨m₂, e2, h2, -⟩ := benchIteration_ok hq l h1
      (buf.map (· ++ (List.replicate n (l.flatMap fun s => insertAll [] (result U a st s q).1)).flatten))
    refine ⟨m₂, ?_, h2⟩
    simp only [benchIterations, Timed.res_bind, e1]
    refine Eq.trans e2 ?_
    cases buf with
    | none => rfl
    | some buf => simp [List.replicate_succ', List.append_assoc]

/-- After the first iteration, every iteration takes the same number of steps, which is not above that of the first, and the
buffers keep their lengths. -/
theorem benchIterations_steps (hq : QueryOk U q) (l : List (List Char)) (h : Reachable U a m st) (buf : Option (List Range)) :
    ∃ first later z, later ≤ first ∧ ∀ n, (benchIterations U q l (n + 1) m buf).steps = first + n * later ∧
      ∀ m' b', (benchIterations U q l (n + 1) m buf).res = .ok (m', b') → sizes m' = z := by
  obtain ⟨m₁, e1, h1, s1⟩ := benchIteration_ok hq l h buf
  obtain ⟨m₂, e2, h2, s2⟩ := benchIteration_ok hq l h1 (buf.map (· ++ l.flatMap fun s => insertAll [] (result U a st s q).1))
  obtain ⟨le, z⟩ := benchIteration_le hq l (by simp) h h1 s1 e1 e2
  rw [BufLens.sup_of_le (.refl _)] at z
  refine ⟨_, _, sizes m₁, le, fun n => ?_⟩
  induction n with
  | zero =>
    refine ⟨?_, fun m' b' e => ?_⟩
    · simp [benchIterations, Timed.steps_bind, pure]
    · simp only [benchIterations, Timed.res_bind, pure] at e
      exact (congrArg sizes (congrArg Prod.fst (Res.ok.inj (e1.symm.trans e)))).symm
  | succ n ih =>
    obtain ⟨m₃, e3, h3⟩ := benchIterations_ok hq l h buf (n + 1)
    obtain ⟨i1, i2⟩ := ih
    have i2 := i2 _ _ e3
    obtain ⟨m₄, e4, h4, -⟩ := benchIteration_ok hq l h3
      (buf.map (· ++ (List.replicate (n + 1) (l.flatMap fun s => insertAll [] (result U a st s q).1)).flatten))
    obtain ⟨eq, z'⟩ := benchIteration_eq l (by simp) h1 h3 i2.symm e2 e4
    refine ⟨?_, fun m' b' e => ?_⟩
    · rw [benchIterations, Timed.steps_bind, e3, i1]
      show _ + (benchIteration U q l m₃ _).steps = _
      rw [eq, Nat.succ_mul]
      omega
    · rw [benchIterations, Timed.res_bind, e3] at e
      have := e4.symm.trans e
      cases this
      rw [z', z]

end Norm
