import Verif.Proofs.Highlights

/-!
# Helper lemmas about scores -/

namespace Norm

open Spec

variable {B : Nat → Int}

theorem runScore_le (hB : ∀ i, B i ≤ 10) (ps : List Nat) : ∀ (prev : Nat) (run : Int), run ≤ 10 →
    runScore B prev run ps ≤ 26 * ps.length := by
  induction ps with
  | nil => intro _ _ _; simp [runScore]
  | cons i ps ih =>
    intro prev run hr
    have := hB i
    simp only [runScore]
    split
    · split
      · have := ih i (B i) (hB i)
        simp only [List.length_cons]; push_cast; omega
      · have := ih i run hr
        simp only [List.length_cons]; push_cast; omega
    · have := ih i (B i) (hB i)
      simp only [List.length_cons]; push_cast; omega

theorem alignScore_le (hB : ∀ i, B i ≤ 10) (ps : List Nat) (h : ps ≠ []) :
    alignScore B ps ≤ 26 * (ps.length : Int) + 10 := by
  cases ps with
  | nil => exact absurd rfl h
  | cons i ps =>
    have := runScore_le hB ps i (B i) (hB i)
    have := hB i
    simp only [alignScore, List.length_cons]; push_cast; omega

theorem runScore_ge (hB : ∀ i, 0 ≤ B i) (n : Nat) (ps : List Nat) : ∀ (prev : Nat) (run : Int),
    (prev :: ps).Pairwise (· < ·) → (∀ i ∈ prev :: ps, i < n) →
    19 * (ps.length : Int) - 3 * ((n : Int) - 1 - prev) ≤ runScore B prev run ps := by
  induction ps with
  | nil =>
    intro prev run _ h
    have := h prev (by simp)
    simp [runScore]; omega
  | cons i ps ih =>
    intro prev run hinc h
    obtain ⟨h1, h2⟩ := List.pairwise_cons.mp hinc
    have hlt := h1 i (by simp)
    have hB := hB i
    have := fun run => ih i run h2 (fun j hj => h j (by simp at hj ⊢; tauto))
    simp only [runScore]
    split
    · have := this (if B i ≥ 8 ∧ B i > run then B i else run)
      simp only [List.length_cons] at *; push_cast at *; omega
    · have := this (B i)
      simp only [List.length_cons] at *; push_cast at *; omega

theorem alignScore_ge (hB : ∀ i, 0 ≤ B i) {n : Nat} {ps : List Nat} (h : ps ≠ []) (hinc : ps.Pairwise (· < ·))
    (hn : ∀ i ∈ ps, i < n) : 19 * (ps.length : Int) - 3 * n ≤ alignScore B ps := by
  cases ps with
  | nil => exact absurd rfl h
  | cons i ps =>
    have := runScore_ge hB n ps i (B i) hinc hn
    have := hB i
    simp only [alignScore, List.length_cons]; push_cast; omega

theorem runScore_range (hB : ∀ i, 0 ≤ B i) (k : Nat) : ∀ (prev : Nat) (run : Int),
    20 * (k : Int) ≤ runScore B prev run (List.range' (prev + 1) k) := by
  induction k with
  | zero => intro _ _; simp [runScore]
  | succ k ih =>
    intro prev run
    have := hB (prev + 1)
    simp only [List.range'_succ, runScore, if_true]
    have := ih (prev + 1) (if B (prev + 1) ≥ 8 ∧ B (prev + 1) > run then B (prev + 1) else run)
    push_cast; omega

theorem alignScore_range (hB : ∀ i, 0 ≤ B i) (i k : Nat) (hk : k ≠ 0) :
    20 * (k : Int) - 4 ≤ alignScore B (List.range' i k) := by
  obtain ⟨k, rfl⟩ := Nat.exists_eq_succ_of_ne_zero hk
  have := runScore_range hB k i (B i)
  have := hB i
  simp only [Nat.succ_eq_add_one, List.range'_succ, alignScore]
  push_cast; omega

variable {U : Unicode} {a : Algo} {m : Metric} {st : Settings} {q : FzfQuery} {s : List Char} {p : Pattern}

/-- A fuzzy call without ranges. -/
theorem fuzzy_returns (h : Reachable U a m st) (hf : FuzzyFor q p) (hq : QueryOk U q) (hp : p.text ≠ [])
    {d : FzfDistance} (hd : Returns U m q s (some d)) :
    ∃ x, pureOf a (posBonus U st.scheme s) (st.eqOf p) p.text s = some x ∧ d = ⟨x.2⟩ := by
  have h2 := (returns_iff h hq).mp hd
  rw [result_fuzzy hf hp] at h2
  cases hx : pureOf a (posBonus U st.scheme s) (st.eqOf p) p.text s with
  | none => rw [hx] at h2; simp at h2
  | some x => rw [hx] at h2; exact ⟨x, rfl, Option.some.inj h2⟩

theorem returns_of_ranges (h : Reachable U a m st) (hq : QueryOk U q) {buf buf' : List Range} {d : Option FzfDistance}
    (hd : ReturnsRanges U m q s buf buf' d) : Returns U m q s d :=
  (returns_iff h hq).mpr ((returnsRanges_iff h hq).mp hd).2

theorem v1_bounds {eq : CharEq} {p s : List Char} (hB : ∀ i, 0 ≤ B i) (hB' : ∀ i, B i ≤ 10) (hp : p ≠ [])
    {x : List Nat × Int} (h : v1Result B eq p s = some x) :
    19 * (p.length : Int) - 3 * s.length ≤ x.2 ∧ x.2 ≤ 26 * p.length + 10 := by
  simp only [v1Result, Option.map_eq_some_iff] at h
  obtain ⟨g, hg, rfl⟩ := h
  obtain ⟨_, _, _, _, _, ha, _⟩ := v1Align_some hp hg
  have hl := ha.length_eq
  have hne : g ≠ [] := by rintro rfl; exact hp (List.length_eq_zero_iff.mp hl.symm)
  rw [← hl]
  exact ⟨alignScore_ge hB hne ha.increasing (alignment_lt ha), alignScore_le hB' g hne⟩

theorem pure_le (a : Algo) {eq : CharEq} {p s : List Char} (hB : ∀ i, 0 ≤ B i) (hB' : ∀ i, B i ≤ 10) (hp : p ≠ [])
    {x : List Nat × Int} (h : pureOf a B eq p s = some x) : x.2 ≤ 26 * p.length + 10 := by
  cases a with
  | v1 => exact (v1_bounds hB hB' hp h).2
  | v2 => exact (v2Result_score hB hB' hp h).2

theorem v2_ge {eq : CharEq} {p s : List Char} (hB : ∀ i, 0 ≤ B i) (hB' : ∀ i, B i ≤ 10) (hp : p ≠ [])
    {x : List Nat × Int} (h : v2Result B eq p s = some x) : 19 * (p.length : Int) - 3 * s.length ≤ x.2 := by
  have h2 := (v2Result_score hB hB' hp h).1
  have hs : Subseq (rel eq) p s := by
    by_contra hc
    rw [(v2Result_none hB).mpr hc] at h; cases h
  obtain ⟨s', hsub, hf⟩ := hs
  have hle := hsub.length_le
  have hleq := hf.length_eq
  have hpl := List.length_pos_iff.mpr hp
  unfold v2Result at h
  split at h
  · omega
  · cases hg : greedyFrom eq s p 0 with
    | none => rw [hg] at h; simp at h
    | some g =>
      rw [hg] at h
      obtain rfl := Option.some.inj h
      have hf := v2_firstOk hp hg
      obtain ⟨hW, _⟩ := windowOk hp hg
      have hM := hf.hit (p.length - 1) (by omega)
      have h3 := dpBest_ge (b := fun i => B ((v2Window eq p s g).1 + i)) (Nat.le_refl _) hM
      have h4 := dp_ge_first hf (b := fun i => B ((v2Window eq p s g).1 + i)) (fun i => hB _) (p.length - 1) (by omega)
        _ (Nat.le_refl _)
      have h5 := (dpM_lt hM).2
      have h6 := hf.ge (p.length - 1) (by omega)
      have h7 := hW.len
      have h8 := hW.lt
      unfold v2Best
      dsimp only
      omega

theorem pure_ge (a : Algo) {eq : CharEq} {p s : List Char} (hB : ∀ i, 0 ≤ B i) (hB' : ∀ i, B i ≤ 10) (hp : p ≠ [])
    {x : List Nat × Int} (h : pureOf a B eq p s = some x) : 19 * (p.length : Int) - 3 * s.length ≤ x.2 := by
  cases a with
  | v1 => exact (v1_bounds hB hB' hp h).1
  | v2 => exact v2_ge hB hB' hp h

/-! ### Gap penalties -/

theorem runScore_ge_length (hB : ∀ i, 0 ≤ B i) (n : Nat) (ps : List Nat) : ∀ (prev : Nat) (run : Int),
    (prev :: ps).Pairwise (· < ·) → (∀ i ∈ prev :: ps, i < n) →
    15 * (ps.length : Int) - ((n : Int) - 1 - prev) ≤ runScore B prev run ps := by
  induction ps with
  | nil =>
    intro prev run _ h
    have := h prev (by simp)
    simp [runScore]; omega
  | cons i ps ih =>
    intro prev run hinc h
    obtain ⟨h1, h2⟩ := List.pairwise_cons.mp hinc
    have hlt := h1 i (by simp)
    have hB := hB i
    have := fun run => ih i run h2 (fun j hj => h j (by simp at hj ⊢; tauto))
    simp only [runScore]
    split
    · have := this (if B i ≥ 8 ∧ B i > run then B i else run)
      simp only [List.length_cons] at *; push_cast at *; omega
    · have := this (B i)
      simp only [List.length_cons] at *; push_cast at *; omega

/-- A bonus of at least 7 at the start of the candidate makes up for the longer gap after it. -/
theorem v1_ge_length {eq : CharEq} {p s : List Char} (hB : ∀ i, 0 ≤ B i) (h0 : s ≠ [] → 7 ≤ B 0) (hp : p ≠ [])
    {x : List Nat × Int} (h : v1Result B eq p s = some x) : 15 * (p.length : Int) + 3 - s.length ≤ x.2 := by
  simp only [v1Result, Option.map_eq_some_iff] at h
  obtain ⟨g, hg, rfl⟩ := h
  obtain ⟨_, _, _, _, _, ha, _⟩ := v1Align_some hp hg
  have hl := ha.length_eq
  rw [← hl]
  cases g with
  | nil => exact absurd (List.length_eq_zero_iff.mp hl.symm) hp
  | cons i ps =>
    have h1 := runScore_ge_length hB s.length ps i (B i) ha.increasing (alignment_lt ha)
    have h2 := hB i
    have h3 : i = 0 → 7 ≤ B i := by
      rintro rfl
      refine h0 ?_
      rintro rfl
      have := alignment_lt ha 0 (by simp)
      simp at this
    simp only [alignScore, List.length_cons]; push_cast; omega

theorem posBonus_zero_ge (U : Unicode) (S : FzfScheme) (s : List Char) : s ≠ [] → 7 ≤ posBonus U S s 0 := by
  intro hs
  obtain ⟨c, t, rfl⟩ := List.exists_cons_of_ne_nil hs
  show 7 ≤ bonus S (initialClass S) (classOf U S c)
  generalize classOf U S c = k
  cases S <;> cases k <;> decide

end Norm
