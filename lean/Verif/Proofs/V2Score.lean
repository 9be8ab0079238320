import Verif.Proofs.V2Rows

/-! The whole dynamic program of `FzfV2`, and its traceback. -/

set_option linter.unusedSimpArgs false

namespace Norm
open Spec

section
variable (eq : CharEq) (w : List Char) (pat : Nat → Char) (fst : Nat → Nat) (b : Nat → Int)

/-- Where row `r`'s character matches, from its first match on. -/
def dpM (r : Nat) : Nat → Bool := matchAt (fun x => eq (pat r) x) w (fst r)

/-- Scores and run lengths of row `r`. -/
def dp : Nat → (Nat → Int) × (Nat → Nat)
  | 0 => (rowH0 w.length (dpM eq w pat fst 0) b, rowC0 (dpM eq w pat fst 0))
  | r + 1 =>
    (rowH w.length (dpM eq w pat fst (r + 1)) (fst (r + 1)) b (dp r).1 (dp r).2,
      rowC w.length (dpM eq w pat fst (r + 1)) (fst (r + 1)) b (dp r).1 (dp r).2)

/-- Best score and its cell among rows `0..r`. -/
def dpBest : Nat → Int × Nat
  | 0 => bestRow w.length 0 (dp eq w pat fst b 0).1 (idxsFrom (fun x => eq (pat 0) x) w (fst 0)) (0, 0)
  | r + 1 => bestRow w.length (r + 1) (dp eq w pat fst b (r + 1)).1
      (idxsFrom (fun x => eq (pat (r + 1)) x) w (fst (r + 1))) (dpBest r)

/-- The columns `matched_ranges` inserts, in the order in which it inserts them, starting from a cell. -/
def tb (h n : Nat) (H : Nat → Nat → Int) (C : Nat → Nat → Nat) : (prefer : Bool) → (row col : Nat) → List Nat
  | _, row, 0 => if H row 0 > 0 then [0] else []
  | prefer, row, c + 1 =>
    if H row (c + 1) > (if row = 0 then 0 else H (row - 1) c) ∧
        (H row (c + 1) > H row c ∨ (H row (c + 1) = H row c ∧ prefer = true)) then
      (c + 1) :: (if row = 0 then [] else
        tb h n H C (decide (C row (c + 1) > 1 ∨ (row + 1 < h ∧ c + 2 < n ∧ C (row + 1) (c + 2) > 0))) (row - 1) c)
    else
      tb h n H C (decide (C row (c + 1) > 1 ∨ (row + 1 < h ∧ c + 2 < n ∧ C (row + 1) (c + 2) > 0))) row c

variable {eq w pat fst b}

theorem runBonus_snd_le (b : Nat → Int) (c cons : Nat) (h : 0 < cons) : (runBonus b c cons).2 ≤ cons := by
  unfold runBonus
  split
  · split
    · exact h
    · exact Nat.le_refl _
  · exact Nat.le_refl _

theorem cell_snd_le (b : Nat → Int) (c : Nat) (left diag : Int) (pc : Nat) : (cell b c left diag pc).2 ≤ pc + 1 := by
  unfold cell
  split
  · exact Nat.zero_le _
  · exact runBonus_snd_le b c (pc + 1) (by omega)

theorem dp_cons_le (r c : Nat) : (dp eq w pat fst b r).2 c ≤ c + 1 := by
  induction r generalizing c with
  | zero => simp only [dp, rowC0]; split <;> omega
  | succ r ih =>
    cases c with
    | zero => simp [dp, rowC]
    | succ c =>
      simp only [dp, rowC]
      split
      · have := cell_snd_le b (c + 1) (rowH w.length (dpM eq w pat fst (r + 1)) (fst (r + 1)) b
          (dp eq w pat fst b r).1 (dp eq w pat fst b r).2 c - penLeft (dpM eq w pat fst (r + 1)) (fst (r + 1)) (c + 1))
          ((dp eq w pat fst b r).1 c) ((dp eq w pat fst b r).2 c)
        have := ih c
        omega
      · omega

end

section
variable {U : Unicode} {sch : Scheme} {base : Candidate} {init : CharClass}
  {b : Nat → Int} {sens norm : Bool} {pat : Nat → Char} {fst : Nat → Nat}

theorem remainingRowsLoop_eq (hwf : base.WF) (hb : Bonuses U sch base init b) (p : Pattern) (offs : List Nat)
    (hpat : ∀ r, r < p.text.length → p.text[r]? = some (pat r))
    (hoff : ∀ r, r < p.text.length → offs[r]? = some (fst r))
    (hfst : ∀ r, 0 < r → r < p.text.length → 0 < fst r ∧
      dpM (charEq sens norm) base.toChars pat fst r (fst r) = true) :
    ∀ (k r : Nat) (cv : CandidateV2), r + 1 + k = p.text.length →
    CvOk base init (CandidateOpts.new sens norm) b cv →
    let D := dp (charEq sens norm) base.toChars pat fst b
    let n := base.toChars.length
    ∃ cv', remainingRowsLoop U sch p offs k (r + 1)
      (matOf p.text.length n (fun i => if i ≤ r then (D i).1 else fun _ => 0))
      (matOf p.text.length n (fun i => if i ≤ r then (D i).2 else fun _ => 0)) cv
      (dpBest (charEq sens norm) base.toChars pat fst b r).1 (dpBest (charEq sens norm) base.toChars pat fst b r).2 =
      .ok (matOf p.text.length n (fun i => (D i).1), matOf p.text.length n (fun i => (D i).2), cv',
        (dpBest (charEq sens norm) base.toChars pat fst b (p.text.length - 1)).1,
        (dpBest (charEq sens norm) base.toChars pat fst b (p.text.length - 1)).2) ∧
      CvOk base init (CandidateOpts.new sens norm) b cv' := by
  intro k
  induction k with
  | zero =>
    intro r cv hr hcv D n
    refine ⟨cv, ?_, hcv⟩
    simp only [remainingRowsLoop]
    rw [show p.text.length - 1 = r by omega]
    congr 2
    · exact matOf_congr (fun i hi c hc => by rw [if_pos (by omega)])
    · congr 1
      exact matOf_congr (fun i hi c hc => by rw [if_pos (by omega)])
  | succ k ih =>
    intro r cv hr hcv D n
    have hr1 : r + 1 < p.text.length := by omega
    obtain ⟨hf0, hfM⟩ := hfst (r + 1) (by omega) hr1
    have hfn : fst (r + 1) < n := by
      obtain ⟨_, x, hx, _⟩ := matchAt_iff.mp hfM
      exact (List.getElem?_eq_some_iff.mp hx).1
    simp only [remainingRowsLoop]
    have hpc : p.char (r + 1) = .ok (pat (r + 1)) := by
      unfold Pattern.char; rw [getR_eq_ok]; exact hpat _ hr1
    rw [hpc, subR_of_le (by omega)]
    simp only [Res.bind_ok, Nat.add_one_sub_one]
    rw [matOf_twoRows hr1, matOf_twoRows hr1]
    simp only [Res.bind_ok, Nat.le_refl, if_true]
    rw [if_neg (by omega), if_neg (by omega)]
    rw [getR_eq_ok.mpr (hoff _ hr1)]
    simp only [Res.bind_ok, CandidateV2.matchesFrom]
    rw [hcv.base_eq, hcv.opts_eq]
    simp only [CandidateOpts.new]
    rw [Candidate.matchesFrom_eq hwf sens norm (show fst (r + 1) ≤ base.toChars.length by omega)]
    simp only [Res.bind_ok]
    have ho : Offs n (dpM (charEq sens norm) base.toChars pat fst (r + 1)) (fst (r + 1))
      (idxsFrom (fun x => charEq sens norm (pat (r + 1)) x) base.toChars (fst (r + 1))) := offs_idxsFrom
    have hhead : (idxsFrom (fun x => charEq sens norm (pat (r + 1)) x) base.toChars (fst (r + 1))).head? =
        some (fst (r + 1)) := by
      cases hl : idxsFrom (fun x => charEq sens norm (pat (r + 1)) x) base.toChars (fst (r + 1)) with
      | nil =>
        rw [hl] at ho; have := ho.nil _ (Nat.le_refl _) hfn; exact absurd (hfM.symm.trans this) (by simp)
      | cons x l =>
        rw [hl] at ho
        obtain ⟨h1, _, _, h3, _⟩ := ho.head
        by_cases hx : x = fst (r + 1)
        · simp [hx]
        · have := h3 (fst (r + 1)) (Nat.le_refl _) (by omega); exact absurd (hfM.symm.trans this) (by simp)
    have key : ∀ ST : RowState,
        RowInv base init (CandidateOpts.new sens norm) b n (dpM (charEq sens norm) base.toChars pat fst (r + 1))
          (fst (r + 1)) (D r).1 (D r).2 (fst (r + 1)) ST → ST.column = fst (r + 1) →
        ST.maxScore = (dpBest (charEq sens norm) base.toChars pat fst b r).1 →
        ST.maxScoreCell = (dpBest (charEq sens norm) base.toChars pat fst b r).2 →
        ∃ st', rowLoop U sch n (r + 1) (rowOf n (D r).1) (rowOf n (D r).2)
            (idxsFrom (fun x => charEq sens norm (pat (r + 1)) x) base.toChars (fst (r + 1))) ST = .ok st' ∧
          RowInv base init (CandidateOpts.new sens norm) b n (dpM (charEq sens norm) base.toChars pat fst (r + 1))
            (fst (r + 1)) (D r).1 (D r).2 (st'.column + 1) st' ∧ fst (r + 1) ≤ st'.column ∧
          dpM (charEq sens norm) base.toChars pat fst (r + 1) st'.column = true ∧
          st'.penalty = penLeft (dpM (charEq sens norm) base.toChars pat fst (r + 1)) (fst (r + 1)) st'.column ∧
          (∀ c, st'.column < c → c < n → dpM (charEq sens norm) base.toChars pat fst (r + 1) c = false) ∧
          (st'.maxScore, st'.maxScoreCell) = dpBest (charEq sens norm) base.toChars pat fst b (r + 1) := by
      intro ST h1 h2 h3 h4
      obtain ⟨st', h⟩ := rowLoop_eq (r := r + 1) hb rfl hf0 (fun c => dp_cons_le r c) _ (fst (r + 1)) ST ho h1
        (Nat.le_refl _) (Or.inr ⟨rfl, h2, hhead⟩)
      rw [h3, h4] at h
      exact ⟨st', h⟩
    obtain ⟨st', h1, h2, h3, h4, h5, h6, h7⟩ := key
      { scores := rowOf n (fun _ => 0), consecutives := rowOf n (fun _ => 0), candidate := cv
        maxScore := (dpBest (charEq sens norm) base.toChars pat fst b r).1
        maxScoreCell := (dpBest (charEq sens norm) base.toChars pat fst b r).2
        column := fst (r + 1), penalty := Penalty.gapStart }
      ⟨rowOf_congr (fun c hc => by
          by_cases h : c < fst (r + 1)
          · rw [if_pos h, rowH_before h]
          · rw [if_neg h]),
        rowOf_congr (fun c hc => by
          by_cases h : c < fst (r + 1)
          · rw [if_pos h]
            cases c with
            | zero => rfl
            | succ c =>
              have hf : dpM (charEq sens norm) base.toChars pat fst (r + 1) (c + 1) = false := by
                simp [dpM, matchAt]; omega
              simp [rowC, hf]
          · rw [if_neg h]), hcv⟩ rfl rfl rfl
    have hwd : (matOf p.text.length n (fun i => if i ≤ r then (D i).1 else fun _ => 0)).width = n := rfl
    rw [hwd, h1]
    simp only [Res.bind_ok]
    have hcol : st'.column < n := by
      obtain ⟨_, x, hx, _⟩ := matchAt_iff.mp h4
      exact (List.getElem?_eq_some_iff.mp hx).1
    rw [h2.scores, rowGap_eq (n - (st'.column + 1)) (st'.column + 1) _ _ (by omega) (by omega)]
    simp only [Res.bind_ok]
    have hs : rowOf n (fun c => if st'.column + 1 ≤ c ∧ c < st'.column + 1 + (n - (st'.column + 1)) then
        (if st'.column + 1 - 1 < st'.column + 1 then rowH n (dpM (charEq sens norm) base.toChars pat fst (r + 1))
          (fst (r + 1)) b (D r).1 (D r).2 (st'.column + 1 - 1) else 0) - st'.penalty -
          ((c - (st'.column + 1) : Nat) : Int) else
        (if c < st'.column + 1 then rowH n (dpM (charEq sens norm) base.toChars pat fst (r + 1)) (fst (r + 1)) b
          (D r).1 (D r).2 c else 0)) = rowOf n (D (r + 1)).1 := by
      refine rowOf_congr (fun c hc => ?_)
      by_cases h8 : c < st'.column + 1
      · rw [if_neg (by omega), if_pos h8]; rfl
      · rw [if_pos (by omega), Nat.add_one_sub_one, if_pos (by omega)]
        refine (rowH_gap h4 h3 (fun c h9 h10 => h6 c h9 h10) _ ?_ c (by omega) hc).symm
        rw [if_pos, h5]
        intro c' h9 h10
        exact h6 c' (by omega) h9
    have hc : st'.consecutives = rowOf n (D (r + 1)).2 := by
      rw [h2.cons]
      refine rowOf_congr (fun c hc => ?_)
      by_cases h8 : c < st'.column + 1
      · rw [if_pos h8]; rfl
      · rw [if_neg h8]
        have hf := h6 c (by omega) hc
        cases c with
        | zero => rfl
        | succ c => simp only [D, dp, rowC]; rw [hf]; simp
    rw [hs, hc, matOf_setRow hr1, matOf_setRow hr1]
    have hbest : (dpBest (charEq sens norm) base.toChars pat fst b (r + 1)).1 = st'.maxScore ∧
        (dpBest (charEq sens norm) base.toChars pat fst b (r + 1)).2 = st'.maxScoreCell := by
      rw [← h7]; exact ⟨rfl, rfl⟩
    rw [← hbest.1, ← hbest.2]
    obtain ⟨cv', h8, h9⟩ := ih (r + 1) st'.candidate (by omega) h2.cv
    refine ⟨cv', ?_, h9⟩
    rw [← h8]
    congr 1
    · refine matOf_congr (fun i hi c hc => ?_)
      by_cases h10 : i = r + 1
      · subst h10; rw [if_pos rfl, if_pos (Nat.le_refl _)]
      · rw [if_neg h10]
        by_cases h11 : i ≤ r
        · rw [if_pos h11, if_pos (by omega)]
        · rw [if_neg h11, if_neg (by omega)]
    · refine matOf_congr (fun i hi c hc => ?_)
      by_cases h10 : i = r + 1
      · subst h10; rw [if_pos rfl, if_pos (Nat.le_refl _)]
      · rw [if_neg h10]
        by_cases h11 : i ≤ r
        · rw [if_pos h11, if_pos (by omega)]
        · rw [if_neg h11, if_neg (by omega)]

theorem v2Score_eq (hwf : base.WF) (hb : Bonuses U sch base init b) (p : Pattern) (offs : List Nat)
    (hp : 0 < p.text.length) (hf0 : fst 0 = 0)
    (hpat : ∀ r, r < p.text.length → p.text[r]? = some (pat r))
    (hoff : ∀ r, r < p.text.length → offs[r]? = some (fst r))
    (hM0 : dpM (charEq sens norm) base.toChars pat fst 0 0 = true)
    (hfst : ∀ r, 0 < r → r < p.text.length → 0 < fst r ∧
      dpM (charEq sens norm) base.toChars pat fst r (fst r) = true)
    (ss : List Score) (cs : List Nat) {cv : CandidateV2} (hcv : CvOk base init (CandidateOpts.new sens norm) b cv) :
    let D := dp (charEq sens norm) base.toChars pat fst b
    let n := base.toChars.length
    ∃ ss' cs' cv', v2Score U ss cs p cv offs sch =
      .ok (ss', cs', matOf p.text.length n (fun i => (D i).1), matOf p.text.length n (fun i => (D i).2), cv',
        (dpBest (charEq sens norm) base.toChars pat fst b (p.text.length - 1)).1,
        (dpBest (charEq sens norm) base.toChars pat fst b (p.text.length - 1)).2) ∧
      CvOk base init (CandidateOpts.new sens norm) b cv' := by
  intro D n
  have hn : 0 < n := by
    obtain ⟨_, x, hx, _⟩ := matchAt_iff.mp hM0
    exact (List.getElem?_eq_some_iff.mp hx).1
  unfold v2Score
  have hw : cv.base.charLen = n := by rw [hcv.base_eq, Candidate.charLen_eq]
  have hh : p.charLen = p.text.length := rfl
  simp only [hw, hh]
  obtain ⟨ss', h1⟩ := matrixAlloc_eq (0 : Score) ss hp hn
  obtain ⟨cs', h2⟩ := matrixAlloc_eq (0 : Nat) cs hp hn
  rw [h1, h2]
  simp only [Res.bind_ok]
  rw [matOf_row hp, matOf_row hp]
  simp only [Res.bind_ok]
  have hpc : p.char 0 = .ok (pat 0) := by
    unfold Pattern.char; rw [getR_eq_ok]; exact hpat _ hp
  rw [hpc]
  simp only [Res.bind_ok]
  have hM0' : matchAt (fun x => charEq sens norm (pat 0) x) base.toChars 0 0 = true := by
    have := hM0; unfold dpM at this; rwa [hf0] at this
  obtain ⟨cv1, best, h3, h4, h5⟩ := scoreFirstRow_eq hwf rfl hb (q := pat 0) hcv hM0'
  have hD0 : D 0 = (rowH0 n (matchAt (fun x => charEq sens norm (pat 0) x) base.toChars 0) b,
      rowC0 (matchAt (fun x => charEq sens norm (pat 0) x) base.toChars 0)) := by
    simp only [D, dp, dpM, hf0, n]
  have hbest : best = dpBest (charEq sens norm) base.toChars pat fst b 0 := by
    rw [h5]; simp only [dpBest]
    rw [hf0, show (dp (charEq sens norm) base.toChars pat fst b 0) = D 0 from rfl, hD0]
  rw [show (0 : Score) = (0 : Int) from rfl, h3]
  simp only [Res.bind_ok]
  have e1 : rowOf base.toChars.length (rowH0 base.toChars.length
      (matchAt (fun x => charEq sens norm (pat 0) x) base.toChars 0) b) = rowOf n (D 0).1 := by rw [hD0]
  have e2 : rowOf base.toChars.length (rowC0
      (matchAt (fun x => charEq sens norm (pat 0) x) base.toChars 0)) = rowOf n (D 0).2 := by rw [hD0]
  rw [e1, e2, matOf_setRow hp, matOf_setRow hp, hbest]
  obtain ⟨cv', h6, h7⟩ := remainingRowsLoop_eq hwf hb p offs hpat hoff hfst (p.text.length - 1) 0 cv1 (by omega) h4
  refine ⟨ss', cs', cv', ?_, h7⟩
  have hheight : (matOf p.text.length n (fun _ _ => (0 : Int))).height = p.text.length := rfl
  rw [hheight]
  have m1 : matOf p.text.length n (fun i => if i = 0 then (D 0).1 else fun _ => 0) =
      matOf p.text.length n (fun i => if i ≤ 0 then (D i).1 else fun _ => 0) :=
    matOf_congr (fun i hi c hc => by
      by_cases h : i = 0
      · subst h; simp
      · rw [if_neg h, if_neg (by omega)])
  have m2 : matOf p.text.length n (fun i => if i = 0 then (D 0).2 else fun _ => 0) =
      matOf p.text.length n (fun i => if i ≤ 0 then (D i).2 else fun _ => 0) :=
    matOf_congr (fun i hi c hc => by
      by_cases h : i = 0
      · subst h; simp
      · rw [if_neg h, if_neg (by omega)])
  rw [m1, m2]
  erw [h6]
  rfl

end

end Norm
