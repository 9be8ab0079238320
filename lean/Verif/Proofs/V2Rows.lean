import Verif.Proofs.V2Model

/-! The rows of the dynamic program of `FzfV2`, and the loops that compute them. -/

set_option linter.unusedSimpArgs false

namespace Norm
open Spec

/-! ### Pure recurrences

Columns are positions of the candidate window. For one row (one pattern character) `M c` says that the
row's character matches at column `c`, at or after the row's first match `first`. -/

/-- Penalty for reaching the matching column `c` from the column on its left. -/
def penLeft (M : Nat → Bool) (first c : Nat) : Int := if c = first ∨ M (c - 1) = true then 3 else 1

/-- Penalty for extending the score of column `c - 1` to the non-matching column `c`. -/
def penGap (n : Nat) (M : Nat → Bool) (first c : Nat) : Int :=
  if M (c - 1) = true then
    (if ∀ c', c' < n → c ≤ c' → M c' = false then penLeft M first (c - 1) else 3)
  else 1

/-- Scores of the first row. -/
def rowH0 (n : Nat) (M : Nat → Bool) (b : Nat → Int) : Nat → Int
  | 0 => 16 + b 0 * 2
  | c + 1 => if M (c + 1) = true then 16 + b (c + 1) * 2 else rowH0 n M b c - penGap n M 0 (c + 1)

/-- Lengths of runs in the first row. -/
def rowC0 (M : Nat → Bool) (c : Nat) : Nat := if M c = true then 1 else 0

/-- Bonus and run length of a match at column `c` whose run has `cons` characters. -/
def runBonus (b : Nat → Int) (c cons : Nat) : Int × Nat :=
  if cons > 1 then
    if b c ≥ 8 ∧ b c > b (c + 1 - cons) then (b c, 1) else (max (max 4 (b (c + 1 - cons))) (b c), cons)
  else (b c, cons)

/-- Score and run length at a matching column `c`, from the score `left` of coming from the left, and the
score `diag` and run length `pc` one row up and one column left. -/
def cell (b : Nat → Int) (c : Nat) (left diag : Int) (pc : Nat) : Int × Nat :=
  if diag + 16 + (runBonus b c (pc + 1)).1 < left then (max left (diag + 16 + b c), 0)
  else (max left (diag + 16 + (runBonus b c (pc + 1)).1), (runBonus b c (pc + 1)).2)

/-- Scores of a row below a row with scores `Hp` and run lengths `Cp`. -/
def rowH (n : Nat) (M : Nat → Bool) (first : Nat) (b : Nat → Int) (Hp : Nat → Int) (Cp : Nat → Nat) : Nat → Int
  | 0 => 0
  | c + 1 =>
    if c + 1 < first then 0
    else if M (c + 1) = true then
      (cell b (c + 1) (rowH n M first b Hp Cp c - penLeft M first (c + 1)) (Hp c) (Cp c)).1
    else rowH n M first b Hp Cp c - penGap n M first (c + 1)

/-- Run lengths of that row. -/
def rowC (n : Nat) (M : Nat → Bool) (first : Nat) (b : Nat → Int) (Hp : Nat → Int) (Cp : Nat → Nat) : Nat → Nat
  | 0 => 0
  | c + 1 =>
    if M (c + 1) = true then
      (cell b (c + 1) (rowH n M first b Hp Cp c - penLeft M first (c + 1)) (Hp c) (Cp c)).2
    else 0

/-- The best cell so far, after looking at the given columns of row `r`. -/
def bestRow (n r : Nat) (h : Nat → Int) (offs : List Nat) (acc : Int × Nat) : Int × Nat :=
  offs.foldl (fun acc c => if h c > acc.1 then (h c, r * n + c) else acc) acc

/-- `offs` lists, in order, the matching columns from `k` on. -/
structure Offs (n : Nat) (M : Nat → Bool) (k : Nat) (offs : List Nat) : Prop where
  sorted : offs.Pairwise (· < ·)
  mem : ∀ c, c ∈ offs ↔ k ≤ c ∧ c < n ∧ M c = true

theorem Offs.head {n : Nat} {M : Nat → Bool} {k x : Nat} {offs : List Nat} (h : Offs n M k (x :: offs)) :
    k ≤ x ∧ x < n ∧ M x = true ∧ (∀ c, k ≤ c → c < x → M c = false) ∧ Offs n M (x + 1) offs := by
  obtain ⟨h1, h2, h3⟩ := (h.mem x).mp (by simp)
  obtain ⟨h4, h5⟩ := List.pairwise_cons.mp h.sorted
  refine ⟨h1, h2, h3, ?_, h5, ?_⟩
  · intro c hc1 hc2
    cases hM : M c with
    | false => rfl
    | true =>
      have := (h.mem c).mpr ⟨hc1, by omega, hM⟩
      rcases List.mem_cons.mp this with rfl | h'
      · omega
      · have := h4 c h'; omega
  · intro c
    constructor
    · intro hc
      have := h4 c hc
      have := (h.mem c).mp (by simp [hc])
      exact ⟨by omega, this.2.1, this.2.2⟩
    · rintro ⟨hc1, hc2, hc3⟩
      have := (h.mem c).mpr ⟨by omega, hc2, hc3⟩
      rcases List.mem_cons.mp this with rfl | h'
      · omega
      · exact h'

theorem Offs.nil {n : Nat} {M : Nat → Bool} {k : Nat} (h : Offs n M k []) :
    ∀ c, k ≤ c → c < n → M c = false := by
  intro c h1 h2
  cases hM : M c with
  | false => rfl
  | true => have := (h.mem c).mpr ⟨h1, h2, hM⟩; simp at this

theorem mem_allIdxFrom {P : Char → Bool} {l : List Char} {off c : Nat} :
    c ∈ allIdxFrom P l off ↔ off ≤ c ∧ ∃ x, l[c - off]? = some x ∧ P x = true := by
  induction l generalizing off with
  | nil => simp [allIdxFrom]
  | cons a l ih =>
    simp only [allIdxFrom]
    by_cases hc : c = off
    · subst hc
      cases hP : P a <;> simp [ih, hP]
      omega
    · have hget : off ≤ c → (a :: l)[c - off]? = l[c - (off + 1)]? := by
        intro h
        rw [show c - off = (c - (off + 1)) + 1 by omega]; simp
      cases hP : P a
      · simp only [Bool.false_eq_true, if_false, ih]
        constructor
        · rintro ⟨h1, h2⟩; exact ⟨by omega, by rw [hget (by omega)]; exact h2⟩
        · rintro ⟨h1, h2⟩; exact ⟨by omega, by rw [← hget h1]; exact h2⟩
      · simp only [if_true, List.mem_cons, ih, hc, false_or]
        constructor
        · rintro ⟨h1, h2⟩; exact ⟨by omega, by rw [hget (by omega)]; exact h2⟩
        · rintro ⟨h1, h2⟩; exact ⟨by omega, by rw [← hget h1]; exact h2⟩

theorem sorted_allIdxFrom {P : Char → Bool} {l : List Char} {off : Nat} :
    (allIdxFrom P l off).Pairwise (· < ·) := by
  induction l generalizing off with
  | nil => simp [allIdxFrom]
  | cons a l ih =>
    simp only [allIdxFrom]
    split
    · refine List.pairwise_cons.mpr ⟨fun c hc => ?_, ih⟩
      have := (mem_allIdxFrom.mp hc).1; omega
    · exact ih

/-- The matches of a character at or after `first`. -/
def matchAt (P : Char → Bool) (w : List Char) (first c : Nat) : Bool :=
  decide (first ≤ c) && (match w[c]? with | some x => P x | none => false)

theorem matchAt_iff {P : Char → Bool} {w : List Char} {first c : Nat} :
    matchAt P w first c = true ↔ first ≤ c ∧ ∃ x, w[c]? = some x ∧ P x = true := by
  unfold matchAt
  cases w[c]? <;> simp

theorem offs_idxsFrom {P : Char → Bool} {w : List Char} {first : Nat} :
    Offs w.length (matchAt P w first) first (idxsFrom P w first) := by
  refine ⟨sorted_allIdxFrom, fun c => ?_⟩
  unfold idxsFrom
  rw [mem_allIdxFrom, matchAt_iff]
  constructor
  · rintro ⟨h1, x, hx, hp⟩
    rw [List.getElem?_drop, show first + (c - first) = c by omega] at hx
    exact ⟨h1, (List.getElem?_eq_some_iff.mp hx).1, h1, x, hx, hp⟩
  · rintro ⟨h1, _, _, x, hx, hp⟩
    exact ⟨h1, x, by rw [List.getElem?_drop, show first + (c - first) = c by omega, hx], hp⟩

/-! ### The first row -/

theorem firstRowGap_eq {n : Nat} (k : Nat) : ∀ (col : Nat) (f : Nat → Int) (prev pen : Int), col + k ≤ n →
    ∃ x, firstRowGap k col (rowOf n f) prev pen =
      .ok (rowOf n (fun c => if col ≤ c ∧ c < col + k then prev - pen - ((c - col : Nat) : Int) else f c), x,
        if k = 0 then pen else 1) := by
  induction k with
  | zero =>
    intro col f prev pen _
    refine ⟨prev, ?_⟩
    simp only [firstRowGap, if_true]
    congr 2
    exact rowOf_congr (fun c _ => by rw [if_neg (by omega)])
  | succ k ih =>
    intro col f prev pen h
    simp only [firstRowGap, saturatingSub]
    rw [rowOf_set (by omega)]
    simp only [Res.bind_ok]
    obtain ⟨x, hx⟩ := ih (col + 1) (fun i => if i = col then prev - pen else f i) (prev - pen) 1 (by omega)
    refine ⟨x, ?_⟩
    rw [show (Penalty.gapExtension : Score) = (1 : Int) from rfl, hx]
    congr 2
    · refine rowOf_congr (fun c hc => ?_)
      by_cases h1 : c = col
      · subst h1
        rw [if_neg (by omega), if_pos rfl, if_pos (by omega)]
        simp
      · by_cases h2 : col ≤ c ∧ c < col + (k + 1)
        · rw [if_pos (by omega), if_pos h2]
          show (prev - pen - 1 - ((c - (col + 1) : Nat) : Int) : Int) = prev - pen - ((c - col : Nat) : Int)
          omega
        · rw [if_neg (by omega), if_neg h1, if_neg h2]
    · simp

section first
variable {U : Unicode} {sch : Scheme} {base : Candidate} {init : CharClass} {opts : CandidateOpts}
  {b : Nat → Int} {n : Nat} {M : Nat → Bool}

/-- Scores in a gap between matches, or after the last one. -/
theorem rowH0_gap {l k : Nat} (hM : M l = true) (hgap : ∀ c, l < c → c < k → M c = false)
    (pen : Int) (hpen : pen = if ∀ c', c' < n → l + 1 ≤ c' → M c' = false then penLeft M 0 l else 3) :
    ∀ c, l < c → c < k → rowH0 n M b c = rowH0 n M b l - pen - ((c - (l + 1) : Nat) : Int) := by
  intro c
  induction c with
  | zero => omega
  | succ c ih =>
    intro h1 h2
    have hc := hgap (c + 1) h1 h2
    simp only [rowH0, hc, Bool.false_eq_true, if_false, penGap, Nat.add_one_sub_one]
    by_cases hcl : c = l
    · subst hcl
      rw [if_pos hM, ← hpen]; simp
    · rw [hgap c (by omega) (by omega)]
      simp only [Bool.false_eq_true, if_false]
      rw [ih (by omega) (by omega)]
      omega

/-- Loop invariant of the first row: columns before `k` are done. -/
structure FirstInv (base : Candidate) (init : CharClass) (opts : CandidateOpts) (b : Nat → Int) (n : Nat)
    (M : Nat → Bool) (k : Nat) (st : FirstRowState) : Prop where
  scores : st.scores = rowOf n (fun c => if c < k then rowH0 n M b c else 0)
  cons : st.consecutives = rowOf n (fun c => if c < k then rowC0 M c else 0)
  cv : CvOk base init opts b st.candidate

theorem firstRowLoop_eq (hb : Bonuses U sch base init b) (hn : n = base.toChars.length) :
    ∀ (offs : List Nat) (k : Nat) (st : FirstRowState), Offs n M k offs → FirstInv base init opts b n M k st →
    ((st.column + 1 = k ∧ M st.column = true ∧ st.prevScore = rowH0 n M b st.column ∧
        st.penalty = penLeft M 0 st.column) ∨
      (k = 0 ∧ st.column = 0 ∧ offs.head? = some 0)) →
    ∃ st', firstRowLoop U sch offs st = .ok st' ∧ FirstInv base init opts b n M (st'.column + 1) st' ∧
      M st'.column = true ∧ st'.prevScore = rowH0 n M b st'.column ∧ st'.penalty = penLeft M 0 st'.column ∧
      (∀ c, st'.column < c → c < n → M c = false) ∧
      (st'.maxScore, st'.maxScoreCol) = bestRow n 0 (rowH0 n M b) offs (st.maxScore, st.maxScoreCol) := by
  intro offs
  induction offs with
  | nil =>
    intro k st ho hinv hst
    rcases hst with ⟨h1, h2, h3, h4⟩ | ⟨_, _, h⟩
    · subst h1
      exact ⟨st, rfl, hinv, h2, h3, h4, fun c h5 h6 => ho.nil c (by omega) h6, rfl⟩
    · simp at h
  | cons x offs ih =>
    intro k st ho hinv hst
    obtain ⟨hkx, hxn, hMx, hno, ho'⟩ := ho.head
    -- the gap before `x`
    have hgap : ∃ y, firstRowGap (x - (st.column + 1)) (st.column + 1) st.scores st.prevScore
        Penalty.gapStart = .ok (rowOf n (fun c => if c < x then rowH0 n M b c else 0), y, penLeft M 0 x) := by
      rcases hst with ⟨h1, h2, h3, h4⟩ | ⟨h1, h2, h3⟩
      · subst h1
        rw [hinv.scores]
        obtain ⟨y, hy⟩ := firstRowGap_eq (n := n) (x - (st.column + 1)) (st.column + 1)
          (fun c => if c < st.column + 1 then rowH0 n M b c else 0) st.prevScore 3 (by omega)
        refine ⟨y, ?_⟩
        rw [show (Penalty.gapStart : Score) = (3 : Int) from rfl, hy]
        congr 2
        · refine rowOf_congr (fun c hc => ?_)
          by_cases h5 : c < st.column + 1
          · rw [if_neg (by omega), if_pos h5, if_pos (by omega)]
          · by_cases h6 : c < x
            · rw [if_pos (by omega), if_pos h6, h3]
              refine (rowH0_gap h2 (fun c h7 h8 => hno c (by omega) h8) 3 ?_ c (by omega) h6).symm
              rw [if_neg]
              intro hall
              have := hall x hxn (by omega)
              rw [hMx] at this; simp at this
            · rw [if_neg (by omega), if_neg h5, if_neg h6]
        · unfold penLeft
          by_cases h5 : x = st.column + 1
          · rw [if_pos (by omega), if_pos]; right; rw [h5]; simpa using h2
          · rw [if_neg (by omega), if_neg]
            rintro (h6 | h6)
            · omega
            · rw [hno (x - 1) (by omega) (by omega)] at h6; simp at h6
      · simp at h3
        subst h1 h3
        obtain ⟨y, hy⟩ := firstRowGap_eq (n := n) 0 (st.column + 1) (fun _ => 0) st.prevScore 3 (by omega)
        refine ⟨y, ?_⟩
        rw [hinv.scores, show 0 - (st.column + 1) = 0 by omega,
          show (Penalty.gapStart : Score) = (3 : Int) from rfl]
        simp only [Nat.not_lt_zero, if_false]
        rw [hy]
        congr 2
        exact rowOf_congr (fun c hc => by rw [if_neg (by omega)])
    obtain ⟨y, hgap⟩ := hgap
    obtain ⟨cv', hcv, hcv'⟩ := bonusAt_eq hb hinv.cv (i := x) (by omega)
    have hval : rowH0 n M b x = 16 + b x * 2 := by
      cases x with
      | zero => rfl
      | succ x => simp [rowH0, hMx]
    have key : ∀ ST : FirstRowState, FirstInv base init opts b n M (x + 1) ST → ST.column = x →
        ST.prevScore = rowH0 n M b x → ST.penalty = penLeft M 0 x →
        (ST.maxScore, ST.maxScoreCol) = (if rowH0 n M b x > st.maxScore then (rowH0 n M b x, 0 * n + x)
          else (st.maxScore, st.maxScoreCol)) →
        ∃ st', firstRowLoop U sch offs ST = .ok st' ∧ FirstInv base init opts b n M (st'.column + 1) st' ∧
          M st'.column = true ∧ st'.prevScore = rowH0 n M b st'.column ∧ st'.penalty = penLeft M 0 st'.column ∧
          (∀ c, st'.column < c → c < n → M c = false) ∧
          (st'.maxScore, st'.maxScoreCol) =
            bestRow n 0 (rowH0 n M b) (x :: offs) (st.maxScore, st.maxScoreCol) := by
      intro ST h1 h2 h3 h4 h5
      obtain ⟨st', h6, h7, h8, h9, h10, h11, h12⟩ := ih (x + 1) ST ho' h1
        (Or.inl ⟨by omega, by rw [h2]; exact hMx, by rw [h2]; exact h3, by rw [h2]; exact h4⟩)
      refine ⟨st', h6, h7, h8, h9, h10, h11, ?_⟩
      rw [h12, h5]; rfl
    simp only [firstRowLoop]
    rw [hgap]
    simp only [Res.bind_ok]
    rw [hinv.cons, rowOf_set hxn]
    simp only [Res.bind_ok]
    rw [hcv]
    simp only [Res.bind_ok]
    rw [rowOf_set hxn]
    simp only [Res.bind_ok]
    have hsc : (Bonus.match + b x * Bonus.firstQueryCharMultiplier : Int) = rowH0 n M b x := by
      rw [hval]; rfl
    apply key
    · refine ⟨?_, ?_, hcv'⟩
      · refine rowOf_congr (fun c hc => ?_)
        by_cases h1 : c = x
        · subst h1; rw [if_pos rfl, if_pos (by omega)]; exact hsc
        · rw [if_neg h1]
          by_cases h2 : c < x
          · rw [if_pos h2, if_pos (by omega)]
          · rw [if_neg h2, if_neg (by omega)]
      · refine rowOf_congr (fun c hc => ?_)
        by_cases h1 : c = x
        · subst h1; rw [if_pos rfl, if_pos (by omega)]; simp [rowC0, hMx]
        · rw [if_neg h1]
          by_cases h2 : c < k
          · rw [if_pos h2, if_pos (by omega)]
          · rw [if_neg h2]
            by_cases h3 : c < x + 1
            · rw [if_pos h3, rowC0, hno c (by omega) (by omega)]; simp
            · rw [if_neg h3]
    · rfl
    · exact hsc
    · rfl
    · show (if _ then _ else _ : Score × Nat) = _
      rw [Nat.zero_mul, Nat.zero_add, ← hsc]

theorem scoreFirstRow_eq {snorm : Bool} {norm : Bool} (hwf : base.WF) (hopts : opts = CandidateOpts.new snorm norm)
    (hb : Bonuses U sch base init b) {q : Char} {cv : CandidateV2} (hcv : CvOk base init opts b cv)
    (h0 : matchAt (fun x => charEq snorm norm q x) base.toChars 0 0 = true) :
    let n := base.toChars.length
    let M := matchAt (fun x => charEq snorm norm q x) base.toChars 0
    ∃ cv' best, scoreFirstRow U (rowOf n (fun _ => 0)) (rowOf n (fun _ => 0)) q cv sch =
      .ok (rowOf n (rowH0 n M b), rowOf n (rowC0 M), cv', best.1, best.2) ∧ CvOk base init opts b cv' ∧
      best = bestRow n 0 (rowH0 n M b) (idxsFrom (fun x => charEq snorm norm q x) base.toChars 0) (0, 0) := by
  intro n M
  have ho : Offs n M 0 (idxsFrom (fun x => charEq snorm norm q x) base.toChars 0) := offs_idxsFrom
  have hn0 : 0 < n := by
    obtain ⟨_, x, hx, _⟩ := matchAt_iff.mp h0
    exact (List.getElem?_eq_some_iff.mp hx).1
  have hhead : (idxsFrom (fun x => charEq snorm norm q x) base.toChars 0).head? = some 0 := by
    cases hl : idxsFrom (fun x => charEq snorm norm q x) base.toChars 0 with
    | nil => rw [hl] at ho; have := ho.nil 0 (by omega) hn0; exact absurd (h0.symm.trans this) (by simp)
    | cons x l =>
      rw [hl] at ho
      obtain ⟨_, _, _, h3, _⟩ := ho.head
      rcases Nat.eq_zero_or_pos x with rfl | hx
      · rfl
      · have := h3 0 (by omega) hx; exact absurd (h0.symm.trans this) (by simp)
  unfold scoreFirstRow CandidateV2.matches
  have hm : base.matches q opts.isCaseSensitive opts.charEq =
      .ok (idxsFrom (fun x => charEq snorm norm q x) base.toChars 0) := by
    rw [hopts]; exact Candidate.matches_eq hwf _ _ _
  rw [hcv.base_eq, hcv.opts_eq, hm]
  simp only [Res.bind_ok]
  have key : ∀ ST : FirstRowState, FirstInv base init opts b n M 0 ST → ST.column = 0 →
      ST.maxScore = 0 → ST.maxScoreCol = 0 → ∃ st',
      firstRowLoop U sch (idxsFrom (fun x => charEq snorm norm q x) base.toChars 0) ST = .ok st' ∧
      FirstInv base init opts b n M (st'.column + 1) st' ∧
      M st'.column = true ∧ st'.prevScore = rowH0 n M b st'.column ∧ st'.penalty = penLeft M 0 st'.column ∧
      (∀ c, st'.column < c → c < n → M c = false) ∧ (st'.maxScore, st'.maxScoreCol) = bestRow n 0 (rowH0 n M b)
        (idxsFrom (fun x => charEq snorm norm q x) base.toChars 0) (0, 0) := by
    intro ST h1 h2 h3 h4
    obtain ⟨st', h⟩ := firstRowLoop_eq hb rfl _ 0 ST ho h1 (Or.inr ⟨rfl, h2, hhead⟩)
    rw [h3, h4] at h
    exact ⟨st', h⟩
  obtain ⟨st', h1, h2, h3, h4, h5, h6, h7⟩ := key
    { scores := rowOf n (fun _ => 0), consecutives := rowOf n (fun _ => 0), candidate := cv, maxScore := 0
      prevScore := 0, maxScoreCol := 0, column := 0, penalty := Penalty.gapStart }
    ⟨rowOf_congr (by simp), rowOf_congr (by simp), hcv⟩ rfl rfl rfl
  rw [h1]
  simp only [Res.bind_ok]
  have hcol : st'.column < n := by
    obtain ⟨_, x, hx, _⟩ := matchAt_iff.mp h3
    exact (List.getElem?_eq_some_iff.mp hx).1
  have hlen : st'.scores.length = n := by rw [h2.scores]; simp
  rw [hlen, h2.scores]
  obtain ⟨y, hy⟩ := firstRowGap_eq (n := n) (n - (st'.column + 1)) (st'.column + 1)
          (fun c => if c < st'.column + 1 then rowH0 n M b c else 0) st'.prevScore st'.penalty (by omega)
  rw [hy]
  simp only [Res.bind_ok, Res.pure_def]
  refine ⟨st'.candidate, (st'.maxScore, st'.maxScoreCol), ?_, h2.cv, h7⟩
  rw [h2.cons]
  congr 2
  · refine rowOf_congr (fun c hc => ?_)
    by_cases h8 : c < st'.column + 1
    · rw [if_neg (by omega), if_pos h8]
    · rw [if_pos (by omega), h4]
      refine (rowH0_gap h3 (fun c h9 h10 => h6 c h9 h10) _ ?_ c (by omega) hc).symm
      rw [if_pos, h5]
      intro c' h9 h10
      exact h6 c' (by omega) h9
  · congr 1
    refine rowOf_congr (fun c hc => ?_)
    by_cases h8 : c < st'.column + 1
    · rw [if_pos h8]
    · rw [if_neg h8, rowC0, h6 c (by omega) hc]; simp

end first

/-! ### The remaining rows -/

theorem rowGap_eq {n : Nat} (k : Nat) : ∀ (col : Nat) (f : Nat → Int) (pen : Int), 0 < col → col + k ≤ n →
    rowGap k col (rowOf n f) pen =
      .ok (rowOf n (fun c => if col ≤ c ∧ c < col + k then f (col - 1) - pen - ((c - col : Nat) : Int) else f c),
        if k = 0 then pen else 1) := by
  induction k with
  | zero =>
    intro col f pen _ _
    simp only [rowGap, if_true]
    congr 2
    exact rowOf_congr (fun c _ => by rw [if_neg (by omega)])
  | succ k ih =>
    intro col f pen h0 h
    simp only [rowGap, saturatingSub]
    rw [subR_of_le (by omega)]
    simp only [Res.bind_ok]
    rw [rowOf_get (by omega)]
    simp only [Res.bind_ok]
    rw [rowOf_set (by omega)]
    simp only [Res.bind_ok]
    rw [show (Penalty.gapExtension : Score) = (1 : Int) from rfl, ih (col + 1) _ 1 (by omega) (by omega)]
    congr 2
    · refine rowOf_congr (fun c hc => ?_)
      by_cases h1 : c = col
      · subst h1
        rw [if_neg (by omega), if_pos rfl, if_pos (by omega)]
        simp
      · by_cases h2 : col ≤ c ∧ c < col + (k + 1)
        · rw [if_pos (by omega), if_pos h2, if_pos (by omega)]
          show (f (col - 1) - pen - 1 - ((c - (col + 1) : Nat) : Int) : Int) =
            f (col - 1) - pen - ((c - col : Nat) : Int)
          omega
        · rw [if_neg (by omega), if_neg h1, if_neg h2]
    · simp

theorem ite_bind_ok' {α β : Type} {P : Prop} [Decidable P] {A B : Res α} {K : α → Res β} {v : α}
    (h : (if P then A else B) = .ok v) : (if P then (A >>= K) else (B >>= K)) = K v := by
  by_cases hP : P
  · rw [if_pos hP] at h ⊢; rw [h]; rfl
  · rw [if_neg hP] at h ⊢; rw [h]; rfl

section rest
variable {U : Unicode} {sch : Scheme} {base : Candidate} {init : CharClass} {opts : CandidateOpts}
  {b : Nat → Int} {n : Nat} {M : Nat → Bool} {first r : Nat} {Hp : Nat → Int} {Cp : Nat → Nat}

theorem rowH_gap {l k : Nat} (hM : M l = true) (hl : first ≤ l) (hgap : ∀ c, l < c → c < k → M c = false)
    (pen : Int) (hpen : pen = if ∀ c', c' < n → l + 1 ≤ c' → M c' = false then penLeft M first l else 3) :
    ∀ c, l < c → c < k → rowH n M first b Hp Cp c = rowH n M first b Hp Cp l - pen - ((c - (l + 1) : Nat) : Int) := by
  intro c
  induction c with
  | zero => omega
  | succ c ih =>
    intro h1 h2
    have hc := hgap (c + 1) h1 h2
    simp only [rowH, hc, Bool.false_eq_true, if_false, penGap, Nat.add_one_sub_one]
    rw [if_neg (by omega)]
    by_cases hcl : c = l
    · subst hcl
      rw [if_pos hM, ← hpen]; simp
    · rw [hgap c (by omega) (by omega)]
      simp only [Bool.false_eq_true, if_false]
      rw [ih (by omega) (by omega)]
      omega

theorem rowH_before {c : Nat} (h : c < first) : rowH n M first b Hp Cp c = 0 := by
  cases c with
  | zero => rfl
  | succ c => simp [rowH, h]

/-- Loop invariant of a later row: columns before `k` are done. -/
structure RowInv (base : Candidate) (init : CharClass) (opts : CandidateOpts) (b : Nat → Int) (n : Nat)
    (M : Nat → Bool) (first : Nat) (Hp : Nat → Int) (Cp : Nat → Nat) (k : Nat) (st : RowState) : Prop where
  scores : st.scores = rowOf n (fun c => if c < k then rowH n M first b Hp Cp c else 0)
  cons : st.consecutives = rowOf n (fun c => if c < k then rowC n M first b Hp Cp c else 0)
  cv : CvOk base init opts b st.candidate

theorem rowLoop_eq (hb : Bonuses U sch base init b) (hn : n = base.toChars.length) (hfirst : 0 < first)
    (hCp : ∀ c, Cp c ≤ c + 1) :
    ∀ (offs : List Nat) (k : Nat) (st : RowState), Offs n M k offs →
    RowInv base init opts b n M first Hp Cp k st → first ≤ k →
    ((st.column + 1 = k ∧ first ≤ st.column ∧ M st.column = true ∧ st.penalty = penLeft M first st.column) ∨
      (k = first ∧ st.column = first ∧ offs.head? = some first)) →
    ∃ st', rowLoop U sch n r (rowOf n Hp) (rowOf n Cp) offs st = .ok st' ∧
      RowInv base init opts b n M first Hp Cp (st'.column + 1) st' ∧ first ≤ st'.column ∧
      M st'.column = true ∧ st'.penalty = penLeft M first st'.column ∧
      (∀ c, st'.column < c → c < n → M c = false) ∧
      (st'.maxScore, st'.maxScoreCell) =
        bestRow n r (rowH n M first b Hp Cp) offs (st.maxScore, st.maxScoreCell) := by
  intro offs
  induction offs with
  | nil =>
    intro k st ho hinv hk hst
    rcases hst with ⟨h1, h2, h3, h4⟩ | ⟨_, _, h⟩
    · subst h1
      exact ⟨st, rfl, hinv, h2, h3, h4, fun c h5 h6 => ho.nil c (by omega) h6, rfl⟩
    · simp at h
  | cons x offs ih =>
    intro k st ho hinv hk hst
    obtain ⟨hkx, hxn, hMx, hno, ho'⟩ := ho.head
    have hgap : rowGap (x - (st.column + 1)) (st.column + 1) st.scores
        Penalty.gapStart = .ok (rowOf n (fun c => if c < x then rowH n M first b Hp Cp c else 0),
          penLeft M first x) := by
      rcases hst with ⟨h1, h2, h3, h4⟩ | ⟨h1, h2, h3⟩
      · subst h1
        rw [hinv.scores, show (Penalty.gapStart : Score) = (3 : Int) from rfl,
          rowGap_eq (n := n) (x - (st.column + 1)) (st.column + 1) _ 3 (by omega) (by omega)]
        congr 2
        · refine rowOf_congr (fun c hc => ?_)
          by_cases h5 : c < st.column + 1
          · rw [if_neg (by omega), if_pos h5, if_pos (by omega)]
          · by_cases h6 : c < x
            · rw [if_pos (by omega), if_pos h6, Nat.add_one_sub_one, if_pos (by omega)]
              refine (rowH_gap h3 h2 (fun c h7 h8 => hno c (by omega) h8) 3 ?_ c (by omega) h6).symm
              rw [if_neg]
              intro hall
              have := hall x hxn (by omega)
              rw [hMx] at this; simp at this
            · rw [if_neg (by omega), if_neg h5, if_neg h6]
        · unfold penLeft
          by_cases h5 : x = st.column + 1
          · rw [if_pos (by omega), if_pos]; right; rw [h5]; simpa using h3
          · rw [if_neg (by omega), if_neg]
            rintro (h6 | h6)
            · omega
            · rw [hno (x - 1) (by omega) (by omega)] at h6; simp at h6
      · simp at h3
        subst h1 h3
        rw [hinv.scores, show x - (st.column + 1) = 0 by omega,
          show (Penalty.gapStart : Score) = (3 : Int) from rfl]
        rw [show rowGap 0 (st.column + 1) (rowOf n (fun c => if c < x then rowH n M x b Hp Cp c else 0)) (3 : Int) =
          .ok (rowOf n (fun c => if c < x then rowH n M x b Hp Cp c else 0), (3 : Int)) from rfl]
        simp [penLeft]
    obtain ⟨x', rfl⟩ : ∃ x', x = x' + 1 := ⟨x - 1, by omega⟩
    obtain ⟨cv1, hcv1, hok1⟩ := bonusAt_eq hb hinv.cv (i := x' + 1) (by omega)
    have hrow : rowH n M first b Hp Cp (x' + 1) =
        (cell b (x' + 1) (rowH n M first b Hp Cp x' - penLeft M first (x' + 1)) (Hp x') (Cp x')).1 := by
      simp [rowH, hMx]; omega
    have hrowC : rowC n M first b Hp Cp (x' + 1) =
        (cell b (x' + 1) (rowH n M first b Hp Cp x' - penLeft M first (x' + 1)) (Hp x') (Cp x')).2 := by
      simp [rowC, hMx]
    have key : ∀ ST : RowState, RowInv base init opts b n M first Hp Cp (x' + 1 + 1) ST → ST.column = x' + 1 →
        ST.penalty = penLeft M first (x' + 1) →
        (ST.maxScore, ST.maxScoreCell) = (if rowH n M first b Hp Cp (x' + 1) > st.maxScore then
          (rowH n M first b Hp Cp (x' + 1), r * n + (x' + 1)) else (st.maxScore, st.maxScoreCell)) →
        ∃ st', rowLoop U sch n r (rowOf n Hp) (rowOf n Cp) offs ST = .ok st' ∧
          RowInv base init opts b n M first Hp Cp (st'.column + 1) st' ∧ first ≤ st'.column ∧
          M st'.column = true ∧ st'.penalty = penLeft M first st'.column ∧
          (∀ c, st'.column < c → c < n → M c = false) ∧
          (st'.maxScore, st'.maxScoreCell) =
            bestRow n r (rowH n M first b Hp Cp) ((x' + 1) :: offs) (st.maxScore, st.maxScoreCell) := by
      intro ST h1 h2 h4 h5
      obtain ⟨st', h6, h7, h8, h9, h10, h11, h12⟩ := ih (x' + 1 + 1) ST ho' h1 (by omega)
        (Or.inl ⟨by omega, by omega, by rw [h2]; exact hMx, by rw [h2]; exact h4⟩)
      refine ⟨st', h6, h7, h8, h9, h10, h11, ?_⟩
      rw [h12, h5]; rfl
    -- the bonus of the run
    have hrun : ∃ cv2, (if Cp x' + 1 > 1 then
        (do
          let (candidate, fb) ← cv1.bonusAt U (← subR (x' + 1 + 1) (Cp x' + 1)) sch
          if b (x' + 1) ≥ Bonus.boundary && b (x' + 1) > fb then
            return (candidate, b (x' + 1), 1)
          else
            return (candidate, max (max Bonus.consecutive fb) (b (x' + 1)), Cp x' + 1) :
          Res (CandidateV2 × Score × Nat))
        else pure (cv1, b (x' + 1), Cp x' + 1)) = .ok (cv2, (runBonus b (x' + 1) (Cp x' + 1)).1,
          (runBonus b (x' + 1) (Cp x' + 1)).2) ∧ CvOk base init opts b cv2 := by
      by_cases h1 : Cp x' + 1 > 1
      · rw [if_pos h1]
        have := hCp x'
        rw [subR_of_le (by omega)]
        obtain ⟨cv2, hcv2, hok2⟩ := bonusAt_eq hb hok1 (i := x' + 1 + 1 - (Cp x' + 1)) (by omega)
        simp only [Res.bind_ok]
        rw [hcv2]
        simp only [Res.bind_ok]
        refine ⟨cv2, ?_, hok2⟩
        simp only [runBonus]
        rw [if_pos h1]
        have hB : (Bonus.boundary : Score) = (8 : Int) := rfl
        by_cases h2 : b (x' + 1) ≥ 8 ∧ b (x' + 1) > b (x' + 1 + 1 - (Cp x' + 1))
        · rw [if_pos h2, if_pos]
          · rfl
          · rw [hB]; simp only [Bool.and_eq_true, decide_eq_true_eq]; exact h2
        · rw [if_neg h2, if_neg]
          · rfl
          · rw [hB]; simp only [Bool.and_eq_true, decide_eq_true_eq]; exact h2
      · rw [if_neg h1]
        refine ⟨cv1, ?_, hok1⟩
        simp only [runBonus]
        rw [if_neg h1]; rfl
    obtain ⟨cv2, hrun, hok2⟩ := hrun
    simp only [rowLoop]
    rw [hgap]
    simp only [Res.bind_ok]
    rw [subR_of_le (by omega)]
    simp only [Res.bind_ok, Nat.add_one_sub_one]
    rw [rowOf_get (by omega), rowOf_get (by omega), rowOf_get (by omega)]
    simp only [Res.bind_ok]
    rw [hcv1]
    simp only [Res.bind_ok]
    rw [ite_bind_ok' hrun]
    simp only [Res.bind_ok]
    have hL : saturatingSub (if x' < x' + 1 then rowH n M first b Hp Cp x' else 0) (penLeft M first (x' + 1)) =
        rowH n M first b Hp Cp x' - penLeft M first (x' + 1) := by
      rw [if_pos (by omega)]; rfl
    rw [hL]
    have hjoin : ∃ cv3 S cn, (if Hp x' + Bonus.match + (runBonus b (x' + 1) (Cp x' + 1)).1 <
          rowH n M first b Hp Cp x' - penLeft M first (x' + 1) then
        (do
          let (candidate, b) ← cv2.bonusAt U (x' + 1) sch
          return (candidate, Hp x' + Bonus.match + b, 0) : Res (CandidateV2 × Score × Nat))
        else pure (cv2, Hp x' + Bonus.match + (runBonus b (x' + 1) (Cp x' + 1)).1,
          (runBonus b (x' + 1) (Cp x' + 1)).2)) = .ok (cv3, S, cn) ∧ CvOk base init opts b cv3 ∧
        max (rowH n M first b Hp Cp x' - penLeft M first (x' + 1)) S = rowH n M first b Hp Cp (x' + 1) ∧
        cn = rowC n M first b Hp Cp (x' + 1) := by
      rw [hrow, hrowC]
      unfold cell
      by_cases h1 : Hp x' + 16 + (runBonus b (x' + 1) (Cp x' + 1)).1 <
          rowH n M first b Hp Cp x' - penLeft M first (x' + 1)
      · rw [if_pos h1]
        rw [if_pos (show Hp x' + Bonus.match + (runBonus b (x' + 1) (Cp x' + 1)).1 <
          rowH n M first b Hp Cp x' - penLeft M first (x' + 1) from h1)]
        obtain ⟨cv3, hcv3, hok3⟩ := bonusAt_eq hb hok2 (i := x' + 1) (by omega)
        rw [hcv3]
        exact ⟨cv3, _, _, rfl, hok3, rfl, rfl⟩
      · rw [if_neg h1]
        rw [if_neg (show ¬ (Hp x' + Bonus.match + (runBonus b (x' + 1) (Cp x' + 1)).1 <
          rowH n M first b Hp Cp x' - penLeft M first (x' + 1)) from h1)]
        exact ⟨cv2, _, _, rfl, hok2, rfl, rfl⟩
    obtain ⟨cv3, S, cn, hjoin, hok3, hS, hcn⟩ := hjoin
    rw [ite_bind_ok' hjoin]
    simp only
    rw [hS, hcn, hinv.cons, rowOf_set hxn]
    simp only [Res.bind_ok]
    rw [rowOf_set hxn]
    simp only [Res.bind_ok]
    apply key
    · refine ⟨?_, ?_, hok3⟩
      · refine rowOf_congr (fun c hc => ?_)
        by_cases h1 : c = x' + 1
        · subst h1; rw [if_pos rfl, if_pos (by omega)]
        · rw [if_neg h1]
          by_cases h2 : c < x' + 1
          · rw [if_pos h2, if_pos (by omega)]
          · rw [if_neg h2, if_neg (by omega)]
      · refine rowOf_congr (fun c hc => ?_)
        by_cases h1 : c = x' + 1
        · subst h1; rw [if_pos rfl, if_pos (by omega)]
        · rw [if_neg h1]
          by_cases h2 : c < k
          · rw [if_pos h2, if_pos (by omega)]
          · rw [if_neg h2]
            by_cases h3 : c < x' + 1 + 1
            · rw [if_pos h3]
              have := hno c (by omega) (by omega)
              cases c with
              | zero => rfl
              | succ c => simp [rowC, this]
            · rw [if_neg h3]
    · rfl
    · rfl
    · rfl

end rest

end Norm
