import Verif.Proofs.UsizeFzf
import Verif.Proofs.V2Facts

/-! The functions of `fzf_v2.rs`, as in `Proofs/UsizeBase`. -/

namespace Norm.Usize

variable {B : Build} {P : Prop} {U : Unicode}

/-! ### `matches` -/

theorem findLastIdx_lt {α : Type} {p : α → Bool} {l : List α} {i : Nat} (h : findLastIdx? p l = some i) : i < l.length := by
  unfold findLastIdx? at h
  cases hf : l.reverse.findIdx? p with
  | none => rw [hf] at h; simp at h
  | some j =>
    rw [hf] at h
    simp only [Option.map_some, Option.some.injEq] at h
    have := findIdx_lt hf
    rw [List.length_reverse] at this
    omega

theorem findLast_lt {c : Candidate} {ch : Char} {sens : Bool} {eq : CharEq} {i : Nat}
    (h : c.findLast ch sens eq = some i) : i < c.toChars.length := by
  cases c with
  | ascii bs =>
    have h : (if isAscii ch then findLastAscii (charToByte ch) bs sens else none) = some i := h
    simp only [Candidate.toChars, List.length_map]
    by_cases ha : isAscii ch = true
    · rw [if_pos ha] at h; exact findLastIdx_lt h
    · rw [if_neg ha] at h; cases h
  | unicode cs => exact findLastIdx_lt (show findLastIdx? _ cs = some i from h)

theorem matchesLoop_agree (p : Pattern) (hp : p.text.length < 2 ^ B.bits) {c : Candidate}
    (hn : c.toChars.length < 2 ^ B.bits) (opts : CandidateOpts) : ∀ (fuel : Nat) (offs : List Nat) (i last : Nat),
    Agree P (fun r => r.1.length = offs.length) (matchesLoop B p c opts fuel offs i last)
      (Norm.matchesLoop p c opts fuel offs i last) := by
  intro fuel
  induction fuel with
  | zero => intro offs i last; exact Agree.right
  | succ fuel ih =>
    intro offs i last
    unfold matchesLoop Norm.matchesLoop
    refine Agree.same fun pc hpc => ?_
    have hi : i < p.text.length := of_getR hpc
    refine Agree.bind (findFirstFrom_agree hn _ _ _ _) fun o ho _ => ?_
    cases o with
    | none => exact Agree.ok rfl
    | some off =>
      have hoff := ho off rfl
      refine Agree.same fun offs' hoffs => ?_
      obtain ⟨_, rfl⟩ := length_of_setR hoffs
      refine Agree.skip (usize_ok (by omega)) ?_
      refine Agree.skip (usize_ok (by omega)) ?_
      refine Agree.ite (fun _ => ?_) fun _ => Agree.ok List.length_set
      have := ih (offs.set i off) (i + 1) (off + 1)
      rwa [List.length_set] at this

theorem v2Matches_agree (p : Pattern) (hp : p.text.length < 2 ^ B.bits) {c : Candidate}
    (hn : c.toChars.length < 2 ^ B.bits) (opts : CandidateOpts) {indices : List Nat}
    (hl : indices.length ≤ B.limit .index) (hg : P ∨ p.charLen ≤ B.limit .index) :
    Agree P (fun r => r.1.length ≤ B.limit .index ∧ r.2.1.length ≤ r.1.length ∧ p.charLen ≤ B.limit .index) (v2Matches B indices p c opts)
      (Norm.v2Matches indices p c opts) := by
  unfold v2Matches Norm.v2Matches
  refine Agree.bind (indicesAlloc_agree hl hg) fun x hx _ => ?_
  obtain ⟨ind, offs⟩ := x
  obtain ⟨h1, h2, h3⟩ := hx
  simp only at h1 h2 h3 ⊢
  refine Agree.bind (matchesLoop_agree p hp hn opts _ _ 0 0) fun y hy _ => ?_
  obtain ⟨offs', r⟩ := y
  simp only at hy ⊢
  cases r with
  | none => exact Agree.ok ⟨h1, by simp only; omega, by omega⟩
  | some k =>
    refine Agree.same fun pc _ => ?_
    refine Agree.same fun last hlast => ?_
    have : last < c.toChars.length := by
      cases hf : c.findLast pc opts.isCaseSensitive opts.charEq with
      | none => rw [hf] at hlast; cases hlast
      | some j =>
        rw [hf] at hlast
        obtain rfl := Res.ok.inj hlast
        exact findLast_lt hf
    refine Agree.skip (usize_ok (by omega)) ?_
    exact Agree.ok ⟨h1, by simp only; omega, by omega⟩

/-! ### Rows -/

/-- The parts of a `CandidateV2` that reading a bonus does not change. -/
structure SameCv (a b : CandidateV2) : Prop where
  base : a.base = b.base
  opts : a.opts = b.opts
  len : a.bonuses.length = b.bonuses.length

theorem SameCv.refl (a : CandidateV2) : SameCv a a := ⟨rfl, rfl, rfl⟩

theorem SameCv.trans {a b c : CandidateV2} (h : SameCv a b) (h' : SameCv b c) : SameCv a c :=
  ⟨h.1.trans h'.1, h.2.trans h'.2, h.3.trans h'.3⟩

theorem bonusAt_same {c c' : CandidateV2} {i : Nat} {scheme : Scheme} {b : Score}
    (h : c.bonusAt U i scheme = .ok (c', b)) : SameCv c' c := by
  unfold CandidateV2.bonusAt at h
  obtain ⟨cell, h1, h⟩ := Res.bind_eq_ok.mp h
  by_cases hset : cell.isSet = true
  · rw [if_pos hset] at h
    obtain ⟨rfl, _⟩ := Prod.mk.inj (Res.ok.inj h)
    exact SameCv.refl _
  · rw [if_neg hset] at h
    rw [← res_ite_bind] at h
    obtain ⟨cls, _, h⟩ := Res.bind_eq_ok.mp h
    obtain ⟨ch, _, h⟩ := Res.bind_eq_ok.mp h
    obtain ⟨bs, h2, h⟩ := Res.bind_eq_ok.mp h
    obtain ⟨rfl, _⟩ := Prod.mk.inj (Res.ok.inj h)
    obtain ⟨_, rfl⟩ := length_of_setR h2
    exact ⟨rfl, rfl, List.length_set⟩

theorem firstRowGap_length : ∀ (n col : Nat) (row : List Score) (prev pen : Score) (r : List Score × Score × Score),
    firstRowGap n col row prev pen = .ok r → r.1.length = row.length := by
  intro n
  induction n with
  | zero => intro col row prev pen r h; obtain rfl := Res.ok.inj h; rfl
  | succ n ih =>
    intro col row prev pen r h
    unfold firstRowGap at h
    obtain ⟨row', h1, h⟩ := Res.bind_eq_ok.mp h
    obtain ⟨_, rfl⟩ := length_of_setR h1
    have := ih _ _ _ _ _ h
    rw [this, List.length_set]

theorem mem_set_le {l : List Nat} {i v k : Nat} (h : ∀ x ∈ l, x ≤ k) (hv : v ≤ k) : ∀ x ∈ l.set i v, x ≤ k := by
  intro x hx
  rcases List.mem_or_eq_of_mem_set hx with hx | rfl
  · exact h x hx
  · exact hv

theorem firstRowLoop_agree (scheme : Scheme) {N : Nat} (hN : N + 1 < 2 ^ B.bits) : ∀ (offs : List Nat) (st : FirstRowState),
    (∀ o ∈ offs, o ≤ N) → st.column ≤ N → (∀ v ∈ st.consecutives, v ≤ 1) →
    Agree P (fun st' => st'.scores.length = st.scores.length ∧ st'.consecutives.length = st.consecutives.length ∧
        (∀ v ∈ st'.consecutives, v ≤ 1) ∧ SameCv st'.candidate st.candidate ∧ st'.column ≤ N)
      (firstRowLoop B U scheme offs st) (Norm.firstRowLoop U scheme offs st) := by
  intro offs
  induction offs with
  | nil => intro st _ hc hv; exact Agree.ok ⟨rfl, rfl, hv, SameCv.refl _, hc⟩
  | cons o offs ih =>
    intro st ho hc hv
    unfold firstRowLoop Norm.firstRowLoop
    dsimp only
    refine Agree.skip (usize_ok (by omega)) ?_
    refine Agree.same fun x hx => ?_
    have hlen := firstRowGap_length _ _ _ _ _ _ hx
    obtain ⟨scores, prev, pen⟩ := x
    simp only at hlen ⊢
    refine Agree.same fun cons hcons => ?_
    obtain ⟨_, rfl⟩ := length_of_setR hcons
    refine Agree.same fun y hy => ?_
    obtain ⟨cv, bonus⟩ := y
    have hcv := bonusAt_same hy
    simp only
    refine Agree.same fun scores' hsc => ?_
    obtain ⟨_, rfl⟩ := length_of_setR hsc
    by_cases hgt : Bonus.match + bonus * Bonus.firstQueryCharMultiplier > st.maxScore
    · simp only [if_pos hgt]
      refine (ih _ (fun x hx => ho x (by simp [hx])) (ho o (by simp)) (mem_set_le hv (Nat.le_refl _))).mono ?_
      rintro st' - ⟨h1, h2, h3, h4, h5⟩
      exact ⟨by rw [h1, List.length_set, hlen], by rw [h2, List.length_set], h3, h4.trans hcv, h5⟩
    · simp only [if_neg hgt]
      refine (ih _ (fun x hx => ho x (by simp [hx])) (ho o (by simp)) (mem_set_le hv (Nat.le_refl _))).mono ?_
      rintro st' - ⟨h1, h2, h3, h4, h5⟩
      exact ⟨by rw [h1, List.length_set, hlen], by rw [h2, List.length_set], h3, h4.trans hcv, h5⟩

theorem scoreFirstRow_agree (scheme : Scheme) {scores : List Score} {cons : List Nat} (ch : Char) {cv : CandidateV2}
    (hN : cv.base.toChars.length + 1 < 2 ^ B.bits) (hv : ∀ v ∈ cons, v ≤ 1) :
    Agree P (fun x => x.1.length = scores.length ∧ x.2.1.length = cons.length ∧ (∀ v ∈ x.2.1, v ≤ 1) ∧ SameCv x.2.2.1 cv)
      (scoreFirstRow B U scores cons ch cv scheme) (Norm.scoreFirstRow U scores cons ch cv scheme) := by
  unfold scoreFirstRow Norm.scoreFirstRow CandidateV2.matches
  refine Agree.bind (candidateMatches_agree (by omega) _ _ _) fun offs hoffs _ => ?_
  refine Agree.bind (firstRowLoop_agree scheme hN offs _ (fun o ho => Nat.le_of_lt (hoffs o ho)) (Nat.zero_le _) hv)
    fun st hst _ => ?_
  obtain ⟨h1, h2, h3, h4, h5⟩ := hst
  refine Agree.skip (usize_ok (by omega)) ?_
  refine Agree.same fun x hx => ?_
  have hlen := firstRowGap_length _ _ _ _ _ _ hx
  obtain ⟨scores', prev, pen⟩ := x
  exact Agree.ok ⟨by simp only at hlen ⊢; rw [hlen, h1], h2, h3, h4⟩

theorem rowGap_agree : ∀ (n col : Nat) (row : List Score) (pen : Score),
    Agree P (fun r => r.1.length = row.length) (rowGap B n col row pen) (Norm.rowGap n col row pen) := by
  intro n
  induction n with
  | zero => intro col row pen; exact Agree.ok rfl
  | succ n ih =>
    intro col row pen
    unfold rowGap Norm.rowGap
    refine Agree.bind (sub_agree _ _) fun c _ _ => ?_
    refine Agree.same fun left _ => ?_
    refine Agree.same fun row' hrow => ?_
    obtain ⟨_, rfl⟩ := length_of_setR hrow
    have := ih (col + 1) (row.set col (saturatingSub left pen)) Penalty.gapExtension
    rwa [List.length_set] at this

theorem rowLoop_agree (scheme : Scheme) {N w r k : Nat} (hN : N + 1 < 2 ^ B.bits) (hcell : r * w + N < 2 ^ B.bits)
    (hk : k + 1 < 2 ^ B.bits) (prevS : List Score) {prevC : List Nat} (hprev : ∀ v ∈ prevC, v ≤ k) :
    ∀ (offs : List Nat) (st : RowState), (∀ o ∈ offs, o ≤ N) → st.column ≤ N → (∀ v ∈ st.consecutives, v ≤ k + 1) →
    Agree P (fun st' => st'.scores.length = st.scores.length ∧ st'.consecutives.length = st.consecutives.length ∧
        (∀ v ∈ st'.consecutives, v ≤ k + 1) ∧ SameCv st'.candidate st.candidate ∧ st'.column ≤ N)
      (rowLoop B U scheme w r prevS prevC offs st) (Norm.rowLoop U scheme w r prevS prevC offs st) := by
  intro offs
  induction offs with
  | nil => intro st _ hc hv; exact Agree.ok ⟨rfl, rfl, hv, SameCv.refl _, hc⟩
  | cons o offs ih =>
    intro st ho hc hv
    have hoN := ho o (by simp)
    unfold rowLoop Norm.rowLoop
    dsimp only
    refine Agree.skip (usize_ok (by omega)) ?_
    refine Agree.bind (rowGap_agree _ _ _ _) fun x hlen _ => ?_
    obtain ⟨scores, pen⟩ := x
    simp only at hlen ⊢
    refine Agree.bind (sub_agree _ _) fun c1 _ _ => ?_
    refine Agree.same fun left _ => ?_
    refine Agree.bind (sub_agree _ _) fun c2 _ _ => ?_
    refine Agree.same fun up _ => ?_
    refine Agree.same fun y hy => ?_
    obtain ⟨cv, bonus⟩ := y
    have hcv := bonusAt_same hy
    simp only
    refine Agree.bind (sub_agree _ _) fun c3 _ _ => ?_
    refine Agree.same fun pv hpv => ?_
    have hpvk : pv ≤ k := hprev _ (List.mem_of_getElem? (getR_eq_ok.mp hpv))
    refine Agree.skip (usize_ok (by omega)) ?_
    -- the end of the iteration
    have fin : ∀ (cv' : CandidateV2) (ul : Score) (cons : Nat), SameCv cv' st.candidate → cons ≤ k + 1 →
        Agree P (fun st' => st'.scores.length = st.scores.length ∧ st'.consecutives.length = st.consecutives.length ∧
          (∀ v ∈ st'.consecutives, v ≤ k + 1) ∧ SameCv st'.candidate st.candidate ∧ st'.column ≤ N)
        (do
          let score := max (saturatingSub left pen) ul
          let (maxScore, maxScoreCell) ←
            if score > st.maxScore then
              (do return (score, ← B.usize ((← B.usize (r * w)) + o)) : Res (Score × Nat))
            else pure (st.maxScore, st.maxScoreCell)
          let consecutives ← setR st.consecutives o cons
          let scores ← setR scores o score
          rowLoop B U scheme w r prevS prevC offs {
            scores := scores, consecutives := consecutives, candidate := cv'
            maxScore := maxScore, maxScoreCell := maxScoreCell, column := o, penalty := pen })
        (do
          let score := max (saturatingSub left pen) ul
          let (maxScore, maxScoreCell) :=
            if score > st.maxScore then (score, r * w + o)
            else (st.maxScore, st.maxScoreCell)
          let consecutives ← setR st.consecutives o cons
          let scores ← setR scores o score
          Norm.rowLoop U scheme w r prevS prevC offs {
            scores := scores, consecutives := consecutives, candidate := cv'
            maxScore := maxScore, maxScoreCell := maxScoreCell, column := o, penalty := pen }) := by
      intro cv' ul cons hcv' hcons
      have tail : ∀ (a : Score) (b : Nat),
          Agree P (fun st' => st'.scores.length = st.scores.length ∧ st'.consecutives.length = st.consecutives.length ∧
            (∀ v ∈ st'.consecutives, v ≤ k + 1) ∧ SameCv st'.candidate st.candidate ∧ st'.column ≤ N)
          (do
            let consecutives ← setR st.consecutives o cons
            let scores ← setR scores o (max (saturatingSub left pen) ul)
            rowLoop B U scheme w r prevS prevC offs {
              scores := scores, consecutives := consecutives, candidate := cv'
              maxScore := a, maxScoreCell := b, column := o, penalty := pen })
          (do
            let consecutives ← setR st.consecutives o cons
            let scores ← setR scores o (max (saturatingSub left pen) ul)
            Norm.rowLoop U scheme w r prevS prevC offs {
              scores := scores, consecutives := consecutives, candidate := cv'
              maxScore := a, maxScoreCell := b, column := o, penalty := pen }) := by
        intro a b
        refine Agree.same fun cons' hc' => ?_
        obtain ⟨_, rfl⟩ := length_of_setR hc'
        refine Agree.same fun scores' hs' => ?_
        obtain ⟨_, rfl⟩ := length_of_setR hs'
        refine (ih _ (fun x hx => ho x (by simp [hx])) hoN (mem_set_le hv hcons)).mono ?_
        rintro st' - ⟨h1, h2, h3, h4, h5⟩
        exact ⟨by rw [h1, List.length_set, hlen], by rw [h2, List.length_set], h3, h4.trans hcv', h5⟩
      dsimp only
      by_cases hgt : max (saturatingSub left pen) ul > st.maxScore
      · simp only [if_pos hgt]
        rw [usize_ok (show r * w < _ by omega)]
        simp only [Res.bind_ok]
        rw [usize_ok (show r * w + o < _ by omega)]
        exact tail _ _
      · simp only [if_neg hgt]
        exact tail _ _
    have mid : ∀ (cv' : CandidateV2) (bonus : Score) (cons : Nat), SameCv cv' st.candidate → cons ≤ k + 1 →
        Agree P (fun st' => st'.scores.length = st.scores.length ∧ st'.consecutives.length = st.consecutives.length ∧
          (∀ v ∈ st'.consecutives, v ≤ k + 1) ∧ SameCv st'.candidate st.candidate ∧ st'.column ≤ N)
        (do
          let (candidate, scoreUpLeft, consecutive) ←
            if up + Bonus.match + bonus < saturatingSub left pen then
              (do
                let (candidate, b) ← cv'.bonusAt U o scheme
                return (candidate, up + Bonus.match + b, 0) : Res (CandidateV2 × Score × Nat))
            else pure (cv', up + Bonus.match + bonus, cons)
          let score := max (saturatingSub left pen) scoreUpLeft
          let (maxScore, maxScoreCell) ←
            if score > st.maxScore then
              (do return (score, ← B.usize ((← B.usize (r * w)) + o)) : Res (Score × Nat))
            else pure (st.maxScore, st.maxScoreCell)
          let consecutives ← setR st.consecutives o consecutive
          let scores ← setR scores o score
          rowLoop B U scheme w r prevS prevC offs {
            scores := scores, consecutives := consecutives, candidate := candidate
            maxScore := maxScore, maxScoreCell := maxScoreCell, column := o, penalty := pen })
        (do
          let (candidate, scoreUpLeft, consecutive) ←
            if up + Bonus.match + bonus < saturatingSub left pen then
              (do
                let (candidate, b) ← cv'.bonusAt U o scheme
                return (candidate, up + Bonus.match + b, 0) : Res (CandidateV2 × Score × Nat))
            else pure (cv', up + Bonus.match + bonus, cons)
          let score := max (saturatingSub left pen) scoreUpLeft
          let (maxScore, maxScoreCell) :=
            if score > st.maxScore then (score, r * w + o)
            else (st.maxScore, st.maxScoreCell)
          let consecutives ← setR st.consecutives o consecutive
          let scores ← setR scores o score
          Norm.rowLoop U scheme w r prevS prevC offs {
            scores := scores, consecutives := consecutives, candidate := candidate
            maxScore := maxScore, maxScoreCell := maxScoreCell, column := o, penalty := pen }) := by
      intro cv' bonus cons hcv' hcons
      by_cases hlt : up + Bonus.match + bonus < saturatingSub left pen
      · simp only [if_pos hlt]
        refine Agree.same fun v hv => ?_
        obtain ⟨⟨cv'', b⟩, hz, hv⟩ := Res.bind_eq_ok.mp hv
        obtain rfl := Res.ok.inj hv
        exact fin cv'' _ 0 ((bonusAt_same hz).trans hcv') (Nat.zero_le _)
      · simp only [if_neg hlt]
        exact fin cv' _ cons hcv' hcons
    by_cases hgt : pv + 1 > 1
    · simp only [if_pos hgt]
      refine Agree.bind (Q := fun x => SameCv x.1 st.candidate ∧ x.2.2 ≤ k + 1) ?_ fun x hx _ => ?_
      · refine Agree.skip (usize_ok (by omega)) ?_
        refine Agree.bind (sub_agree _ _) fun c4 _ _ => ?_
        refine Agree.same fun z hz => ?_
        obtain ⟨cv', fb⟩ := z
        have hcv' := (bonusAt_same hz).trans hcv
        exact Agree.ite (fun _ => Agree.ok ⟨hcv', by simp only; omega⟩) fun _ => Agree.ok ⟨hcv', by simp only; omega⟩
      · obtain ⟨cv', bonus', cons⟩ := x
        exact mid cv' bonus' cons hx.1 hx.2
    · simp only [if_neg hgt]
      exact mid cv bonus (pv + 1) hcv (by omega)

/-! ### The matrices

In a release build the product of the sizes wraps around, and the area `L` is then smaller than the matrix: the rows are slices of
the first `L` cells of it. -/

theorem twoRows_eq {α : Type} {s : List α} {h w r : Nat} (hs : s.length = h * w) (hr : 1 ≤ r) (hrh : r < h) :
    Matrix.twoRows ⟨s, h, w⟩ (r - 1) r =
      .ok (((s.take (r * w)).take ((r - 1) * w + w)).drop ((r - 1) * w), (s.drop (r * w)).take w) := by
  have h1 : (r - 1) * w + w = r * w := by
    rw [← Nat.succ_mul]
    congr 1
    omega
  have h2 : r * w + w ≤ h * w := by rw [← Nat.succ_mul]; exact Nat.mul_le_mul_right w hrh
  unfold Matrix.twoRows Res.assert
  have : decide (r - 1 < r) = true := by simpa using (by omega : r - 1 < r)
  simp only [this, ite_true, Res.bind_ok]
  rw [sliceToR_of_le (by omega), sliceFromR_of_le (by omega)]
  simp only [Res.bind_ok]
  rw [sliceR_of_le (by omega) (by rw [List.length_take]; omega), sliceToR_of_le (by rw [List.length_drop]; omega)]
  rfl

theorem twoRows_take {α : Type} {s : List α} {h w r L : Nat} (hs : s.length = h * w) (hr : 1 ≤ r)
    (hL : L ≤ h * w) (hLb : L < 2 ^ B.bits) (hrL : r * w + w ≤ L) :
    twoRows B ⟨s.take L, h, w⟩ (r - 1) r =
      .ok (r * w, ((s.take (r * w)).take ((r - 1) * w + w)).drop ((r - 1) * w), (s.drop (r * w)).take w) := by
  have h1 : (r - 1) * w + w = r * w := by
    rw [← Nat.succ_mul]
    congr 1
    omega
  have hlen : (s.take L).length = L := by rw [List.length_take]; omega
  unfold twoRows Build.assert Res.assert
  have : decide (r - 1 < r) = true := by simpa using (by omega : r - 1 < r)
  simp only [this, ite_true, ite_self, Res.bind_ok, Res.pure_def]
  rw [usize_ok (by omega)]
  simp only [Res.bind_ok]
  rw [sliceToR_of_le (by omega), sliceFromR_of_le (by omega), usize_ok (by omega)]
  simp only [Res.bind_ok]
  rw [usize_ok (by omega)]
  simp only [Res.bind_ok]
  rw [sliceR_of_le (by omega) (by rw [List.length_take]; omega),
    sliceToR_of_le (by rw [List.length_drop]; omega)]
  simp only [Res.bind_ok]
  have e1 : (s.take L).take (r * w) = s.take (r * w) := by rw [List.take_take, Nat.min_eq_left (by omega)]
  have e2 : ((s.take L).drop (r * w)).take w = (s.drop (r * w)).take w := by
    rw [List.drop_take, List.take_take, Nat.min_eq_left (by omega)]
  rw [e1, e2]

theorem twoRows_panic {α : Type} {s : List α} {h w r L : Nat} (hs : s.length = h * w) (hr : 1 ≤ r)
    (hL : L ≤ h * w) (hLb : L < 2 ^ B.bits) (hrL : r * w ≤ L) (hrL' : L < r * w + w) :
    twoRows B ⟨s.take L, h, w⟩ (r - 1) r = .panic := by
  have h1 : (r - 1) * w + w = r * w := by
    rw [← Nat.succ_mul]
    congr 1
    omega
  have hlen : (s.take L).length = L := by rw [List.length_take]; omega
  unfold twoRows Build.assert Res.assert
  have : decide (r - 1 < r) = true := by simpa using (by omega : r - 1 < r)
  simp only [this, ite_true, ite_self, Res.bind_ok, Res.pure_def]
  rw [usize_ok (by omega)]
  simp only [Res.bind_ok]
  rw [sliceToR_of_le (by omega), sliceFromR_of_le (by omega), usize_ok (by omega)]
  simp only [Res.bind_ok]
  rw [usize_ok (by omega)]
  simp only [Res.bind_ok]
  rw [sliceR_of_le (by omega) (by rw [List.length_take]; omega)]
  simp only [Res.bind_ok]
  have : sliceToR ((s.take L).drop (r * w)) w = .panic := by
    unfold sliceToR
    rw [if_neg (by rw [List.length_drop]; omega)]
  rw [this]
  rfl

theorem setRowAt_take {α : Type} {s row : List α} {h w r L : Nat} (hs : s.length = h * w) (hrow : row.length = w)
    (hL : L ≤ h * w) (hrL : r * w + w ≤ L) :
    setRowAt ⟨s.take L, h, w⟩ (r * w) row =
      ⟨(s.take (r * w) ++ row ++ s.drop (r * w + w)).take L, h, w⟩ := by
  unfold setRowAt
  simp only [Matrix.mk.injEq, and_true]
  have hlen : (s.take (r * w) ++ row).length = r * w + w := by rw [List.length_append, List.length_take, hrow]; omega
  rw [List.take_take, Nat.min_eq_left (by omega), List.take_append, hlen,
    List.take_of_length_le (l := s.take (r * w) ++ row) (by omega), List.drop_take]

theorem length_setRow {α : Type} {s row : List α} {h w r : Nat} (hs : s.length = h * w) (hrow : row.length = w)
    (hrh : r < h) : (s.take (r * w) ++ row ++ s.drop (r * w + w)).length = h * w := by
  have h2 : r * w + w ≤ h * w := by rw [← Nat.succ_mul]; exact Nat.mul_le_mul_right w hrh
  simp only [List.length_append, List.length_take, List.length_drop, hrow, hs]
  omega

theorem remainingRowsLoop_agree (scheme : Scheme) (p : Pattern) (offs : List Nat) {h w L : Nat} (hL : L ≤ h * w)
    (hLP : L < h * w → P) (hLb : L < 2 ^ B.bits) (hh : h + 1 < 2 ^ B.bits) (hw : w + 1 < 2 ^ B.bits) :
    ∀ (n r : Nat) (ss : List Score) (sc : List Nat) (cv : CandidateV2) (mx : Score) (cell : Nat), r + n = h → 1 ≤ r →
    ss.length = h * w → sc.length = h * w → r * w ≤ L → (∀ v ∈ sc, v ≤ r) → cv.base.toChars.length = w →
    Agree P (fun x => x.1.slice.length = h * w ∧ x.1.width = w ∧ x.2.1.slice.length = h * w ∧ x.2.1.width = w ∧
        SameCv x.2.2.1 cv ∧ L = h * w)
      (remainingRowsLoop B U scheme p offs n r ⟨ss.take L, h, w⟩ ⟨sc.take L, h, w⟩ cv mx cell)
      (Norm.remainingRowsLoop U scheme p offs n r ⟨ss, h, w⟩ ⟨sc, h, w⟩ cv mx cell) := by
  intro n
  induction n with
  | zero =>
    intro r ss sc cv mx cell hrn _ hss hsc hrL _ _
    obtain rfl : r = h := by omega
    have : L = r * w := by omega
    unfold remainingRowsLoop Norm.remainingRowsLoop
    rw [List.take_of_length_le (by omega), List.take_of_length_le (by omega)]
    exact Agree.ok ⟨hss, rfl, hsc, rfl, SameCv.refl _, this⟩
  | succ n ih =>
    intro r ss sc cv mx cell hrn hr hss hsc hrL hv hbase
    have hrh : r < h := by omega
    have h2 : r * w + w ≤ h * w := by rw [← Nat.succ_mul]; exact Nat.mul_le_mul_right w hrh
    unfold remainingRowsLoop Norm.remainingRowsLoop
    dsimp only
    refine Agree.same fun pc _ => ?_
    refine Agree.skip (sub_ok hr) ?_
    rw [subR_of_le hr]
    simp only [Res.bind_ok]
    by_cases hrL' : r * w + w ≤ L
    · rw [twoRows_take hss hr hL hLb hrL', twoRows_eq hss hr hrh]
      simp only [Res.bind_ok, sub_ok hr]
      rw [twoRows_take hsc hr hL hLb hrL', twoRows_eq hsc hr hrh]
      simp only [Res.bind_ok]
      refine Agree.same fun first _ => ?_
      unfold CandidateV2.matchesFrom
      refine Agree.bind (candidateMatchesFrom_agree (by omega) _ _ _ _) fun os hos _ => ?_
      obtain ⟨ho1, ho2⟩ := hos
      rw [hbase] at ho1 ho2
      refine Agree.bind (rowLoop_agree scheme (N := w) (k := r) hw (by omega) (by omega) _ ?_ os _
        (fun o ho => Nat.le_of_lt (ho2 o ho)) ho1 ?_) fun st hst _ => ?_
      · intro v hv'
        exact hv v (List.mem_of_mem_take (List.mem_of_mem_take (List.mem_of_mem_drop hv')))
      · intro v hv'
        exact Nat.le_succ_of_le (hv v (List.mem_of_mem_drop (List.mem_of_mem_take hv')))
      obtain ⟨h3, h4, h5, h6, h7⟩ := hst
      simp only [List.length_take, List.length_drop] at h3 h4
      refine Agree.skip (usize_ok (by omega)) ?_
      refine Agree.bind (rowGap_agree _ _ _ _) fun x hx _ => ?_
      obtain ⟨row, pen⟩ := x
      simp only at hx ⊢
      rw [setRowAt_take hss (by omega) hL hrL', setRowAt_take hsc (by omega) hL hrL']
      refine (ih (r + 1) _ _ st.candidate _ _ (by omega) (by omega) (length_setRow hss (by omega) hrh)
        (length_setRow hsc (by omega) hrh) (by rw [Nat.succ_mul]; omega) ?_ (by rw [h6.base]; exact hbase)).mono ?_
      · intro v hv'
        simp only [List.mem_append] at hv'
        rcases hv' with (hv' | hv') | hv'
        · exact Nat.le_succ_of_le (hv v (List.mem_of_mem_take hv'))
        · exact h5 v hv'
        · exact Nat.le_succ_of_le (hv v (List.mem_of_mem_drop hv'))
      · rintro x - ⟨g1, g2, g3, g4, g5, g6⟩
        exact ⟨g1, g2, g3, g4, g5.trans h6, g6⟩
    · rw [twoRows_panic hss hr hL hLb hrL (by omega)]
      exact Agree.left (hLP (by omega))

theorem matrixAlloc_cases {α β : Type} {Q : β → Prop} {e : Elem} {fill : α} {vec : List α} {w h : Nat}
    (hl : vec.length ≤ B.limit e) (hlim : B.limit e < 2 ^ B.bits) (hg : P ∨ h * w ≤ B.limit e) (hpos : 0 < h * w)
    {f : List α × Matrix α → Res β} {y : Res β}
    (hf : ∀ vec' : List α, h * w % 2 ^ B.bits ≤ vec'.length → vec'.length ≤ B.limit e →
      (h * w % 2 ^ B.bits < h * w → P) →
      (h * w % 2 ^ B.bits = h * w → vec' = if h * w > vec.length then resize vec (h * w) fill else vec) →
      Agree P Q (f (vec', ⟨List.replicate (h * w % 2 ^ B.bits) fill, h, w⟩)) y) :
    Agree P Q (matrixAlloc B e fill vec w h >>= f) y := by
  have hLle : h * w % 2 ^ B.bits ≤ h * w := Nat.mod_le _ _
  have hLP : h * w % 2 ^ B.bits < h * w → P := by
    intro hlt
    refine hg.resolve_right fun h' => ?_
    rw [Nat.mod_eq_of_lt (by omega)] at hlt
    omega
  have body : ∀ (b : Bool), B.assert b = .ok () → B.usize (h * w) = .ok (h * w % 2 ^ B.bits) →
      b = decide (h * w % 2 ^ B.bits > 0) → Agree P Q (matrixAlloc B e fill vec w h >>= f) y := by
    intro b hb hu hbe
    unfold matrixAlloc
    simp only [hu, Res.bind_ok, Res.bind_assoc]
    rw [← hbe, hb]
    simp only [Res.bind_ok]
    refine ensure_agree hl (hg.imp_right fun h' => Nat.le_trans hLle h') fun h1 h2 => ?_
    have h3 := length_resize_ite vec (h * w % 2 ^ B.bits) fill
    rw [sliceToR_of_le h3]
    simp only [Res.bind_ok, Res.pure_def]
    have h4 : (((if h * w % 2 ^ B.bits > vec.length then resize vec (h * w % 2 ^ B.bits) fill else vec).take
        (h * w % 2 ^ B.bits)).map fun _ => fill) = List.replicate (h * w % 2 ^ B.bits) fill := by
      rw [List.map_const', List.length_take, Nat.min_eq_left h3]
    rw [h4]
    exact hf _ h3 h2 hLP fun he => by rw [he]
  by_cases hlt : h * w < 2 ^ B.bits
  · have hmod := Nat.mod_eq_of_lt hlt
    refine body true ?_ (by rw [hmod]; exact usize_ok hlt) (by simp [hmod, hpos])
    unfold Build.assert Res.assert
    cases B.debug <;> rfl
  · cases hd : B.debug with
    | true =>
      have : B.usize (h * w) = .panic := by
        unfold Build.usize
        rw [if_neg hlt]
        simp [hd]
      unfold matrixAlloc
      rw [this]
      refine Agree.left (hg.resolve_right fun h' => ?_)
      omega
    | false =>
      refine body (decide (h * w % 2 ^ B.bits > 0)) ?_ ?_ rfl
      · unfold Build.assert
        simp [hd]
      · unfold Build.usize
        rw [if_neg hlt]
        simp [hd]

theorem matrixAlloc_eq {α : Type} (fill : α) (vec : List α) {w h : Nat} (hpos : 0 < h * w) :
    Norm.matrixAlloc fill vec w h = .ok (if h * w > vec.length then resize vec (h * w) fill else vec,
      ⟨List.replicate (h * w) fill, h, w⟩) := by
  unfold Norm.matrixAlloc Res.assert
  have h3 := length_resize_ite vec (h * w) fill
  simp only [decide_eq_true hpos, ite_true, Res.bind_ok, gt_iff_lt]
  simp only [gt_iff_lt] at h3
  rw [sliceToR_of_le h3]
  simp only [Res.bind_ok, Res.pure_def, List.map_const', List.length_take, Nat.min_eq_left h3]

theorem matrixRow_take {α : Type} {s : List α} {h w L : Nat} (hs : s.length = h * w) (hL : L ≤ h * w)
    (hLb : L < 2 ^ B.bits) (hw : w < 2 ^ B.bits) :
    matrixRow B ⟨s.take L, h, w⟩ 0 = if w ≤ L then .ok (0 * w, s.take w) else .panic := by
  unfold matrixRow
  simp only [Nat.zero_mul]
  rw [usize_ok (by omega)]
  simp only [Res.bind_ok, Nat.zero_add]
  rw [usize_ok hw]
  simp only [Res.bind_ok]
  unfold sliceR
  have hlen : (s.take L).length = L := by rw [List.length_take]; omega
  by_cases h' : w ≤ L
  · rw [if_pos ⟨Nat.zero_le _, by omega⟩, if_pos h', List.take_take, Nat.min_eq_left h']
    rfl
  · rw [if_neg (by omega), if_neg h']
    rfl

theorem v2Score_agree (scheme : Scheme) {ss : List Score} {sc : List Nat} (p : Pattern) {cv : CandidateV2} (offs : List Nat)
    (hlim : B.limit .score < 2 ^ B.bits) (hlim' : B.limit .index < 2 ^ B.bits)
    (hp : p.text.length + 1 < 2 ^ B.bits) (hw : cv.base.toChars.length + 1 < 2 ^ B.bits)
    (hs : ss.length ≤ B.limit .score) (hc : sc.length ≤ B.limit .index)
    (hg : P ∨ (p.charLen * cv.base.toChars.length ≤ B.limit .score ∧
      p.charLen * cv.base.toChars.length ≤ B.limit .index)) :
    Agree P (fun x => x.1.length ≤ B.limit .score ∧ x.2.1.length ≤ B.limit .index ∧
        x.2.2.1.slice.length ≤ x.1.length ∧ x.2.2.2.1.slice.length ≤ x.2.1.length ∧
        x.2.2.1.slice.length = p.charLen * cv.base.toChars.length ∧
        x.2.2.2.1.slice.length = p.charLen * cv.base.toChars.length ∧
        x.2.2.1.width = cv.base.toChars.length ∧ x.2.2.2.1.width = cv.base.toChars.length ∧
        SameCv x.2.2.2.2.1 cv)
      (v2Score B U ss sc p cv offs scheme) (Norm.v2Score U ss sc p cv offs scheme) := by
  have hbl : cv.base.charLen = cv.base.toChars.length := Candidate.charLen_eq _
  have hpl : p.charLen = p.text.length := rfl
  unfold v2Score Norm.v2Score
  rw [hbl]
  dsimp only
  by_cases hpos : 0 < p.charLen * cv.base.toChars.length
  swap
  · have : Norm.matrixAlloc (0 : Score) ss cv.base.toChars.length p.charLen = .panic := by
      unfold Norm.matrixAlloc Res.assert
      simp only [gt_iff_lt, decide_eq_false hpos]
      rfl
    rw [this]
    exact Agree.right
  have hpp : 0 < p.charLen := Nat.pos_of_mul_pos_right hpos
  rw [matrixAlloc_eq _ _ hpos, Res.bind_ok]
  refine matrixAlloc_cases hs hlim (hg.imp_right And.left) hpos fun vs hvs hvs' hLP hvse => ?_
  simp only
  rw [matrixAlloc_eq _ _ hpos, Res.bind_ok]
  refine matrixAlloc_cases hc hlim' (hg.imp_right And.right) hpos fun vc hvc hvc' _ hvce => ?_
  simp only
  have hL : p.charLen * cv.base.toChars.length % 2 ^ B.bits ≤ p.charLen * cv.base.toChars.length := Nat.mod_le _ _
  have hLb : p.charLen * cv.base.toChars.length % 2 ^ B.bits < 2 ^ B.bits := Nat.mod_lt _ (Nat.two_pow_pos _)
  generalize hLe : p.charLen * cv.base.toChars.length % 2 ^ B.bits = L at *
  generalize hwe : cv.base.toChars.length = w at *
  generalize hhe : p.charLen = h at *
  have hwh : w ≤ h * w := Nat.le_mul_of_pos_left _ hpp
  have e1 : ∀ {α : Type} (a : α), List.replicate L a = (List.replicate (h * w) a).take L := by
    intro α a; rw [List.take_replicate, Nat.min_eq_left hL]
  rw [e1, e1, matrixRow_take (List.length_replicate) hL hLb (by omega)]
  by_cases hwL : w ≤ L
  swap
  · rw [if_neg hwL]
    exact Agree.left (hLP (by omega))
  rw [if_pos hwL]
  simp only [Res.bind_ok]
  rw [matrixRow_take (List.length_replicate) hL hLb (by omega), if_pos hwL]
  simp only [Res.bind_ok]
  have e2 : ∀ {α : Type} (a : α), Matrix.row ⟨List.replicate (h * w) a, h, w⟩ 0 = .ok ((List.replicate (h * w) a).take w) := by
    intro α a
    unfold Matrix.row
    simp only [Nat.zero_mul, Nat.zero_add]
    rw [sliceR_of_le (Nat.zero_le _) (by rw [List.length_replicate]; exact hwh)]
    rfl
  rw [e2, e2]
  simp only [Res.bind_ok]
  refine Agree.same fun pc _ => ?_
  refine Agree.bind (scoreFirstRow_agree scheme pc (by rw [hwe]; exact hw) ?_) fun x hx _ => ?_
  · intro v hv
    have := List.mem_of_mem_take hv
    rw [List.mem_replicate] at this
    omega
  obtain ⟨row, crow, cv', mx, cell⟩ := x
  obtain ⟨h1, h2, h3, h4⟩ := hx
  simp only [List.length_take, List.length_replicate, Nat.min_eq_left hwh] at h1 h2 h3 h4 ⊢
  rw [setRowAt_take List.length_replicate h1 hL (by omega), setRowAt_take List.length_replicate h2 hL (by omega)]
  refine Agree.bind (remainingRowsLoop_agree scheme p offs hL hLP hLb (by omega) hw (h - 1) 1 _ _ cv' mx cell (by omega)
    (Nat.le_refl _) (length_setRow List.length_replicate h1 hpp) (length_setRow List.length_replicate h2 hpp) (by omega) ?_
    (by rw [h4.base]; exact hwe)) fun y hy _ => ?_
  · intro v hv
    simp only [List.mem_append] at hv
    rcases hv with (hv | hv) | hv
    · have := List.mem_of_mem_take hv
      rw [List.mem_replicate] at this
      omega
    · exact h3 v hv
    · have := List.mem_of_mem_drop hv
      rw [List.mem_replicate] at this
      omega
  obtain ⟨s', c', cv'', mx', cell'⟩ := y
  obtain ⟨g1, g2, g3, g4, g5, g6⟩ := hy
  simp only at g1 g2 g3 g4 g5 ⊢
  rw [← hvse g6, ← hvce g6]
  exact Agree.ok ⟨hvs', hvc', by simp only; omega, by simp only; omega, g1, g3, g2, g4, g5.trans h4⟩

/-! ### `matched_ranges` -/

theorem byte_range {c : Candidate} {col : Nat} {ch : Char} {K start : Nat} (hch : c.char col = .ok ch)
    (hK : start + strLen c.toChars ≤ K) :
    col < c.toChars.length ∧ strLen (c.toChars.take col) + start + lenUtf8 ch ≤ K := by
  obtain ⟨hcol, hget⟩ : ∃ h : col < c.toChars.length, c.toChars[col] = ch := by
    rw [Candidate.char_eq] at hch
    exact List.getElem?_eq_some_iff.mp (getR_eq_ok.mp hch)
  refine ⟨hcol, ?_⟩
  have h1 := strLen_take_le c.toChars (col + 1)
  rw [List.take_succ_eq_append_getElem hcol, strLen_append, hget] at h1
  have : strLen [ch] = lenUtf8 ch := by simp [strLen, lenUtf8]
  omega

theorem tracebackLoop_agree {pre : List Range} {K : Nat} (hb : RBd B P true pre K) (hKb : K < 2 ^ B.bits) (ms : Matrix Score)
    (mc : Matrix Nat) (hcell : mc.slice.length + mc.width + 1 < 2 ^ B.bits) {c : Candidate} (hwf : c.WF) {start : Nat}
    (hK : start + strLen c.toChars ≤ K) : ∀ (fuel : Nat) (prefer : Bool) (cell col row : Nat) (m : MatchedRanges),
    RInv B pre K m →
    Agree P (RInv B pre K) (tracebackLoop B ms mc c start fuel prefer cell col row m)
      (Norm.tracebackLoop ms mc c start fuel prefer cell col row m) := by
  intro fuel
  induction fuel with
  | zero => intro prefer cell col row m _; exact Agree.right
  | succ fuel ih =>
    intro prefer cell col row m hm
    have hup : Agree P (fun _ => True) (upLeft B ms cell) (ms.upLeft cell) := by
      refine Agree.bind (sub_agree _ _) fun a _ _ => (sub_agree _ _).mono fun _ _ _ => trivial
    have hleft : Agree P (fun _ => True) (left B cell) (ms.left cell) := (sub_agree _ _).mono fun _ _ _ => trivial
    -- the choice made in an iteration
    have fin : ∀ (prefer' : Bool) (score sl sul : Score),
        Agree P (RInv B pre K)
        (if score > sul && (score > sl || (score == sl && prefer)) then do
            let byteOffset ← toByteOffset B c col
            let ch ← c.char col
            let byteOffset ← B.usize (byteOffset + start)
            let ranges ← rangesInsert B m ⟨byteOffset, ← B.usize (byteOffset + lenUtf8 ch)⟩
            if row == 0 || col == 0 then
              return ranges
            else
              tracebackLoop B ms mc c start fuel prefer' (← upLeft B ms cell) (← B.sub col 1) (← B.sub row 1) ranges
          else if col == 0 then
            return m
          else do
            tracebackLoop B ms mc c start fuel prefer' (← left B cell) (← B.sub col 1) row m)
        (if score > sul && (score > sl || (score == sl && prefer)) then do
            let byteOffset ← c.toByteOffset col
            let ch ← c.char col
            let byteOffset := byteOffset + start
            let ranges ← m.insert ⟨byteOffset, byteOffset + lenUtf8 ch⟩
            if row == 0 || col == 0 then
              return ranges
            else
              Norm.tracebackLoop ms mc c start fuel prefer' (← ms.upLeft cell) (← subR col 1) (← subR row 1) ranges
          else if col == 0 then
            return m
          else do
            Norm.tracebackLoop ms mc c start fuel prefer' (← ms.left cell) (← subR col 1) row m) := by
      intro prefer' score sl sul
      refine Agree.ite (fun _ => ?_) fun _ => Agree.ite (fun _ => Agree.ok hm) fun _ => ?_
      · refine Agree.bind (toByteOffset_agree hwf (by omega) col) fun bo hbo _ => ?_
        refine Agree.same fun ch hch => ?_
        obtain ⟨h1, h2⟩ := byte_range hch hK
        obtain rfl := hbo (Nat.le_of_lt h1)
        have hpos := lenUtf8_pos ch
        refine Agree.skip (usize_ok (by omega)) ?_
        refine Agree.skip (usize_ok (by omega)) ?_
        refine Agree.bind (insert_agree hb hm (by simp only; omega) (by simp only; omega)) fun m' hm' _ => ?_
        refine Agree.ite (fun _ => Agree.ok hm') fun _ => ?_
        refine Agree.bind hup fun a _ _ => ?_
        refine Agree.bind (sub_agree _ _) fun b _ _ => ?_
        refine Agree.bind (sub_agree _ _) fun d _ _ => ?_
        exact ih _ _ _ _ _ hm'
      · refine Agree.bind hleft fun a _ _ => ?_
        refine Agree.bind (sub_agree _ _) fun b _ _ => ?_
        exact ih _ _ _ _ _ hm
    unfold tracebackLoop Norm.tracebackLoop
    dsimp only
    rw [← res_ite_bind, ← res_ite_bind]
    refine Agree.bind (Q := fun _ => True) (Agree.ite (fun _ => Agree.ok trivial) fun _ => Agree.bind hleft fun a _ _ =>
      Agree.self _ fun _ _ => trivial) fun sl _ _ => ?_
    rw [← res_ite_bind, ← res_ite_bind]
    refine Agree.bind (Q := fun _ => True) (Agree.ite (fun _ => Agree.ok trivial) fun _ => Agree.bind hup fun a _ _ =>
      Agree.self _ fun _ _ => trivial) fun sul _ _ => ?_
    refine Agree.same fun this hthis => ?_
    have hc : cell < mc.slice.length := of_getR hthis
    by_cases hgt : this > 1
    · simp only [hgt, decide_true, Bool.true_or, Res.pure_def, Res.bind_ok]
      refine Agree.same fun score _ => ?_
      exact fin _ _ _ _
    · simp only [hgt, decide_false, Bool.false_or]
      refine Agree.skip ?_ (Agree.same fun score _ => fin _ _ _ _)
      unfold downRight Matrix.downRight
      rw [usize_ok (by omega)]
      simp only [Res.bind_ok]
      rw [usize_ok (by omega)]
      simp only [Res.bind_ok]
      cases mc.getValue (cell + mc.width + 1) <;> rfl

theorem v2MatchedRanges_agree {pre : List Range} {K : Nat} (hb : RBd B P true pre K) (hKb : K < 2 ^ B.bits) (ms : Matrix Score)
    (mc : Matrix Nat) (hcell : mc.slice.length + mc.width + 1 < 2 ^ B.bits) {c : Candidate} (hwf : c.WF) {start : Nat}
    (hK : start + strLen c.toChars ≤ K) (cell : Nat) {m : MatchedRanges} (hm : RInv B pre K m) :
    Agree P (RInv B pre K) (v2MatchedRanges B ms mc cell c start m) (Norm.v2MatchedRanges ms mc cell c start m) := by
  unfold v2MatchedRanges Norm.v2MatchedRanges
  refine Agree.same fun col _ => ?_
  refine Agree.same fun row _ => ?_
  exact tracebackLoop_agree hb hKb ms mc hcell hwf hK _ _ _ _ _ _ hm

theorem fuzzySingleChar_agree {pre : List Range} {K : Nat} (R : Bool) (hb : RBd B P R pre K) (hKb : K < 2 ^ B.bits) (pc : Char)
    {c : Candidate} (hwf : c.WF) (hK : strLen c.toChars ≤ K) (opts : CandidateOpts) (scheme : Scheme) {m : MatchedRanges}
    (hm : RInv B pre K m) :
    Agree P (fun x => RInv B pre K x.1) (fuzzySingleChar B U R pc c opts scheme m)
      (Norm.fuzzySingleChar U R pc c opts scheme m) := by
  have hlen := length_le_strLen c.toChars
  unfold fuzzySingleChar Norm.fuzzySingleChar
  refine Agree.bind (candidateMatches_agree (by omega) _ _ _) fun offs _ _ => ?_
  refine Agree.same fun x _ => ?_
  obtain ⟨mx, pos⟩ := x
  simp only
  refine Agree.ite (fun _ => Agree.ok hm) fun _ => ?_
  rw [← res_ite_bind, ← res_ite_bind]
  refine Agree.bind (Q := RInv B pre K) ?_ fun m' hm' _ => Agree.ok hm'
  refine Agree.ite (fun hR => ?_) fun _ => Agree.ok hm
  refine Agree.bind (toByteOffset_agree hwf (by omega) _) fun bo hbo _ => ?_
  refine Agree.same fun ch hch => ?_
  obtain ⟨h1, h2⟩ := byte_range (start := 0) hch (by rw [Nat.zero_add]; exact hK)
  obtain rfl := hbo (Nat.le_of_lt h1)
  have hpos := lenUtf8_pos ch
  refine Agree.skip (usize_ok (by omega)) ?_
  exact insert_agree (hR ▸ hb) hm (by simp only; omega) (by simp only; omega)

theorem shiftOffsets_agree (first : Nat) : ∀ l : List Nat,
    Agree P (fun r => r.length = l.length) (shiftOffsets B first l) (Norm.shiftOffsets first l) := by
  intro l
  induction l with
  | nil => exact Agree.ok rfl
  | cons o l ih =>
    unfold shiftOffsets Norm.shiftOffsets
    refine Agree.bind (sub_agree _ _) fun a _ _ => ?_
    refine Agree.bind ih fun r hr _ => ?_
    exact Agree.ok (by simp [hr])

/-! ### `fuzzy` -/

/-- What holds of every `FzfV2` in a build. -/
structure InvV2 (B : Build) (m : FzfV2) : Prop where
  chars : m.candidateSlab.length ≤ B.limit .char
  bonus : m.slab.bonus.length ≤ B.limit .bonus
  consecutive : m.slab.consecutiveMatrix.length ≤ B.limit .index
  indices : m.slab.matchedIndices.length ≤ B.limit .index
  scores : m.slab.scoringMatrix.length ≤ B.limit .score
  scheme : ∃ S : FzfScheme, m.scoringScheme = S.intoInner

/-- The vectors needed by a fuzzy pattern of not just one character can be allocated: an index for each of its characters, and
if it matches, a bonus for each character of the window and a cell for each pair of one of each. -/
def fitsV2 (B : Build) (eq : CharEq) (p : Pattern) (s : List Char) : Prop :=
  p.charLen ≠ 1 → p.charLen ≤ B.limit .index ∧ ∀ g, greedyFrom eq s p.text 0 = some g →
    (v2Window eq p.text s g).2 - (v2Window eq p.text s g).1 ≤ B.limit .bonus ∧
    p.charLen * ((v2Window eq p.text s g).2 - (v2Window eq p.text s g).1) ≤ B.limit .score ∧
    p.charLen * ((v2Window eq p.text s g).2 - (v2Window eq p.text s g).1) ≤ B.limit .index

theorem length_writeBack {α : Type} {l s : List α} (h : s.length ≤ l.length) : (writeBack l s).length = l.length := by
  unfold writeBack
  rw [List.length_append, List.length_drop]
  omega

theorem matches_none {c : Candidate} (hwf : c.WF) {p : Pattern} (hp : p.text ≠ []) {sens norm : Bool} {ind ind' offs : List Nat}
    (h : Norm.v2Matches ind p c (CandidateOpts.new sens norm) = .ok (ind', offs, none)) :
    greedyFrom (charEq sens norm) c.toChars p.text 0 = none := by
  obtain ⟨ind'', offs', h1, h2⟩ := v2Matches_eq hwf p hp sens norm ind
  rw [h1] at h
  cases hg : greedyFrom (charEq sens norm) c.toChars p.text 0 with
  | none => rfl
  | some g =>
    obtain ⟨rfl, h3⟩ := h2 g hg
    obtain ⟨j, hj⟩ := Option.isSome_iff_exists.mp h3
    rw [hg, hj] at h
    simp at h

theorem matches_some {c : Candidate} (hwf : c.WF) {p : Pattern} (hp : p.text ≠ []) {sens norm : Bool} {ind ind' offs : List Nat}
    {last first : Nat} (h : Norm.v2Matches ind p c (CandidateOpts.new sens norm) = .ok (ind', offs, some last))
    (h0 : getR offs 0 = .ok first) :
    greedyFrom (charEq sens norm) c.toChars p.text 0 = some offs ∧
      v2Window (charEq sens norm) p.text c.toChars offs = (first, last) := by
  obtain ⟨ind'', offs', h1, h2⟩ := v2Matches_eq hwf p hp sens norm ind
  rw [h1] at h
  cases hg : greedyFrom (charEq sens norm) c.toChars p.text 0 with
  | none => rw [hg] at h; simp at h
  | some g =>
    obtain ⟨rfl, h3⟩ := h2 g hg
    rw [hg] at h
    simp only [Res.ok.injEq, Prod.mk.injEq] at h
    obtain ⟨_, rfl, h4⟩ := h
    obtain ⟨_, j, hj, hj'⟩ := windowOk hp hg
    have h8 : p.text.getLastD 'a' = p.text.getLast hp := getLastD_of_ne _ hp
    rw [h8] at hj
    rw [hj] at h4
    simp only [Option.map_some, Option.some.injEq] at h4
    have h9 : (v2Window (charEq sens norm) p.text c.toChars offs').1 = first := by
      have := getR_eq_ok.mp h0
      cases offs' with
      | nil => simp at this
      | cons a l => simpa [v2Window] using this
    exact ⟨rfl, Prod.ext h9 (hj'.trans h4)⟩

theorem matches_nil (ind : List Nat) {p : Pattern} (hp : p.text = []) (c : Candidate) (opts : CandidateOpts) :
    Norm.v2Matches ind p c opts = .panic := by
  unfold Norm.v2Matches
  cases Norm.indicesAlloc ind p.charLen with
  | panic => rfl
  | ok x =>
    simp only [Res.bind_ok]
    have : p.char 0 = .panic := by unfold Pattern.char; rw [hp]; rfl
    unfold Norm.matchesLoop
    rw [this]
    rfl

theorem fuzzyV2_agree (hB : Spec.BuildOk B) (hM : 2 * 2 ^ (B.bits - 1) = 2 ^ B.bits) {self : FzfV2} {p : Pattern} {c : Candidate}
    {m : MatchedRanges} {pre : List Range} {K : Nat} (hs : InvV2 B self) (hp : p.text.length < 2 ^ (B.bits - 1)) (hwf : c.WF)
    (hK : strLen c.toChars ≤ K) (hK' : K < 2 ^ (B.bits - 1)) (R : Bool) (hb : RBd B P R pre K) (hm : RInv B pre K m)
    (hf : P ∨ fitsV2 B (charEq (isSensitive self.caseSensitivity p) self.candidateNormalization) p c.toChars) :
    Agree P (fun x => (InvV2 B x.1 ∧ RInv B pre K x.2.1) ∧
        fitsV2 B (charEq (isSensitive self.caseSensitivity p) self.candidateNormalization) p c.toChars)
      (fuzzyV2 B U R self p c m) (FzfV2.fuzzy U R self p c m) := by
  have hlen := length_le_strLen c.toChars
  have hl1 := hB.hi .index
  have hl2 := hB.hi .score
  unfold fuzzyV2 FzfV2.fuzzy
  dsimp only
  refine Agree.ite (fun h1 => ?_) fun h1 => ?_
  · refine Agree.same fun pc _ => ?_
    refine Agree.bind (fuzzySingleChar_agree R hb (by omega) pc hwf hK _ _ hm) fun x hx _ => ?_
    exact Agree.ok ⟨⟨hs, hx⟩, fun h => absurd (beq_iff_eq.mp h1) h⟩
  replace hf := hf.imp_right fun h => h (by simpa using h1)
  by_cases hp0 : p.text = []
  · rw [matches_nil _ hp0]; exact Agree.right
  refine Agree.bind (v2Matches_agree p (by omega) (by omega) _ hs.indices (hf.imp_right fun h => h.1)) fun x hx hxm => ?_
  obtain ⟨ind, offs, last⟩ := x
  obtain ⟨h1, h2, hpi⟩ := hx
  simp only at h1 h2 ⊢
  cases last with
  | none =>
    refine Agree.ok ⟨⟨⟨hs.chars, hs.bonus, hs.consecutive, ?_, hs.scores, hs.scheme⟩, hm⟩, fun _ => ⟨hpi, fun g hg => by
      rw [matches_none hwf hp0 hxm] at hg; cases hg⟩⟩
    simp only [length_writeBack h2]
    exact h1
  | some last =>
    simp only
    refine Agree.same fun first hfirst => ?_
    obtain ⟨hgr, hwi⟩ := matches_some hwf hp0 hxm hfirst
    replace hf := hf.imp_right fun h => h.2 _ hgr
    rw [hwi] at hf
    simp only at hf
    rw [← res_ite_bind, ← res_ite_bind]
    refine Agree.bind (Q := fun r => first ≤ c.toChars.length → r ≤ strLen (c.toChars.take first)) ?_ fun start hstart _ => ?_
    · refine Agree.ite (fun _ => ?_) fun _ => Agree.ok fun _ => Nat.zero_le _
      exact (toByteOffset_agree hwf (by omega) _).mono fun r _ hr ho => Nat.le_of_eq (hr ho)
    rw [← res_ite_bind, ← res_ite_bind]
    refine Agree.same fun cls _ => ?_
    refine Agree.same fun base hbase => ?_
    obtain ⟨g1, g2, g3, g4⟩ := of_slice hwf hbase
    simp only at g1 g2 g4
    have hst := hstart (by omega)
    have hwin := strLen_window (s := c.toChars) g1
    have htk := strLen_take_le c.toChars last
    rw [← g4] at hwin
    have hbl : base.charLen = base.toChars.length := Candidate.charLen_eq _
    have hbn : base.toChars.length = last - first := by
      rw [g4, List.length_drop, List.length_take]; omega
    refine Agree.bind (bonusAlloc_agree hs.bonus (hf.imp_right fun h => by have := h.1; omega)) fun x hx _ => ?_
    obtain ⟨bs, bonuses⟩ := x
    obtain ⟨b1, b2, b3⟩ := hx
    simp only at b1 b2 b3 ⊢
    refine Agree.bind (shiftOffsets_agree first offs) fun offs' hoffs' _ => ?_
    refine Agree.bind (v2Score_agree self.scoringScheme p offs' (cv := ⟨bonuses, base, cls, _⟩) (by omega) (by omega) (by omega)
      (by simp only; omega) hs.scores hs.consecutive
      (hf.imp_right fun h => by simp only [hbn]; exact h.2)) fun x hx _ => ?_
    obtain ⟨vs, vc, ms, mc, cv, sc, cell⟩ := x
    obtain ⟨s1, s2, s3, s4, t1, t2, s5, s6, s7⟩ := hx
    simp only at s1 s2 s3 s4 t1 t2 s5 s6 s7 ⊢
    rw [← res_ite_bind, ← res_ite_bind]
    refine Agree.bind (Q := RInv B pre K) ?_ fun m' hm' _ => ?_
    · refine Agree.ite (fun hR => ?_) fun _ => Agree.ok hm
      have hcb : cv.base = base := s7.base
      rw [hcb]
      exact v2MatchedRanges_agree (hR ▸ hb) (by omega) ms mc (by rw [s6]; omega) g3 (by omega) cell hm
    · refine Agree.ok ⟨⟨⟨hs.chars, ?_, ?_, ?_, ?_, hs.scheme⟩, hm'⟩, fun _ => ⟨hpi, fun g hg => ?_⟩⟩
      · have := s7.len
        simp only at this ⊢
        rw [length_writeBack (by omega)]
        exact b1
      · simp only [length_writeBack s4]; exact s2
      · simp only
        rw [length_writeBack (by omega)]
        exact h1
      · simp only [length_writeBack s3]; exact s1
      · rw [hgr] at hg
        obtain rfl := Option.some.inj hg
        rw [hwi, ← hbn]
        exact ⟨by omega, by omega, by omega⟩

theorem implV2_agree (hB : Spec.BuildOk B) (hM : 2 * 2 ^ (B.bits - 1) = 2 ^ B.bits) :
    ImplAgree B P (implV2 B U) (FzfV2.impl U) (InvV2 B) (fitsV2 B) where
  charEq := rfl
  scheme := rfl
  bonus := by
    intro self h x y
    obtain ⟨S, hS⟩ := h.scheme
    simp only [FzfV2.impl, hS]
    exact computeBonus_nonneg S x y
  alloc := by
    intro self s h hs hg
    have := hB.hi .char
    refine Agree.bind (candidateAlloc_agree (by omega) h.chars hg) fun x hx _ => ?_
    obtain ⟨slab, chars⟩ := x
    exact Agree.ok ⟨⟨hx.1, h.bonus, h.consecutive, h.indices, h.scores, h.scheme⟩, hx.2⟩
  fuzzy := by
    intro self p c m pre K h hp hwf hK hK' R hb hm hf
    exact fuzzyV2_agree hB hM h hp hwf hK hK' R hb hm hf

end Norm.Usize
