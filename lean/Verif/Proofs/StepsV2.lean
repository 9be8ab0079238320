import Verif.Proofs.StepsV1

/-! How many steps FzfV2's `fuzzy` takes. -/

namespace Norm

open Timed

/-! ### Lists of offsets -/

/-- The elements ascend, from `lo` on and below `hi`. -/
def Asc : (lo hi : Nat) → List Nat → Prop
  | lo, hi, [] => lo ≤ hi
  | lo, hi, a :: l => lo ≤ a ∧ Asc (a + 1) hi l

theorem Asc.le {hi : Nat} : ∀ {l : List Nat} {lo : Nat}, Asc lo hi l → lo ≤ hi
  | [], _, h => h
  | _ :: _, _, h => by have := Asc.le h.2; have := h.1; omega

theorem Asc.mono {hi : Nat} : ∀ {l : List Nat} {lo lo' : Nat}, lo' ≤ lo → Asc lo hi l → Asc lo' hi l
  | [], _, _, h, hl => Nat.le_trans h hl
  | _ :: _, _, _, h, hl => ⟨Nat.le_trans h hl.1, hl.2⟩

theorem Asc.length {hi : Nat} : ∀ {l : List Nat} {lo : Nat}, Asc lo hi l → l.length ≤ hi - lo
  | [], _, _ => Nat.zero_le _
  | _ :: _, _, h => by have h1 := Asc.length h.2; have h2 := h.1; have := Asc.le h.2; rw [List.length_cons]; omega

theorem Asc.lt {hi : Nat} : ∀ {l : List Nat} {lo : Nat}, Asc lo hi l → ∀ o ∈ l, o < hi
  | [], _, _, _, h => nomatch h
  | a :: l, _, h, o, ho => by
    have := Asc.le h.2
    rcases List.mem_cons.mp ho with rfl | ho
    · omega
    · exact Asc.lt h.2 o ho

theorem Asc.map {hi s : Nat} : ∀ {l : List Nat} {lo : Nat}, Asc lo hi l → Asc (s + lo) (s + hi) (l.map (fun o => s + o))
  | [], _, h => by show _ ≤ _; have : _ ≤ _ := h; omega
  | a :: l, _, h => ⟨Nat.add_le_add_left h.1 s, Asc.map (s := s) h.2⟩

theorem allIdxFrom_asc {α : Type} (p : α → Bool) : ∀ (l : List α) (off : Nat), Asc off (off + l.length) (Norm.allIdxFrom p l off) := by
  intro l
  induction l with
  | nil => intro off; exact Nat.le_refl _
  | cons a l ih =>
    intro off
    have h : Asc (off + 1) (off + (a :: l).length) (Norm.allIdxFrom p l (off + 1)) := by
      have := ih (off + 1)
      rw [List.length_cons, show off + (l.length + 1) = off + 1 + l.length by omega]
      exact this
    unfold Norm.allIdxFrom
    split
    · exact ⟨Nat.le_refl _, h⟩
    · exact h.mono (by omega)

theorem collect_asc (fuel : Nat) : ∀ (it : UnicodeMatches),
    OkAll (Asc it.offset (it.offset + it.haystack.length)) (UnicodeMatches.collect fuel it) := by
  induction fuel with
  | zero => intro it; exact .panic
  | succ fuel ih =>
    intro it
    unfold UnicodeMatches.collect
    refine OkAll.bind' (Q := fun x => ∀ i it', x = some (i, it') → it.offset ≤ i ∧ it'.offset = i + 1 ∧
      i + 1 + it'.haystack.length = it.offset + it.haystack.length) ?_ fun x hx => ?_
    · unfold UnicodeMatches.next
      cases h : it.haystack.findIdx? (fun ch => it.eq it.needle ch) with
      | none => exact .ok (fun _ _ h => nomatch h)
      | some i =>
        refine (sliceFromR_len _ _).bind' fun l hl => .pure fun i' it' h => ?_
        cases h
        exact ⟨by omega, rfl, by dsimp only; omega⟩
    · cases x with
      | none => exact .pure (Nat.le_add_right _ _)
      | some y =>
        obtain ⟨i, it'⟩ := y
        obtain ⟨h1, h2, h3⟩ := hx i it' rfl
        refine (ih it').bind' fun l hl => .pure ⟨h1, ?_⟩
        rw [← h3, ← h2]
        exact hl

theorem matchesAscii_asc (ch : Char) (l : List UInt8) (s : Bool) (off : Nat) :
    OkAll (Asc off (off + l.length)) (Candidate.matchesAscii ch l s off) := by
  unfold Candidate.matchesAscii
  refine .ite ?_ (.ok ?_)
  · have : UnicodeMatches.collect 1 ⟨ch, [], charEq false false, 0⟩ = .ok [] := rfl
    rw [this]
    exact .ok (Nat.le_add_right _ _)
  · have := (allIdxFrom_asc (asciiNeedle (charToByte ch) s) l 0).map (s := off)
    rwa [Nat.zero_add, Nat.add_zero] at this

theorem matchesUnicode_asc (ch : Char) (l : List Char) (eq : CharEq) (off : Nat) :
    OkAll (Asc off (off + l.length)) (Candidate.matchesUnicode ch l eq off) := by
  unfold Candidate.matchesUnicode
  refine (collect_asc _ _).bind' fun x hx => .pure ?_
  have := Asc.map (s := off) hx
  rwa [Nat.zero_add, Nat.add_zero] at this

theorem matches_asc (c : Candidate) (ch : Char) (s : Bool) (eq : CharEq) : OkAll (Asc 0 c.charLen) (c.matches ch s eq) := by
  cases c with
  | ascii bs => have := matchesAscii_asc ch bs s 0; rwa [Nat.zero_add] at this
  | unicode cs => have := matchesUnicode_asc ch cs eq 0; rwa [Nat.zero_add] at this

theorem matchesFrom_asc (c : Candidate) (off : Nat) (ch : Char) (s : Bool) (eq : CharEq) :
    OkAll (Asc off c.charLen) (c.matchesFrom off ch s eq) := by
  cases c with
  | ascii bs =>
    refine (sliceFromR_len bs off).bind' fun l h => ?_
    have := matchesAscii_asc ch l s off
    rwa [show off + l.length = bs.length by omega] at this
  | unicode cs =>
    refine (sliceFromR_len cs off).bind' fun l h => ?_
    have := matchesUnicode_asc ch l eq off
    rwa [show off + l.length = cs.length by omega] at this

/-! ### `matches` -/

theorem matchesLoop_steps (p : Pattern) (c : Candidate) (o : CandidateOpts) : ∀ (fuel : Nat) (l : List Nat) (i off : Nat),
    (Timed.matchesLoop p c o fuel l i off).steps ≤ 3 * (c.charLen - off) + 1 := by
  intro fuel
  induction fuel with
  | zero => intro l i off; exact Nat.zero_le _
  | succ fuel ih =>
    intro l i off
    unfold Timed.matchesLoop
    rw [steps_tick_bind]
    refine Nat.le_trans (Nat.add_le_add_left (free_le (b := 3 * (c.charLen - off)) fun ch _ => ?_) _) (by omega)
    have h := findFirstFrom_steps c off ch o.isCaseSensitive o.charEq
    refine bind_le_of (by omega) fun v hv => ?_
    rw [res_findFirstFrom] at hv
    cases v with
    | none => simp only [steps_pure]; omega
    | some e =>
      obtain ⟨h1, h2, h3⟩ := h.2 _ hv e rfl
      have : (Timed.set l i e >>= fun matchOffsets =>
        if i + 1 < p.charLen then Timed.matchesLoop p c o fuel matchOffsets (i + 1) (e + 1)
        else (pure (matchOffsets, some i) : Timed (List Nat × Option Nat))).steps ≤ 1 + (3 * (c.charLen - (e + 1)) + 1) :=
        bind_le (a := 1) (Nat.le_refl _) (fun w _ => ite_le (fun _ => ih w _ _) (fun _ => Nat.zero_le _)) (Nat.le_refl _)
      dsimp only
      omega

/-- Growing the buffer of the offsets. -/
def growth (l : List Nat) (n : Nat) : Nat := if n > l.length then n else 0

theorem growth_le (l : List Nat) (n : Nat) : growth l n ≤ n := by unfold growth; split <;> omega

theorem v2Matches_steps (l : List Nat) (p : Pattern) (c : Candidate) (o : CandidateOpts) :
    (Timed.v2Matches l p c o).steps ≤ growth l p.charLen + (4 * c.charLen + 2) ∧
    ∀ x, (Timed.v2Matches l p c o).res = .ok x → x.2.2 = none →
      (Timed.v2Matches l p c o).steps ≤ growth l p.charLen + (3 * c.charLen + 1) := by
  unfold Timed.v2Matches
  constructor
  · refine bind_le (indicesAlloc_steps ..) (fun x _ => bind_le (matchesLoop_steps ..) (b := c.charLen + 1) (fun y _ => ?_) ?_) (Nat.le_refl _)
    · obtain ⟨y1, y2⟩ := y
      cases y2 with
      | none => exact Nat.zero_le _
      | some i =>
        dsimp only
        rw [steps_tick_bind, Nat.add_comm]
        refine Nat.add_le_add_right (free_le fun ch _ => bind_le (findLast_steps ..) (b := 0)
          (fun v _ => free_le fun _ _ => Nat.le_refl _) (Nat.le_refl _)) _
    · omega
  · intro x hx hn
    refine bind_le (indicesAlloc_steps ..) (b := 3 * c.charLen + 1) (fun a ha => ?_) (Nat.le_refl _)
    rw [res_bind, ha, Res.bind_ok] at hx
    refine bind_le (matchesLoop_steps ..) (b := 0) (fun y hy => ?_) (by omega)
    obtain ⟨y1, y2⟩ := y
    rw [res_bind, hy, Res.bind_ok] at hx
    cases y2 with
    | none => exact Nat.le_refl _
    | some i =>
      exfalso
      dsimp only at hx
      simp only [res_bind, res_tick, res_free, res_findLast, Res.bind_ok, res_pure] at hx
      obtain ⟨ch, _, hx⟩ := Res.bind_eq_ok.mp hx
      obtain ⟨e, _, hx⟩ := Res.bind_eq_ok.mp hx
      cases hx
      cases hn

/-! ### The matrix -/

theorem bonusAt_base (U : Unicode) (c : CandidateV2) (i : Nat) (S : Scheme) :
    OkAll (fun x => x.1.base = c.base ∧ x.1.opts = c.opts) (c.bonusAt U i S) := by
  unfold CandidateV2.bonusAt
  refine .bind fun b => .ite (.pure ⟨rfl, rfl⟩) ?_
  refine .ite (.bind fun _ => .bind fun _ => ?_) (.bind fun _ => .bind fun _ => ?_)
  all_goals exact .bind fun l => .pure ⟨rfl, rfl⟩

theorem firstRowGap_steps (n : Nat) : ∀ (col : Nat) (row : List Score) (s t : Score), (Timed.firstRowGap n col row s t).steps ≤ n := by
  induction n with
  | zero => intro col row s t; exact Nat.le_refl _
  | succ n ih =>
    intro col row s t
    exact bind_le (a := 1) (Nat.le_refl _) (fun v _ => ih _ v _ _) (by omega)

theorem firstRowLoop_steps (U : Unicode) (S : Scheme) (hi : Nat) : ∀ (l : List Nat) (st : FirstRowState) (lo : Nat), Asc lo hi l →
    lo ≤ st.column + 1 → (Timed.firstRowLoop U S l st).steps ≤ 6 * (hi - lo) := by
  intro l
  induction l with
  | nil => intro st lo _ _; exact Nat.zero_le _
  | cons o l ih =>
    intro st lo h hc
    have hle := h.2.le
    have h1 := h.1
    unfold Timed.firstRowLoop
    refine bind_le (firstRowGap_steps ..) (b := 6 + 6 * (hi - (o + 1))) (fun x _ => ?_) (by omega)
    obtain ⟨x1, x2, x3⟩ := x
    refine bind_le (a := 1) (Nat.le_refl _) (b := 5 + 6 * (hi - (o + 1))) (fun cs _ => ?_) (by omega)
    refine bind_le (bonusAt_steps ..) (b := 1 + 6 * (hi - (o + 1))) (fun y _ => ?_) (by omega)
    refine bind_le (a := 1) (Nat.le_refl _) (b := 6 * (hi - (o + 1))) (fun sc _ => ?_) (by omega)
    exact ih _ _ h.2 (Nat.le_refl _)

theorem firstRowLoop_post (U : Unicode) (S : Scheme) (B : Nat) (l : List Nat) : ∀ (st : FirstRowState), (∀ o ∈ l, o < B) →
    st.maxScoreCol < B → OkAll (fun x => x.candidate.base = st.candidate.base ∧ x.maxScoreCol < B) (Norm.firstRowLoop U S l st) := by
  induction l with
  | nil => intro st _ h; exact .ok ⟨rfl, h⟩
  | cons o l ih =>
    intro st ho h
    unfold Norm.firstRowLoop
    refine .bind fun x => ?_
    obtain ⟨x, y, z⟩ := x
    dsimp only
    refine .bind fun cs => ?_
    refine (bonusAt_base U st.candidate o S).bind' fun c hc => ?_
    refine .bind fun sc => ?_
    refine (ih _ (fun o' ho' => ho o' (by simp [ho'])) ?_).mono fun v hv => ⟨hv.1.trans hc.1, hv.2⟩
    dsimp only
    split
    · exact ho o (by simp)
    · exact h

theorem scoreFirstRow_steps (U : Unicode) (row : List Score) (crow : List Nat) (ch : Char) (c : CandidateV2) (S : Scheme) :
    (Timed.scoreFirstRow U row crow ch c S).steps ≤ 7 * c.base.charLen + row.length := by
  unfold Timed.scoreFirstRow
  refine bind_le (matches_steps ..) (b := 6 * c.base.charLen + row.length) (fun offs ho => ?_) (by omega)
  rw [res_matches] at ho
  refine bind_le (firstRowLoop_steps U S c.base.charLen offs _ 0 (matches_asc _ _ _ _ _ ho) (Nat.zero_le _)) (b := row.length)
    (fun st hst => ?_) (by omega)
  rw [res_firstRowLoop] at hst
  have := (firstRowLoop_len U S offs _ _ hst).1
  dsimp only at this
  exact bind_le (firstRowGap_steps ..) (b := 0) (fun _ _ => Nat.le_refl _) (by omega)

theorem scoreFirstRow_post (U : Unicode) (row : List Score) (crow : List Nat) (ch : Char) (c : CandidateV2) (S : Scheme)
    (h : 0 < c.base.charLen) :
    OkAll (fun x => x.2.2.1.base = c.base ∧ x.2.2.2.2 < c.base.charLen) (Norm.scoreFirstRow U row crow ch c S) := by
  unfold Norm.scoreFirstRow
  refine (matches_asc c.base ch _ _).bind' fun offs ho => ?_
  refine (firstRowLoop_post U S c.base.charLen offs _ ho.lt h).bind' fun st hst => ?_
  exact .bind fun x => .pure hst

theorem rowGap_steps (n : Nat) : ∀ (col : Nat) (row : List Score) (t : Score), (Timed.rowGap n col row t).steps ≤ 2 * n := by
  induction n with
  | zero => intro col row t; exact Nat.le_refl _
  | succ n ih =>
    intro col row t
    exact free_le fun i _ => bind_le (a := 1) (Nat.le_refl _) (b := 1 + 2 * n)
      (fun _ _ => bind_le (a := 1) (Nat.le_refl _) (fun v _ => ih _ v _) (Nat.le_refl _)) (by omega)

theorem rowLoop_steps (U : Unicode) (S : Scheme) (w i : Nat) (ps : List Score) (pc : List Nat) (hi : Nat) : ∀ (l : List Nat)
    (st : RowState) (lo : Nat), Asc lo hi l → lo ≤ st.column + 1 → (Timed.rowLoop U S w i ps pc l st).steps ≤ 17 * (hi - lo) := by
  intro l
  induction l with
  | nil => intro st lo _ _; exact Nat.zero_le _
  | cons o l ih =>
    intro st lo h hc
    have hle := h.2.le
    have h1 := h.1
    unfold Timed.rowLoop
    refine bind_le (rowGap_steps ..) (b := 17 + 17 * (hi - (o + 1))) (fun x _ => ?_) (by omega)
    obtain ⟨x1, x2⟩ := x
    refine free_le fun i1 _ => bind_le (a := 1) (Nat.le_refl _) (b := 16 + 17 * (hi - (o + 1))) (fun left _ => ?_) (by omega)
    refine free_le fun i2 _ => bind_le (a := 1) (Nat.le_refl _) (b := 15 + 17 * (hi - (o + 1))) (fun up _ => ?_) (by omega)
    refine bind_le (bonusAt_steps ..) (b := 11 + 17 * (hi - (o + 1))) (fun y _ => ?_) (by omega)
    obtain ⟨y1, y2⟩ := y
    refine free_le fun i3 _ => bind_le (a := 1) (Nat.le_refl _) (b := 10 + 17 * (hi - (o + 1))) (fun prev _ => ?_) (by omega)
    have last : ∀ (z : CandidateV2 × Score × Nat) (k : CandidateV2 × Score × Nat → Timed RowState),
        (∀ z, (k z).steps ≤ 2 + 17 * (hi - (o + 1))) → ∀ (b s t : Score), (if b < s then
          (Timed.bonusAt U z.1 o S >>= fun x => (pure (x.1, t + x.2, 0) : Timed (CandidateV2 × Score × Nat))) >>= k
          else (pure (z.1, b, z.2.2) : Timed (CandidateV2 × Score × Nat)) >>= k).steps ≤ 6 + 17 * (hi - (o + 1)) := by
      intro z k hk b s t
      refine ite_le (fun _ => ?_) (fun _ => ?_)
      · exact bind_le (a := 4) (bind_le (bonusAt_steps ..) (b := 0) (fun _ _ => Nat.le_refl _) (Nat.le_refl _)) (fun z _ => hk z) (by omega)
      · rw [steps_pure_bind]; exact Nat.le_trans (hk _) (by omega)
    have fin : ∀ (z : CandidateV2 × Score × Nat) (x : Score), (do
        let consecutives ← Timed.set st.consecutives o z.2.2
        let scores ← Timed.set x1 o (max x z.2.1)
        Timed.rowLoop U S w i ps pc l {
          scores := scores, consecutives := consecutives, candidate := z.1
          maxScore := (if max x z.2.1 > st.maxScore then (max x z.2.1, i * w + o) else (st.maxScore, st.maxScoreCell)).1
          maxScoreCell := (if max x z.2.1 > st.maxScore then (max x z.2.1, i * w + o) else (st.maxScore, st.maxScoreCell)).2
          column := o, penalty := x2 }).steps ≤ 2 + 17 * (hi - (o + 1)) := by
      intro z x
      refine bind_le (a := 1) (Nat.le_refl _) (b := 1 + 17 * (hi - (o + 1))) (fun cs _ => ?_) (by omega)
      refine bind_le (a := 1) (Nat.le_refl _) (b := 17 * (hi - (o + 1))) (fun sc _ => ?_) (by omega)
      exact ih _ _ h.2 (Nat.le_refl _)
    refine ite_le (fun _ => ?_) (fun _ => ?_)
    · refine bind_le (a := 4) (free_le fun j _ => bind_le (bonusAt_steps ..) (b := 0) (fun q _ => ?_) (Nat.le_refl _)) (fun z _ => ?_)
        (b := 6 + 17 * (hi - (o + 1))) (by omega)
      · exact ite_le (fun _ => Nat.le_refl _) (fun _ => Nat.le_refl _)
      · exact last z _ (fun z => fin z _) _ _ _
    · rw [steps_pure_bind]
      exact Nat.le_trans (last (y1, y2, prev + 1) _ (fun z => fin z _) _ _ _) (by omega)

theorem rowLoop_post (U : Unicode) (S : Scheme) (w i : Nat) (ps : List Score) (pc : List Nat) (B : Nat) (l : List Nat) : ∀ (st : RowState),
    (∀ o ∈ l, i * w + o < B) → st.maxScoreCell < B →
    OkAll (fun x => x.candidate.base = st.candidate.base ∧ x.maxScoreCell < B) (Norm.rowLoop U S w i ps pc l st) := by
  induction l with
  | nil => intro st _ h; exact .ok ⟨rfl, h⟩
  | cons o l ih =>
    intro st ho h
    unfold Norm.rowLoop
    let Q : CandidateV2 × Score × Nat → Prop := fun z => z.1.base = st.candidate.base
    refine .bind fun x => ?_
    obtain ⟨x, y⟩ := x
    dsimp only
    refine .bind fun _ => .bind fun _ => .bind fun _ => .bind fun _ => ?_
    refine (bonusAt_base U st.candidate o S).bind' fun c hc => ?_
    refine .bind fun _ => .bind fun cons => ?_
    refine .ite (OkAll.bind' (Q := Q) (.bind fun k => ?_) fun z hz => ?_) (OkAll.bind' (Q := Q) (.pure hc.1) fun z hz => ?_)
    · refine (bonusAt_base U c.1 k S).bind' fun d hd => ?_
      exact .ite (.pure (hd.1.trans hc.1)) (.pure (hd.1.trans hc.1))
    all_goals
      refine .ite (OkAll.bind' (Q := Q) ?_ fun z' hz' => ?_) (OkAll.bind' (Q := Q) (.pure hz) fun z' hz' => ?_)
      · exact (bonusAt_base U z.1 o S).bind' fun d hd => .pure (hd.1.trans hz)
      all_goals
        refine .bind fun cs => .bind fun sc => ?_
        refine (ih _ (fun o' ho' => ho o' (by simp [ho'])) ?_).mono fun v hv => ⟨hv.1.trans hz', hv.2⟩
        dsimp only
        split
        · exact ho o (by simp)
        · exact h

theorem remainingRowsLoop_steps (U : Unicode) (S : Scheme) (p : Pattern) (mo : List Nat) (w : Nat) (n : Nat) :
    ∀ (i : Nat) (sc : Matrix Score) (cs : Matrix Nat) (c : CandidateV2) (mx : Score) (cell : Nat),
    sc.width = w → c.base.charLen = w →
    (Timed.remainingRowsLoop U S p mo n i sc cs c mx cell).steps ≤ n * (20 * w + 2) := by
  induction n with
  | zero => intro i sc cs c mx cell _ _; exact Nat.zero_le _
  | succ n ih =>
    intro i sc cs c mx cell hw hc
    unfold Timed.remainingRowsLoop
    rw [steps_tick_bind, Nat.add_one_mul]
    suffices h : ∀ {x : Nat}, x ≤ 1 + 20 * w + n * (20 * w + 2) → 1 + x ≤ n * (20 * w + 2) + (20 * w + 2) by
      refine h (free_le fun ch _ => free_le fun i1 _ => free_le fun x hx => ?_)
      obtain ⟨x1, x2⟩ := x
      refine free_le fun i2 _ => free_le fun y hy => ?_
      obtain ⟨y1, y2⟩ := y
      refine bind_le (a := 1) (Nat.le_refl _) (b := 20 * w + n * (20 * w + 2)) (fun fo _ => ?_) (by omega)
      refine bind_le (matchesFrom_steps ..) (b := 19 * w + n * (20 * w + 2)) (fun offs ho => ?_) (by omega)
      rw [res_matchesFrom] at ho
      have hasc := matchesFrom_asc _ _ _ _ _ _ ho
      rw [hc] at hasc
      refine bind_le (rowLoop_steps U S _ i x1 y1 w offs _ fo hasc (Nat.le_succ _)) (b := 2 * w + n * (20 * w + 2))
        (fun st hst => ?_) (by omega)
      refine bind_le (rowGap_steps ..) (b := n * (20 * w + 2)) (fun z _ => ?_) (by omega)
      obtain ⟨z1, z2⟩ := z
      refine ih _ _ _ _ _ _ hw ?_
      rw [res_rowLoop] at hst
      have := (rowLoop_post U S sc.width i x1 y1 (max (i * sc.width + w) (cell + 1)) offs _
        (fun o ho' => by have := hasc.lt o ho'; omega) (by dsimp only; omega) _ hst).1
      rw [this]; exact hc
    intro x hx; omega

theorem remainingRowsLoop_post (U : Unicode) (S : Scheme) (p : Pattern) (mo : List Nat) (w B : Nat) (n : Nat) :
    ∀ (i : Nat) (sc : Matrix Score) (cs : Matrix Nat) (c : CandidateV2) (mx : Score) (cell : Nat),
    sc.width = w → c.base.charLen = w → (i + n) * w ≤ B → cell < B →
    OkAll (fun x => x.1.width = w ∧ x.2.2.1.base = c.base ∧ x.2.2.2.2 < B) (Norm.remainingRowsLoop U S p mo n i sc cs c mx cell) := by
  induction n with
  | zero => intro i sc cs c mx cell hw _ _ h; exact .ok ⟨hw, rfl, h⟩
  | succ n ih =>
    intro i sc cs c mx cell hw hc hB hcell
    unfold Norm.remainingRowsLoop
    refine .bind fun ch => .bind fun i1 => .bind fun x => ?_
    obtain ⟨x1, x2⟩ := x
    refine .bind fun i2 => .bind fun y => ?_
    obtain ⟨y1, y2⟩ := y
    refine .bind fun fo => (matchesFrom_asc c.base fo ch _ _).bind' fun offs ho => ?_
    rw [hc] at ho
    have hB' : i * w + w ≤ B := by
      refine Nat.le_trans ?_ hB
      rw [← Nat.add_one_mul]
      exact Nat.mul_le_mul_right _ (by omega)
    refine (rowLoop_post U S sc.width i x1 y1 B offs _
      (fun o ho' => by have := ho.lt o ho'; rw [hw]; omega) (by exact hcell)).bind' fun st hst => ?_
    refine .bind fun z => ?_
    obtain ⟨z, z'⟩ := z
    refine (ih _ _ _ _ _ _ (by exact hw) (by rw [hst.1]; exact hc) (by rw [show i + 1 + n = i + (n + 1) by omega]; exact hB) hst.2).mono
      fun v hv => ⟨hv.1, hv.2.1.trans hst.1, hv.2.2⟩

theorem matrixAlloc_shape {α : Type} (fill : α) (l : List α) (w h : Nat) :
    OkAll (fun x => x.2.width = w ∧ x.2.height = h ∧ 0 < h * w) (Norm.matrixAlloc fill l w h) := by
  unfold Norm.matrixAlloc
  refine OkAll.bind' (Q := fun _ => 0 < h * w) ?_ fun _ hpos => .bind fun _ => .pure ⟨rfl, rfl, hpos⟩
  intro v hv
  unfold Res.assert at hv
  by_cases hp : 0 < h * w
  · exact hp
  · simp [hp] at hv

theorem v2Score_steps (U : Unicode) (ss : List Score) (cl : List Nat) (p : Pattern) (c : CandidateV2) (mo : List Nat) (S : Scheme) :
    (Timed.v2Score U ss cl p c mo S).steps ≤
      4 * (p.charLen * c.base.charLen) + 1 + 8 * c.base.charLen + (p.charLen - 1) * (20 * c.base.charLen + 2) ∧
    OkAll (fun x => x.2.2.1.width = c.base.charLen ∧ x.2.2.2.2.1.base = c.base ∧ x.2.2.2.2.2.2 < p.charLen * c.base.charLen)
      (Norm.v2Score U ss cl p c mo S) := by
  constructor
  · unfold Timed.v2Score
    dsimp only
    refine bind_le (matrixAlloc_steps ..) (b := 2 * (p.charLen * c.base.charLen) + 1 + 8 * c.base.charLen +
      (p.charLen - 1) * (20 * c.base.charLen + 2)) (fun a ha => ?_) (by omega)
    rw [res_matrixAlloc] at ha
    have hs := matrixAlloc_shape _ _ _ _ _ ha
    refine bind_le (matrixAlloc_steps ..) (b := 1 + 8 * c.base.charLen + (p.charLen - 1) * (20 * c.base.charLen + 2)) (fun b hb => ?_) (by omega)
    obtain ⟨a1, a2⟩ := a
    obtain ⟨b1, b2⟩ := b
    dsimp only at hs ⊢
    refine free_le fun row hrow => free_le fun crow _ => ?_
    have hlen := (matrixRow_len a2 0 row hrow).1
    rw [steps_tick_bind]
    suffices h : ∀ {x : Nat}, x ≤ 8 * c.base.charLen + (p.charLen - 1) * (20 * c.base.charLen + 2) →
        1 + x ≤ 1 + 8 * c.base.charLen + (p.charLen - 1) * (20 * c.base.charLen + 2) by
      refine h (free_le fun ch _ => ?_)
      refine bind_le (scoreFirstRow_steps ..) (b := (p.charLen - 1) * (20 * c.base.charLen + 2)) (fun x hx => ?_) (by omega)
      rw [res_scoreFirstRow] at hx
      have hpos : 0 < c.base.charLen := Nat.pos_of_mul_pos_left (by omega : 0 < p.charLen * c.base.charLen)
      have hbase := (scoreFirstRow_post U row crow ch c S hpos _ hx).1
      obtain ⟨x1, x2, x3, x4, x5⟩ := x
      dsimp only at hbase ⊢
      refine bind_le (remainingRowsLoop_steps U S p mo c.base.charLen _ 1 _ _ x3 x4 x5 hs.1 (by rw [hbase])) (b := 0)
        (fun _ _ => Nat.le_refl _) ?_
      rw [hs.2.1]; exact Nat.le_refl _
    intro x hx; omega
  · unfold Norm.v2Score
    dsimp only
    refine (matrixAlloc_shape 0 ss _ _).bind' fun a ha => ?_
    refine .bind fun b => .bind fun row => .bind fun crow => .bind fun ch => ?_
    have hpos : 0 < c.base.charLen := Nat.pos_of_mul_pos_left ha.2.2
    have hp : 0 < p.charLen := Nat.pos_of_mul_pos_right ha.2.2
    refine (scoreFirstRow_post U row crow ch c S hpos).bind' fun x hx => ?_
    obtain ⟨x1, x2, x3, x4, x5⟩ := x
    dsimp only at hx ⊢
    have hle : c.base.charLen ≤ p.charLen * c.base.charLen := Nat.le_mul_of_pos_left _ hp
    refine (remainingRowsLoop_post U S p mo c.base.charLen (p.charLen * c.base.charLen) _ 1 _ _ x3 x4 x5 (by exact ha.1) (by rw [hx.1])
      ?_ (by omega)).bind' fun y hy => .pure ?_
    · refine Nat.mul_le_mul_right _ ?_
      show 1 + (a.2.height - 1) ≤ _
      rw [ha.2.1]; omega
    · exact ⟨hy.1, hy.2.1.trans hx.1, hy.2.2⟩

/-! ### The ranges -/

theorem subR_val {a b c : Nat} (h : subR a b = .ok c) : b ≤ a ∧ c = a - b := by
  unfold subR at h
  split at h
  · cases h; exact ⟨by assumption, rfl⟩
  · cases h

theorem tracebackLoop_steps (a : Matrix Score) (b : Matrix Nat) (c : Candidate) (o : Nat) : ∀ (fuel : Nat) (prefer : Bool)
    (cell col row : Nat) (ranges : MatchedRanges) (K : Nat), c.charLen + 1 + (2 * (ranges.own + col) + 1) ≤ K →
    (Timed.tracebackLoop a b c o fuel prefer cell col row ranges).steps ≤ 5 * (col + 1) + (row + 1) * K := by
  intro fuel
  induction fuel with
  | zero => intro prefer cell col row ranges K _; exact Nat.zero_le _
  | succ fuel ih =>
    intro prefer cell col row ranges K hK
    have tail : ∀ (scoreLeft scoreUpLeft : Score), (do
        let here ← get b.slice cell
        tick 1
        let preferMatch := here > 1
          || (match b.getValue (b.downRight cell) with
              | some downRight => decide (downRight > 0)
              | none => false)
        let score ← get a.slice cell
        if score > scoreUpLeft && (score > scoreLeft || (score == scoreLeft && prefer)) then do
          let byteOffset ← Timed.toByteOffset c col
          let ch ← char c col
          let byteOffset := byteOffset + o
          let ranges ← Timed.insert ranges ⟨byteOffset, byteOffset + lenUtf8 ch⟩
          if (row == 0) || (col == 0) then
            return ranges
          else do
            let cell ← free (a.upLeft cell)
            let col ← free (subR col 1)
            let row ← free (subR row 1)
            Timed.tracebackLoop a b c o fuel preferMatch cell col row ranges
        else if col == 0 then
          return ranges
        else do
          let cell ← free (a.left cell)
          let col ← free (subR col 1)
          Timed.tracebackLoop a b c o fuel preferMatch cell col row ranges : Timed MatchedRanges).steps ≤
        3 + 5 * col + (row + 1) * K := by
      intro sl su
      refine bind_le (a := 1) (Nat.le_refl _) (b := 2 + 5 * col + (row + 1) * K) (fun here _ => ?_) (by omega)
      rw [steps_tick_bind]
      suffices h : ∀ {x : Nat}, x ≤ 1 + (5 * col + (row + 1) * K) → 1 + x ≤ 2 + 5 * col + (row + 1) * K by
        refine h (bind_le (a := 1) (Nat.le_refl _) (b := 5 * col + (row + 1) * K) (fun sc _ => ?_) (Nat.le_refl _))
        refine ite_le (fun _ => ?_) (fun _ => ite_le (fun _ => Nat.zero_le _) (fun hc => ?_))
        · refine bind_le (toByteOffset_steps ..) (b := 1 + (2 * ranges.own + 1) + 5 * col + row * K) (fun off _ => ?_)
            (by rw [Nat.add_one_mul row K]; omega)
          refine bind_le (a := 1) (Nat.le_refl _) (b := 2 * ranges.own + 1 + 5 * col + row * K) (fun ch _ => ?_) (by omega)
          refine bind_le (insert_steps ..) (b := 5 * col + row * K) (fun r hr => ?_) (by omega)
          rw [res_insert] at hr
          have hown := (insert_len _ _ r hr).own
          refine ite_le (fun _ => Nat.zero_le _) (fun hrc => ?_)
          simp only [Bool.or_eq_true, beq_iff_eq, not_or] at hrc
          refine free_le fun cell' _ => free_le fun col' hcol => free_le fun row' hrow => ?_
          have hcol := subR_val hcol
          have hrow := subR_val hrow
          refine Nat.le_trans (ih _ _ _ _ _ K (by omega)) ?_
          rw [show col' + 1 = col by omega, show row' + 1 = row by omega]
          exact Nat.le_refl _
        · simp only [beq_iff_eq] at hc
          refine free_le fun cell' _ => free_le fun col' hcol => ?_
          have hcol := subR_val hcol
          refine Nat.le_trans (ih _ _ _ _ _ K (by omega)) ?_
          rw [show col' + 1 = col by omega]
          exact Nat.le_refl _
      intro x hx; omega
    unfold Timed.tracebackLoop
    refine ite_le (fun h => ?_) (fun h => ?_)
    · rw [steps_pure_bind]
      refine ite_le (fun _ => ?_) (fun h' => absurd (by simp only [h, Bool.true_or]) h')
      rw [steps_pure_bind]
      exact Nat.le_trans (tail _ _) (by omega)
    · refine bind_le (a := 1) (free_le fun i _ => Nat.le_refl _) (b := 4 + 5 * col + (row + 1) * K) (fun sl _ => ?_) (by omega)
      refine ite_le (fun _ => ?_) (fun _ => ?_)
      · rw [steps_pure_bind]
        exact Nat.le_trans (tail _ _) (by omega)
      · exact bind_le (a := 1) (free_le fun i _ => Nat.le_refl _) (fun su _ => tail sl su) (by omega)

theorem v2MatchedRanges_steps (a : Matrix Score) (b : Matrix Nat) (cell : Nat) (c : Candidate) (o : Nat) (ranges : MatchedRanges) (h : Nat)
    (hw : a.width = c.charLen) (hcell : cell < h * c.charLen) :
    (Timed.v2MatchedRanges a b cell c o ranges).steps ≤ 5 * c.charLen + h * (3 * c.charLen + 2 * ranges.own + 2) := by
  have hpos : 0 < c.charLen := Nat.pos_of_mul_pos_left (show 0 < h * c.charLen by omega)
  unfold Timed.v2MatchedRanges
  refine free_le fun col hcol => free_le fun row hrow => ?_
  have hc : col < c.charLen := by
    unfold Matrix.colOf at hcol
    split at hcol
    · cases hcol
    · cases hcol; rw [hw]; exact Nat.mod_lt _ hpos
  have hr : row < h := by
    unfold Matrix.rowOf at hrow
    split at hrow
    · cases hrow
    · cases hrow; rw [hw]; exact Nat.div_lt_of_lt_mul (by rw [Nat.mul_comm]; exact hcell)
  refine Nat.le_trans (tracebackLoop_steps a b c o _ _ _ _ _ _ (3 * c.charLen + 2 * ranges.own + 2) (by omega)) ?_
  exact Nat.add_le_add (by omega) (Nat.mul_le_mul_right _ (by omega))

/-! ### One character -/

theorem singleCharLoop_steps (U : Unicode) (c : Candidate) (S : Scheme) : ∀ (l : List Nat) (mx : Score) (pos : Nat),
    (Timed.singleCharLoop U c S l mx pos).steps ≤ 2 * l.length := by
  intro l
  induction l with
  | nil => intro mx pos; exact Nat.le_refl _
  | cons o l ih =>
    intro mx pos
    have tail : ∀ cl, (do
        let ch ← char c o
        let thisClass := charClass U ch S
        let bonus := computeBonus cl thisClass S
        let score := Bonus.match + bonus * Bonus.firstQueryCharMultiplier
        if score > mx then Timed.singleCharLoop U c S l score o
        else Timed.singleCharLoop U c S l mx pos : Timed (Score × Nat)).steps ≤ 1 + 2 * l.length := fun cl =>
      bind_le (a := 1) (Nat.le_refl _) (fun ch _ => ite_le (fun _ => ih _ _) (fun _ => ih _ _)) (Nat.le_refl _)
    unfold Timed.singleCharLoop
    rw [List.length_cons]
    refine ite_le (fun _ => ?_) (fun _ => ?_)
    · rw [steps_pure_bind]; exact Nat.le_trans (tail _) (by omega)
    · exact bind_le (a := 1) (bind_le (a := 1) (Nat.le_refl _) (fun _ _ => Nat.le_refl 0) (Nat.le_refl _)) (fun cl _ => tail cl) (by omega)

theorem fuzzySingleChar_steps (U : Unicode) (R : Bool) (ch : Char) (c : Candidate) (opts : CandidateOpts) (S : Scheme)
    (ranges : MatchedRanges) :
    (Timed.fuzzySingleChar U R ch c opts S ranges).steps ≤ 3 * c.charLen + extra R (c.charLen + 1 + (2 * ranges.own + 1)) := by
  unfold Timed.fuzzySingleChar
  refine bind_le (matches_steps ..) (b := 2 * c.charLen + extra R (c.charLen + 1 + (2 * ranges.own + 1))) (fun offs ho => ?_) (by omega)
  rw [res_matches] at ho
  have hl := (matches_asc _ _ _ _ _ ho).length
  refine bind_le (singleCharLoop_steps ..) (b := extra R (c.charLen + 1 + (2 * ranges.own + 1))) (fun x _ => ?_) (by omega)
  obtain ⟨x1, x2⟩ := x
  refine ite_le (fun _ => Nat.zero_le _) (fun _ => ?_)
  cases R with
  | false => exact Nat.zero_le _
  | true =>
    refine bind_le (b := 0) ?_ (fun _ _ => Nat.le_refl 0) (Nat.le_refl _)
    refine bind_le (toByteOffset_steps ..) (fun st _ => bind_le (a := 1) (Nat.le_refl _) (fun ch _ => insert_steps ..) (Nat.le_refl _)) ?_
    show _ ≤ c.charLen + 1 + (2 * ranges.own + 1)
    omega

theorem shiftOffsets_steps (f : Nat) : ∀ (l : List Nat), (Timed.shiftOffsets f l).steps ≤ l.length := by
  intro l
  induction l with
  | nil => exact Nat.le_refl _
  | cons o l ih =>
    unfold Timed.shiftOffsets
    rw [steps_tick_bind, List.length_cons, Nat.add_comm]
    exact Nat.add_le_add_right (free_le fun _ _ => bind_le ih (b := 0) (fun _ _ => Nat.le_refl _) (Nat.le_refl _)) _

/-! ### `fuzzy` -/

/-- What `fuzzy` does once the candidate is known to match: `/repo/src/metrics/fzf/fzf_v2.rs:289-331`. -/
def fuzzyRest (U : Unicode) (R : Bool) (m : FzfV2) (p : Pattern) (c : Candidate) (opts : CandidateOpts) (idx offs : List Nat)
    (ranges : MatchedRanges) (first last sb : Nat) (cl : CharClass) : Timed (FzfV2 × MatchedRanges × Option Score) := do
  let base ← free (c.slice ⟨first, last⟩)
  let (bonusSlab, bonuses) ← Timed.bonusAlloc m.slab.bonus base.charLen
  let candidateV2 : CandidateV2 := ⟨bonuses, base, cl, opts⟩
  let matchOffsets ← Timed.shiftOffsets first offs
  let (scoringSlab, consecutiveSlab, scores, consecutives, candidateV2, score, scoreCell) ←
    Timed.v2Score U m.slab.scoringMatrix m.slab.consecutiveMatrix p candidateV2
      matchOffsets m.scoringScheme
  let ranges ←
    if R then
      Timed.v2MatchedRanges scores consecutives scoreCell candidateV2.base sb ranges
    else pure ranges
  return ({ m with slab := {
    bonus := writeBack bonusSlab candidateV2.bonuses
    consecutiveMatrix := writeBack consecutiveSlab consecutives.slice
    matchedIndices := writeBack idx matchOffsets
    scoringMatrix := writeBack scoringSlab scores.slice } }, ranges, some score)

theorem fuzzyRest_steps (U : Unicode) (R : Bool) (m : FzfV2) (p : Pattern) (c : Candidate) (opts : CandidateOpts) (idx offs : List Nat)
    (ranges : MatchedRanges) (first last sb : Nat) (cl : CharClass) (ho : offs.length = p.charLen) :
    (fuzzyRest U R m p c opts idx offs ranges first last sb cl).steps ≤
      2 * c.charLen + p.charLen + (4 * (p.charLen * c.charLen) + 1 + 8 * c.charLen + (p.charLen - 1) * (20 * c.charLen + 2)) +
      extra R (5 * c.charLen + p.charLen * (3 * c.charLen + 2 * ranges.own + 2)) := by
  unfold fuzzyRest
  generalize hX : extra R (5 * c.charLen + p.charLen * (3 * c.charLen + 2 * ranges.own + 2)) = X
  refine free_le fun base hbase => ?_
  have hw := slice_charLen c _ base hbase
  have hw1 : p.charLen * base.charLen ≤ p.charLen * c.charLen := Nat.mul_le_mul_left _ hw
  have hw2 : (p.charLen - 1) * (20 * base.charLen + 2) ≤ (p.charLen - 1) * (20 * c.charLen + 2) := Nat.mul_le_mul_left _ (by omega)
  refine bind_le (bonusAlloc_steps ..) (b := p.charLen + (4 * (p.charLen * c.charLen) + 1 + 8 * c.charLen +
    (p.charLen - 1) * (20 * c.charLen + 2)) + X) (fun b _ => ?_) (by omega)
  obtain ⟨b1, b2⟩ := b
  refine bind_le (shiftOffsets_steps ..) (b := 4 * (p.charLen * c.charLen) + 1 + 8 * c.charLen +
    (p.charLen - 1) * (20 * c.charLen + 2) + X) (fun mo _ => ?_) (by omega)
  have hv := v2Score_steps U m.slab.scoringMatrix m.slab.consecutiveMatrix p ⟨b2, base, cl, opts⟩ mo m.scoringScheme
  refine bind_le (a := 4 * (p.charLen * c.charLen) + 1 + 8 * c.charLen + (p.charLen - 1) * (20 * c.charLen + 2)) ?_
    (b := X) (fun y hy => ?_) (Nat.le_refl _)
  · refine Nat.le_trans hv.1 ?_
    dsimp only
    omega
  · rw [res_v2Score] at hy
    have hv2 := hv.2 y hy
    obtain ⟨y1, y2, y3, y4, y5, y6, y7⟩ := y
    dsimp only at hv2
    subst hX
    cases R with
    | false => exact Nat.zero_le _
    | true =>
      have h7 := v2MatchedRanges_steps y3 y4 y7 y5.base sb ranges p.charLen (by rw [hv2.1, hv2.2.1]) (by rw [hv2.2.1]; exact hv2.2.2)
      rw [hv2.2.1] at h7
      dsimp only
      rw [if_pos rfl, extra_true, hv2.2.1]
      refine bind_le h7 (b := 0) (fun _ _ => Nat.zero_le _) ?_
      have hw3 : p.charLen * (3 * base.charLen + 2 * ranges.own + 2) ≤ p.charLen * (3 * c.charLen + 2 * ranges.own + 2) :=
        Nat.mul_le_mul_left _ (by have : base.charLen ≤ c.charLen := hw; omega)
      omega

theorem fuzzyRest_some (U : Unicode) (R : Bool) (m : FzfV2) (p : Pattern) (c : Candidate) (opts : CandidateOpts) (idx offs : List Nat)
    (ranges : MatchedRanges) (first last sb : Nat) (cl : CharClass) :
    OkAll (fun x => x.2.2 ≠ none) (fuzzyRest U R m p c opts idx offs ranges first last sb cl).res := by
  unfold fuzzyRest
  simp only [res_bind, res_free, res_bonusAlloc, res_shiftOffsets, res_v2Score]
  refine .bind fun base => .bind fun b => .bind fun mo => .bind fun y => ?_
  obtain ⟨y1, y2, y3, y4, y5, y6, y7⟩ := y
  cases R with
  | false => exact .ok (by simp)
  | true =>
    simp only [if_true, res_bind]
    exact .bind fun r => .pure (by simp)

theorem v2_fuzzy_steps (U : Unicode) (R : Bool) (m : FzfV2) (p : Pattern) (c : Candidate) (ranges : MatchedRanges) (hp : 0 < p.charLen) :
    (Timed.V2.fuzzy U R m p c ranges).steps ≤ 24 * (p.charLen * c.charLen) + 4 * p.charLen + 3 +
      extra R (6 * c.charLen + p.charLen * (3 * c.charLen + 2 * ranges.own + 2)) := by
  unfold Timed.V2.fuzzy
  by_cases h1 : p.charLen = 1
  · rw [if_pos (by simp [h1]), steps_tick_bind, h1]
    simp only [Nat.one_mul]
    refine Nat.le_trans (Nat.add_le_add_left (free_le fun ch _ => bind_le (fuzzySingleChar_steps ..) (b := 0) (fun _ _ => Nat.le_refl _)
      (Nat.le_refl _)) _) ?_
    cases R <;> simp only [extra_true, extra_false] <;> omega
  · rw [if_neg (by simpa using h1)]
    have hg := growth_le m.slab.matchedIndices p.charLen
    refine bind_le (v2Matches_steps ..).1 (b := 24 * (p.charLen * c.charLen) + 3 * p.charLen + 1 - 4 * c.charLen +
      extra R (6 * c.charLen + p.charLen * (3 * c.charLen + 2 * ranges.own + 2))) (fun x hx => ?_) (by
        have : c.charLen ≤ p.charLen * c.charLen := Nat.le_mul_of_pos_left _ hp
        omega)
    rw [res_v2Matches] at hx
    have hxl := (v2Matches_len _ _ _ _ _ hx).2
    obtain ⟨idx, offs, r⟩ := x
    cases r with
    | none => exact Nat.zero_le _
    | some last =>
      dsimp only at hxl
      have tail := fun first sb cl => fuzzyRest_steps U R m p c
        (CandidateOpts.new (isSensitive m.caseSensitivity p) m.candidateNormalization) idx offs ranges first last sb cl hxl
      obtain ⟨m', hm'⟩ : ∃ m', p.charLen = m' + 1 := ⟨p.charLen - 1, by omega⟩
      have hmul : p.charLen * c.charLen = m' * c.charLen + c.charLen := by rw [hm', Nat.add_one_mul]
      have hmul' : (p.charLen - 1) * (20 * c.charLen + 2) = 20 * (m' * c.charLen) + 2 * m' := by
        rw [show p.charLen - 1 = m' by omega, Nat.mul_add, Nat.mul_left_comm, Nat.mul_comm m' 2]
      generalize hT : 2 * c.charLen + p.charLen + (4 * (p.charLen * c.charLen) + 1 + 8 * c.charLen + (p.charLen - 1) * (20 * c.charLen + 2)) +
        extra R (5 * c.charLen + p.charLen * (3 * c.charLen + 2 * ranges.own + 2)) = T at tail
      have fin : ∀ first sb, ((if first == 0 then pure m.scoringScheme.initialCharClass >>=
              fuzzyRest U R m p c (CandidateOpts.new (isSensitive m.caseSensitivity p) m.candidateNormalization) idx offs ranges first last sb
            else (do
              let ch ← char c (first - 1)
              return charClass U ch m.scoringScheme : Timed CharClass) >>=
              fuzzyRest U R m p c (CandidateOpts.new (isSensitive m.caseSensitivity p) m.candidateNormalization) idx offs ranges first last sb)
            : Timed (FzfV2 × MatchedRanges × Option Score)).steps ≤ 1 + T := by
        intro first sb
        refine ite_le (fun _ => ?_) (fun _ => ?_)
        · rw [steps_pure_bind]; exact Nat.le_trans (tail first sb _) (by omega)
        · exact bind_le (a := 1) (bind_le (a := 1) (Nat.le_refl _) (fun _ _ => Nat.le_refl 0) (Nat.le_refl _))
            (fun cl _ => tail first sb cl) (Nat.le_refl _)
      refine bind_le (a := 1) (Nat.le_refl _) (b := 24 * (p.charLen * c.charLen) + 3 * p.charLen - 4 * c.charLen +
        extra R (6 * c.charLen + p.charLen * (3 * c.charLen + 2 * ranges.own + 2))) (fun first _ => ?_) (by omega)
      cases R with
      | false =>
        refine Nat.le_trans (bind_le (a := 0) (Nat.le_refl _) (fun sb _ => fin first sb) (Nat.le_refl _)) ?_
        simp only [extra_false] at hT ⊢; omega
      | true =>
        refine Nat.le_trans (bind_le (toByteOffset_steps ..) (fun sb _ => fin first sb) (Nat.le_refl _)) ?_
        simp only [extra_true] at hT ⊢; omega

/-- Without a match, the candidate is only searched. -/
theorem v2_fuzzy_none (U : Unicode) (R : Bool) (m : FzfV2) (p : Pattern) (c : Candidate) (ranges : MatchedRanges)
    {x : FzfV2 × MatchedRanges × Option Score} (h : (FzfV2.impl U).fuzzy R m p c ranges = .ok x) (hn : x.2.2 = none) :
    (Timed.V2.fuzzy U R m p c ranges).steps ≤ growth m.slab.matchedIndices p.charLen + (3 * c.charLen + 1) := by
  have hr : (Timed.V2.fuzzy U R m p c ranges).res = .ok x := by
    rw [← h]; exact (Timed.V2.agrees U).fuzzy R m p c ranges
  unfold Timed.V2.fuzzy at hr ⊢
  by_cases h1 : p.charLen = 1
  · rw [if_pos (by simp [h1])] at hr ⊢
    rw [steps_tick_bind]
    simp only [res_bind, res_tick, Res.bind_ok, res_free, res_fuzzySingleChar] at hr
    refine Nat.le_trans (Nat.add_le_add_left (free_le (b := 3 * c.charLen) fun ch hch => ?_) _) (by omega)
    rw [hch, Res.bind_ok] at hr
    obtain ⟨z, hz, hr⟩ := Res.bind_eq_ok.mp hr
    have hzn : z.2 = none := by cases hr; exact hn
    refine bind_le (b := 0) ?_ (fun _ _ => Nat.le_refl _) (Nat.le_refl _)
    unfold Timed.fuzzySingleChar
    refine bind_le (matches_steps ..) (b := 2 * c.charLen) (fun offs ho => ?_) (by show _ ≤ 3 * c.charLen; omega)
    rw [res_matches] at ho
    have hl := (matches_asc _ _ _ _ _ ho).length
    refine bind_le (singleCharLoop_steps ..) (b := 0) (fun y hy => ?_) (by omega)
    rw [res_singleCharLoop] at hy
    obtain ⟨y1, y2⟩ := y
    refine ite_le (fun _ => Nat.zero_le _) (fun hne => ?_)
    exfalso
    unfold Norm.fuzzySingleChar at hz
    rw [ho, Res.bind_ok, hy, Res.bind_ok] at hz
    dsimp only at hz hne
    rw [if_neg hne] at hz
    cases R with
    | false => cases hz; cases hzn
    | true =>
      simp only [if_true] at hz
      obtain ⟨r, _, hz⟩ := Res.bind_eq_ok.mp hz
      cases hz; cases hzn
  · rw [if_neg (by simpa using h1)] at hr ⊢
    generalize CandidateOpts.new (isSensitive m.caseSensitivity p) m.candidateNormalization = opts at hr ⊢
    rw [res_bind] at hr
    have hm := (v2Matches_steps m.slab.matchedIndices p c opts).2
    cases hy : (Timed.v2Matches m.slab.matchedIndices p c opts).res with
    | panic => rw [hy] at hr; cases hr
    | ok y =>
      rw [hy, Res.bind_ok] at hr
      rw [steps_bind_ok hy]
      have hm := hm y hy
      obtain ⟨idx, offs, r⟩ := y
      cases r with
      | none => exact hm rfl
      | some last =>
        exfalso
        have tail := fun first sb cl => fuzzyRest_some U R m p c opts idx offs ranges first last sb cl
        have fin : ∀ first sb, OkAll (fun x => x.2.2 ≠ none) ((if first == 0 then pure m.scoringScheme.initialCharClass >>=
                fuzzyRest U R m p c opts idx offs ranges first last sb
              else (do
                let ch ← char c (first - 1)
                return charClass U ch m.scoringScheme : Timed CharClass) >>=
                fuzzyRest U R m p c opts idx offs ranges first last sb)
              : Timed (FzfV2 × MatchedRanges × Option Score)).res := by
          intro first sb
          rw [res_ite]
          refine .ite ?_ ?_
          · rw [res_bind]; exact .bind fun cl => tail first sb cl
          · rw [res_bind]; exact .bind fun cl => tail first sb cl
        dsimp only at hr
        rw [res_bind] at hr
        obtain ⟨first, _, hr⟩ := Res.bind_eq_ok.mp hr
        cases R with
        | false =>
          exact fin first 0 x hr hn
        | true =>
          simp only [if_true] at hr
          rw [res_bind] at hr
          obtain ⟨sb, _, hr⟩ := Res.bind_eq_ok.mp hr
          exact fin first sb x hr hn

end Norm
