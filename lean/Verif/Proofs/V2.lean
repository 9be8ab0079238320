import Verif.Proofs.V2Score

/-! `FzfV2::fuzzy` as a pure function of its configuration, the pattern and the candidate's characters. -/

set_option linter.unusedSimpArgs false

namespace Norm
open Spec

/-! ### Traceback -/

theorem tracebackLoop_eq {base : Candidate} (hwf : base.WF) {s : List Char} {first e start : Nat}
    (he : e ≤ s.length) (hfe : first ≤ e) (hw : base.toChars = (s.take e).drop first)
    (hstart : start = byteLen (s.take first)) (pre : List Range) {h : Nat}
    {H : Nat → Nat → Int} {C : Nat → Nat → Nat} (hC : ∀ r, 0 < r → C r 0 = 0) :
    ∀ (col row : Nat) (prefer : Bool) (this : List Range), Sep this → col < base.toChars.length → row < h →
    tracebackLoop (matOf h base.toChars.length H) (matOf h base.toChars.length C) base start (col + 1) prefer
      (row * base.toChars.length + col) col row ⟨pre ++ this, pre.length⟩ =
    .ok ⟨pre ++ insertAll this ((tb h base.toChars.length H C prefer row col).map (fun c => charRange s (first + c))),
      pre.length⟩ := by
  have hlen : base.toChars.length = e - first := by rw [hw]; simp; omega
  have hget : ∀ c, c < base.toChars.length → ∃ x, base.toChars[c]? = some x ∧ s[first + c]? = some x := by
    intro c hc
    refine ⟨base.toChars[c], List.getElem?_eq_getElem hc, ?_⟩
    rw [← List.getElem?_eq_getElem hc, hw, List.getElem?_drop, List.getElem?_take_of_lt (by omega)]
  have hins : ∀ (c : Nat) (x : Char) (this : List Range), Sep this → c < base.toChars.length →
      base.toChars[c]? = some x →
      MatchedRanges.insert ⟨pre ++ this, pre.length⟩ ⟨strLen (base.toChars.take c) + start,
        strLen (base.toChars.take c) + start + lenUtf8 x⟩ =
      .ok ⟨pre ++ pinsert this (charRange s (first + c)), pre.length⟩ := by
    intro c x this hsep hc hx
    obtain ⟨y, hy, hsy⟩ := hget c hc
    rw [hx] at hy
    obtain rfl := Option.some.inj hy
    have hoff : strLen (base.toChars.take c) + start = byteLen (s.take (first + c)) := by
      rw [strLen_eq_byteLen, hstart, Nat.add_comm, ← byteLen_append]
      congr 1
      rw [List.take_add, hw, List.take_drop, List.take_take, Nat.min_eq_left (by omega), List.take_drop]
    rw [hoff, charRange_eq hsy]
    exact insert_eq pre this (Sep.starts hsep) _
  have hpref : ∀ row col, row < h → col < base.toChars.length →
      ((decide (C row col > 1)) || (match (matOf h base.toChars.length C).getValue
          ((matOf h base.toChars.length C).downRight (row * base.toChars.length + col)) with
          | some downRight => decide (downRight > 0)
          | none => false)) =
      decide (C row col > 1 ∨ (row + 1 < h ∧ col + 1 < base.toChars.length ∧ C (row + 1) (col + 1) > 0)) := by
    intro row col hr hc
    have hidx : (matOf h base.toChars.length C).downRight (row * base.toChars.length + col) =
        (row + 1) * base.toChars.length + (col + 1) := by
      simp only [Matrix.downRight, matOf, Nat.add_mul, Nat.one_mul]; omega
    rw [hidx]
    by_cases h1 : row + 1 < h
    · by_cases h2 : col + 1 < base.toChars.length
      · rw [matOf_getValue h1 h2]
        simp [h1, h2, ← Bool.decide_or]
      · have h3 : (row + 1) * base.toChars.length + (col + 1) = (row + 2) * base.toChars.length + 0 := by
          rw [show row + 2 = row + 1 + 1 by omega, Nat.add_mul (row + 1), Nat.one_mul]; omega
        rw [h3]
        by_cases h4 : row + 2 < h
        · rw [matOf_getValue h4 (by omega), hC (row + 2) (by omega)]
          simp [h2]
        · rw [matOf_getValue_none]
          · simp [h2]
          · rw [Nat.add_zero]; exact Nat.mul_le_mul_right _ (by omega)
    · rw [matOf_getValue_none]
      · simp [h1]
      · calc h * base.toChars.length ≤ (row + 1) * base.toChars.length := Nat.mul_le_mul_right _ (by omega)
          _ ≤ _ := by omega
  have hrowcell : ∀ row, row * base.toChars.length + base.toChars.length = (row + 1) * base.toChars.length := by
    intro row; rw [Nat.add_mul, Nat.one_mul]
  intro col
  induction col with
  | zero =>
    intro row prefer this hsep hc hr
    obtain ⟨x, hx, hsx⟩ := hget 0 hc
    simp only [tracebackLoop, beq_self_eq_true, if_true, Bool.true_or, Res.pure_def, Res.bind_ok, Bool.or_true]
    rw [matOf_get hr hc, matOf_get hr hc]
    simp only [Res.bind_ok, tb]
    by_cases h0 : H row 0 > 0
    · rw [if_pos, if_pos h0, Candidate.toByteOffset_eq hwf (by omega), Candidate.char_eq, getR_eq_ok.mpr hx]
      · simp only [Res.bind_ok]
        rw [hins 0 x this hsep hc hx]
        simp
      · simp only [Bool.and_eq_true, Bool.or_eq_true, decide_eq_true_eq]
        exact ⟨h0, Or.inl h0⟩
    · rw [if_neg, if_neg h0]
      · simp
      · simp only [Bool.and_eq_true, Bool.or_eq_true, decide_eq_true_eq]
        exact fun h => h0 h.1
  | succ c ih =>
    intro row prefer this hsep hc hr
    obtain ⟨x, hx, hsx⟩ := hget (c + 1) hc
    have hleft : (matOf h base.toChars.length H).left (row * base.toChars.length + (c + 1)) =
        .ok (row * base.toChars.length + c) := by
      unfold Matrix.left; rw [subR_of_le (by omega)]; rfl
    have hup : row ≠ 0 → (matOf h base.toChars.length H).upLeft (row * base.toChars.length + (c + 1)) =
        .ok ((row - 1) * base.toChars.length + c) := by
      intro h0
      have := hrowcell (row - 1)
      rw [show row - 1 + 1 = row by omega] at this
      unfold Matrix.upLeft
      rw [show (matOf h base.toChars.length H).width = base.toChars.length from rfl, subR_of_le (by omega)]
      simp only [Res.bind_ok]
      rw [subR_of_le (by omega)]
      congr 1; omega
    have hupS : (if (false || (row == 0)) = true then (pure 0 : Res Score) else
        (do (matOf h base.toChars.length H).get (← (matOf h base.toChars.length H).upLeft
          (row * base.toChars.length + (c + 1))) : Res Score)) = .ok (if row = 0 then 0 else H (row - 1) c) := by
      by_cases h0 : row = 0
      · subst h0; rfl
      · rw [if_neg (by simpa using h0), if_neg h0, hup h0]
        simp only [Res.bind_ok]
        exact matOf_get (by omega) (by omega)
    rw [tracebackLoop]
    simp only [show (c + 1 == 0) = false from rfl, Bool.false_eq_true, if_false]
    rw [hleft, Res.bind_ok, matOf_get hr (show c < base.toChars.length by omega), Res.bind_ok]
    rw [ite_bind_ok hupS, matOf_get hr hc, matOf_get hr hc]
    simp only [Res.bind_ok]
    simp only [tb]
    by_cases hcond : H row (c + 1) > (if row = 0 then 0 else H (row - 1) c) ∧
        (H row (c + 1) > H row c ∨ (H row (c + 1) = H row c ∧ prefer = true))
    · rw [if_pos hcond]
      rw [if_pos (by
        simp only [Bool.and_eq_true, Bool.or_eq_true, decide_eq_true_eq, beq_iff_eq]; exact hcond)]
      rw [Candidate.toByteOffset_eq hwf (by omega), Candidate.char_eq, getR_eq_ok.mpr hx]
      simp only [Res.bind_ok]
      rw [hins (c + 1) x this hsep hc hx]
      simp only [Res.bind_ok]
      by_cases h0 : row = 0
      · subst h0; simp
      · rw [if_neg (by simpa using h0), hup h0, subR_of_le (by omega), subR_of_le (by omega), if_neg h0]
        simp only [Res.bind_ok, Nat.add_one_sub_one]
        rw [ih (row - 1) _ _ (sep_pinsert hsep (charRange_nonempty
          (List.getElem?_eq_some_iff.mp hsx).1)) (by omega) (by omega)]
        exact congrArg (fun z => Res.ok (MatchedRanges.mk (pre ++ insertAll (pinsert this (charRange s (first + (c + 1))))
          ((tb h base.toChars.length H C z (row - 1) c).map (fun c => charRange s (first + c)))) pre.length))
          (hpref row (c + 1) hr hc)
    · rw [if_neg hcond]
      rw [if_neg (by
        simp only [Bool.and_eq_true, Bool.or_eq_true, decide_eq_true_eq, beq_iff_eq]; exact hcond)]
      rw [subR_of_le (by omega)]
      simp only [Res.bind_ok, Nat.add_one_sub_one]
      rw [ih row _ _ hsep (by omega) hr]
      exact congrArg (fun z => Res.ok (MatchedRanges.mk (pre ++ insertAll this
        ((tb h base.toChars.length H C z row c).map (fun c => charRange s (first + c)))) pre.length))
        (hpref row (c + 1) hr hc)

/-! ### Finding the window -/

theorem matchesLoop_eq {c : Candidate} (hwf : c.WF) (p : Pattern) (sens norm : Bool) :
    ∀ (qs : List Char) (q : Char) (done : List Char) (offs : List Nat) (last fuel : Nat),
    p.text = done ++ q :: qs → offs.length = p.text.length → last ≤ c.toChars.length → qs.length < fuel →
    ∃ offs', offs'.length = p.text.length ∧
      matchesLoop p c (CandidateOpts.new sens norm) fuel offs done.length last =
        .ok (offs', match greedyFrom (charEq sens norm) c.toChars (q :: qs) last with
          | none => none
          | some _ => some (p.text.length - 1)) ∧
      (∀ g, greedyFrom (charEq sens norm) c.toChars (q :: qs) last = some g →
        offs' = offs.take done.length ++ g) := by
  intro qs
  induction qs with
  | nil =>
    intro q done offs last fuel hp hlen hlast hfuel
    cases fuel with
    | zero => simp at hfuel
    | succ fuel =>
      have hpl : p.text.length = done.length + 1 := by rw [hp]; simp
      have hpc : p.char done.length = .ok q := by
        unfold Pattern.char; rw [getR_eq_ok, hp]; simp
      simp only [matchesLoop, hpc, Res.bind_ok, CandidateOpts.new]
      rw [Candidate.findFirstFrom_eq hwf sens norm hlast]
      simp only [Res.bind_ok, greedyFrom]
      cases hf : findFrom (fun x => charEq sens norm q x) c.toChars last with
      | none => exact ⟨offs, hlen, rfl, by simp⟩
      | some j =>
        simp only
        rw [setR_of_lt (by omega)]
        simp only [Res.bind_ok]
        rw [if_neg (by simp only [Pattern.charLen]; omega)]
        refine ⟨offs.set done.length j, by simp [hlen], ?_, ?_⟩
        · simp [hpl]
        · intro g hg
          simp at hg
          subst hg
          rw [List.set_eq_take_append_cons_drop, if_pos (by omega), List.drop_eq_nil_of_le (by omega)]
  | cons q' qs ih =>
    intro q done offs last fuel hp hlen hlast hfuel
    cases fuel with
    | zero => simp at hfuel
    | succ fuel =>
      have hpl : p.text.length = done.length + 1 + (qs.length + 1) := by rw [hp]; simp; omega
      have hpc : p.char done.length = .ok q := by
        unfold Pattern.char; rw [getR_eq_ok, hp]; simp
      simp only [matchesLoop, hpc, Res.bind_ok]
      rw [show (CandidateOpts.new sens norm).isCaseSensitive = sens from rfl,
        show (CandidateOpts.new sens norm).charEq = charEq sens norm from rfl]
      rw [Candidate.findFirstFrom_eq hwf sens norm hlast]
      simp only [Res.bind_ok]
      rw [greedyFrom]
      cases hf : findFrom (fun x => charEq sens norm q x) c.toChars last with
      | none => exact ⟨offs, hlen, rfl, by simp⟩
      | some j =>
        obtain ⟨h1, ⟨x, hx, _⟩, _⟩ := findFrom_some hf
        have hj := (List.getElem?_eq_some_iff.mp hx).1
        simp only
        rw [setR_of_lt (by omega)]
        simp only [Res.bind_ok]
        rw [if_pos (by simp only [Pattern.charLen]; omega)]
        obtain ⟨offs', h2, h3, h4⟩ := ih q' (done ++ [q]) (offs.set done.length j) (j + 1) fuel
          (by rw [hp]; simp) (by simp [hlen]) (by omega) (by simp at hfuel; omega)
        rw [List.length_append, List.length_singleton] at h3 h4
        refine ⟨offs', h2, ?_, ?_⟩
        · rw [h3]
          cases greedyFrom (charEq sens norm) c.toChars (q' :: qs) (j + 1) <;> rfl
        · intro g hg
          rw [Option.map_eq_some_iff] at hg
          obtain ⟨g', hg', rfl⟩ := hg
          rw [h4 g' hg', List.set_eq_take_append_cons_drop, if_pos (by omega)]
          rw [List.take_append, List.take_of_length_le (by simp; omega)]
          simp [show done.length + 1 - min done.length offs.length = 1 by omega]

/-- `matches`: the leftmost alignment and the end of the window. -/
theorem v2Matches_eq {c : Candidate} (hwf : c.WF) (p : Pattern) (hp : p.text ≠ []) (sens norm : Bool) (ind : List Nat) :
    ∃ ind' offs', v2Matches ind p c (CandidateOpts.new sens norm) =
        .ok (ind', offs', match greedyFrom (charEq sens norm) c.toChars p.text 0 with
          | none => none
          | some _ => (findLastIdx? (fun x => charEq sens norm (p.text.getLast hp) x) c.toChars).map (· + 1)) ∧
      (∀ g, greedyFrom (charEq sens norm) c.toChars p.text 0 = some g → offs' = g ∧
        (findLastIdx? (fun x => charEq sens norm (p.text.getLast hp) x) c.toChars).isSome = true) := by
  obtain ⟨q, qs, hq⟩ : ∃ q qs, p.text = q :: qs := List.exists_cons_of_ne_nil hp
  unfold v2Matches indicesAlloc
  dsimp only
  rw [sliceToR_of_le (length_ite_resize ind p.charLen 0)]
  simp only [Res.bind_ok, Res.pure_def]
  have hl : ((if p.charLen > ind.length then resize ind p.charLen 0 else ind).take p.charLen).length =
      p.text.length := by
    rw [List.length_take]
    have := length_ite_resize ind p.charLen 0
    simp only [Pattern.charLen] at *; omega
  obtain ⟨offs', h1, h2, h3⟩ := matchesLoop_eq hwf p sens norm qs q [] _ 0 (p.charLen + 1) (by simpa using hq) hl
    (Nat.zero_le _) (by simp [Pattern.charLen, hq]; omega)
  rw [← hq] at h2 h3
  simp only [List.length_nil] at h2 h3
  rw [h2]
  simp only [Res.bind_ok]
  cases hg : greedyFrom (charEq sens norm) c.toChars p.text 0 with
  | none => exact ⟨_, offs', rfl, by simp⟩
  | some g =>
    simp only
    have hpos : 0 < p.text.length := List.length_pos_iff.mpr hp
    have hpc : p.char (p.text.length - 1) = .ok (p.text.getLast hp) := by
      unfold Pattern.char; rw [getR_of_lt (by omega), List.getLast_eq_getElem]
    rw [hpc]
    simp only [Res.bind_ok]
    rw [show (CandidateOpts.new sens norm).isCaseSensitive = sens from rfl,
      show (CandidateOpts.new sens norm).charEq = charEq sens norm from rfl, Candidate.findLast_eq hwf]
    have hsome : ∃ j, findLastIdx? (fun x => charEq sens norm (p.text.getLast hp) x) c.toChars = some j := by
      cases hf : findLastIdx? (fun x => charEq sens norm (p.text.getLast hp) x) c.toChars with
      | some j => exact ⟨j, rfl⟩
      | none =>
        exfalso
        have hno := findLastIdx?_none hf
        have hal := (greedyFrom_align hg).1
        have hlen := hal.length_eq
        have := List.forall₂_iff_get.mp hal.spells
        obtain ⟨x, hx, hr⟩ := this.2 (p.text.length - 1) (by omega) (by omega)
        have := hno x (List.mem_of_getElem? hx)
        rw [List.getLast_eq_getElem] at this
        simp only [rel, List.get_eq_getElem] at hr
        rw [hr] at this; simp at this
    obtain ⟨j, hj⟩ := hsome
    rw [hj]
    refine ⟨_, offs', rfl, ?_⟩
    intro g' hg'
    have := h3 g' (by rw [hg]; exact hg')
    exact ⟨by simpa using this, rfl⟩

theorem shiftOffsets_eq (first : Nat) (l : List Nat) (h : ∀ x ∈ l, first ≤ x) :
    shiftOffsets first l = .ok (l.map (· - first)) := by
  induction l with
  | nil => rfl
  | cons x l ih =>
    simp only [shiftOffsets]
    rw [subR_of_le (h x (by simp)), ih (fun x hx => h x (by simp [hx]))]
    rfl

/-! ### Single-character patterns -/

/-- The best single position so far. -/
def bestPos (B : Nat → Int) (offs : List Nat) (acc : Int × Nat) : Int × Nat :=
  offs.foldl (fun acc i => if 16 + B i * 2 > acc.1 then (16 + B i * 2, i) else acc) acc

theorem singleCharLoop_eq (U : Unicode) (c : Candidate) (sch : Scheme) :
    ∀ (offs : List Nat) (m : Int) (pos : Nat), (∀ i ∈ offs, i < c.toChars.length) →
    singleCharLoop U c sch offs m pos = .ok (bestPos (bonusOf U sch c.toChars) offs (m, pos)) := by
  intro offs
  induction offs with
  | nil => intros; rfl
  | cons i offs ih =>
    intro m pos h
    have hi := h i (by simp)
    have hx : c.toChars[i]? = some c.toChars[i] := List.getElem?_eq_getElem hi
    have hcls : (if (i == 0) = true then pure sch.initialCharClass
        else (do return charClass U (← c.char (i - 1)) sch : Res CharClass)) =
        .ok (clsBefore U sch c.toChars i) := by
      cases i with
      | zero => rw [clsBefore_zero]; rfl
      | succ i =>
        rw [if_neg (by simp), clsBefore_succ (List.getElem?_eq_getElem (show i < c.toChars.length by omega)),
          Candidate.char_eq, Nat.add_one_sub_one, getR_of_lt (by omega)]
        rfl
    simp only [singleCharLoop]
    rw [ite_bind_ok hcls, Candidate.char_eq, getR_of_lt hi]
    simp only [Res.bind_ok]
    rw [← bonusOf_some hx]
    have ih1 := ih (16 + bonusOf U sch c.toChars i * 2) i (fun j hj => h j (by simp [hj]))
    have ih2 := ih m pos (fun j hj => h j (by simp [hj]))
    by_cases hgt : 16 + bonusOf U sch c.toChars i * 2 > m
    · rw [if_pos (show Bonus.match + bonusOf U sch c.toChars i * Bonus.firstQueryCharMultiplier > m from hgt)]
      refine Eq.trans ih1 ?_
      congr 1
      simp only [bestPos, List.foldl_cons]
      rw [if_pos hgt]
    · rw [if_neg (show ¬ (Bonus.match + bonusOf U sch c.toChars i * Bonus.firstQueryCharMultiplier > m) from hgt)]
      refine Eq.trans ih2 ?_
      congr 1
      simp only [bestPos, List.foldl_cons]
      rw [if_neg hgt]

/-- The position a single-character pattern is matched at, with its score. -/
def singleResult (B : Nat → Int) (eq : CharEq) (q : Char) (s : List Char) : Option (List Nat × Int) :=
  let best := bestPos B (idxsFrom (fun x => eq q x) s 0) (0, 0)
  if best.1 = 0 then none else some ([best.2], best.1)

theorem bestPos_mem (B : Nat → Int) (offs : List Nat) (acc : Int × Nat) :
    bestPos B offs acc = acc ∨ (bestPos B offs acc).2 ∈ offs := by
  induction offs generalizing acc with
  | nil => exact Or.inl rfl
  | cons i offs ih =>
    simp only [bestPos, List.foldl_cons]
    by_cases h : 16 + B i * 2 > acc.1
    · rw [if_pos h]
      rcases ih (16 + B i * 2, i) with h' | h'
      · right; simp only [bestPos] at h'; rw [h']; simp
      · right; simp only [bestPos] at h'; exact List.mem_cons_of_mem _ h'
    · rw [if_neg h]
      rcases ih acc with h' | h'
      · left; exact h'
      · right; simp only [bestPos] at h'; exact List.mem_cons_of_mem _ h'

theorem mem_idxsFrom {P : Char → Bool} {s : List Char} {off i : Nat} :
    i ∈ idxsFrom P s off ↔ off ≤ i ∧ ∃ x, s[i]? = some x ∧ P x = true := by
  rw [(offs_idxsFrom (P := P) (w := s) (first := off)).mem, matchAt_iff]
  constructor
  · rintro ⟨h, _, h2⟩; exact h2
  · rintro ⟨h, x, hx, hp⟩; exact ⟨h, (List.getElem?_eq_some_iff.mp hx).1, h, x, hx, hp⟩

theorem fuzzySingleChar_eq (U : Unicode) (R : Bool) (q : Char) {c : Candidate} (hwf : c.WF) (sens norm : Bool)
    (sch : Scheme) (pre this : List Range) (hsep : Sep this) :
    fuzzySingleChar U R q c (CandidateOpts.new sens norm) sch ⟨pre ++ this, pre.length⟩ =
      .ok (match singleResult (bonusOf U sch c.toChars) (charEq sens norm) q c.toChars with
        | none => (⟨pre ++ this, pre.length⟩, none)
        | some (ps, score) =>
          (⟨pre ++ (if R then insertAll this (ps.map (charRange c.toChars)) else this), pre.length⟩,
            some score)) := by
  unfold fuzzySingleChar
  rw [show (CandidateOpts.new sens norm).isCaseSensitive = sens from rfl,
    show (CandidateOpts.new sens norm).charEq = charEq sens norm from rfl, Candidate.matches_eq hwf]
  simp only [Res.bind_ok]
  have hlt : ∀ i ∈ idxsFrom (fun x => charEq sens norm q x) c.toChars 0, i < c.toChars.length := by
    intro i hi
    obtain ⟨_, x, hx, _⟩ := mem_idxsFrom.mp hi
    exact (List.getElem?_eq_some_iff.mp hx).1
  have hloop := singleCharLoop_eq U c sch _ 0 0 hlt
  rw [show (0 : Score) = (0 : Int) from rfl, hloop]
  clear hloop
  simp only [Res.bind_ok, singleResult]
  have hm := bestPos_mem (bonusOf U sch c.toChars) (idxsFrom (fun x => charEq sens norm q x) c.toChars 0) (0, 0)
  generalize bestPos (bonusOf U sch c.toChars) (idxsFrom (fun x => charEq sens norm q x) c.toChars 0) (0, 0) = best at *
  obtain ⟨m, pos⟩ := best
  by_cases h0 : m = 0
  · rw [if_pos (by simpa using h0), if_pos h0]; rfl
  · rw [if_neg (by simpa using h0), if_neg h0]
    have hpos : pos < c.toChars.length := by
      rcases hm with h | h
      · simp only [Prod.mk.injEq] at h; exact absurd h.1 h0
      · exact hlt _ h
    cases R with
    | false => rfl
    | true =>
      simp only [if_true]
      rw [Candidate.toByteOffset_eq hwf (by omega), Candidate.char_eq, getR_of_lt hpos]
      simp only [Res.bind_ok]
      rw [strLen_eq_byteLen, ← charRange_eq (List.getElem?_eq_getElem hpos), insert_eq pre this (Sep.starts hsep)]
      rfl

/-! ### The whole function -/

theorem getD_of_lt {α : Type} {l : List α} {i : Nat} (d : α) (h : i < l.length) : l.getD i d = l[i] := by
  simp [List.getD, h]

theorem getLastD_of_ne {α : Type} {l : List α} (d : α) (h : l ≠ []) : l.getLastD d = l.getLast h := by
  cases l with
  | nil => exact absurd rfl h
  | cons a l => rw [List.getLastD_cons, List.getLast_eq_getLastD]

/-- The window of the candidate that is scored: from the first match of the first character to the last match of
the last one. -/
def v2Window (eq : CharEq) (p s : List Char) (g : List Nat) : Nat × Nat :=
  (g.headD 0, (findLastIdx? (fun x => eq (p.getLastD 'a') x) s).getD 0 + 1)

/-- The characters of the window. -/
def v2Chars (eq : CharEq) (p s : List Char) (g : List Nat) : List Char :=
  (s.take (v2Window eq p s g).2).drop (v2Window eq p s g).1

/-- First match offsets relative to the window. -/
def v2Fst (eq : CharEq) (p s : List Char) (g : List Nat) (r : Nat) : Nat := g.getD r 0 - (v2Window eq p s g).1

/-- Scores and run lengths of row `r`. -/
def v2Dp (B : Nat → Int) (eq : CharEq) (p s : List Char) (g : List Nat) (r : Nat) : (Nat → Int) × (Nat → Nat) :=
  dp eq (v2Chars eq p s g) (fun r => p.getD r 'a') (v2Fst eq p s g) (fun i => B ((v2Window eq p s g).1 + i)) r

/-- Best score and its cell. -/
def v2Best (B : Nat → Int) (eq : CharEq) (p s : List Char) (g : List Nat) (r : Nat) : Int × Nat :=
  dpBest eq (v2Chars eq p s g) (fun r => p.getD r 'a') (v2Fst eq p s g) (fun i => B ((v2Window eq p s g).1 + i)) r

/-- Highlighted positions, in insertion order. -/
def v2Trace (B : Nat → Int) (eq : CharEq) (p s : List Char) (g : List Nat) : List Nat :=
  (tb p.length (v2Chars eq p s g).length (fun i => (v2Dp B eq p s g i).1) (fun i => (v2Dp B eq p s g i).2) true
    ((v2Best B eq p s g (p.length - 1)).2 / (v2Chars eq p s g).length)
    ((v2Best B eq p s g (p.length - 1)).2 % (v2Chars eq p s g).length)).map ((v2Window eq p s g).1 + ·)

/-- What `FzfV2::fuzzy` finds: the highlighted positions (in the order in which they are inserted) and the score. -/
def v2Result (B : Nat → Int) (eq : CharEq) (p s : List Char) : Option (List Nat × Int) :=
  if p.length = 1 then singleResult B eq (p.headD 'a') s
  else (greedyFrom eq s p 0).map (fun g => (v2Trace B eq p s g, (v2Best B eq p s g (p.length - 1)).1))

theorem bestRow_cell {n r h : Nat} {f : Nat → Int} {offs : List Nat} {acc : Int × Nat} (hr : r < h)
    (ho : ∀ c ∈ offs, c < n) (ha : acc.2 < h * n) : (bestRow n r f offs acc).2 < h * n := by
  induction offs generalizing acc with
  | nil => exact ha
  | cons c offs ih =>
    simp only [bestRow, List.foldl_cons]
    have := ih (acc := if f c > acc.1 then (f c, r * n + c) else acc) (fun x hx => ho x (by simp [hx])) (by
      split
      · exact cell_lt hr (ho c (by simp))
      · exact ha)
    exact this

theorem dpBest_cell {eq : CharEq} {w : List Char} {pat : Nat → Char} {fst : Nat → Nat} {b : Nat → Int} {h r : Nat}
    (hr : r < h) (hn : 0 < w.length) : (dpBest eq w pat fst b r).2 < h * w.length := by
  have ho : ∀ r, ∀ c ∈ idxsFrom (fun x => eq (pat r) x) w (fst r), c < w.length := by
    intro r c hc
    obtain ⟨_, x, hx, _⟩ := mem_idxsFrom.mp hc
    exact (List.getElem?_eq_some_iff.mp hx).1
  induction r with
  | zero => exact bestRow_cell hr (ho 0) (Nat.mul_pos (by omega) hn)
  | succ r ih => exact bestRow_cell hr (ho (r + 1)) (ih (by omega))

/-- Facts about the window of a matching candidate. -/
structure WindowOk (eq : CharEq) (p s : List Char) (g : List Nat) (a e : Nat) (w : List Char) : Prop where
  chars : w = (s.take e).drop a
  le : a < e
  lt : e ≤ s.length
  len : w.length = e - a
  getw : ∀ i, i < w.length → w[i]? = s[a + i]?
  fst0 : g.getD 0 0 - a = 0
  galen : g.length = p.length
  ga : ∀ r, r < p.length → g[r]? = some (g.getD r 0)
  gge : ∀ x ∈ g, a ≤ x
  fstPos : ∀ r, 0 < r → r < p.length → 0 < g.getD r 0 - a
  hit : ∀ r, r < p.length → g.getD r 0 - a < w.length ∧ ∃ x, w[g.getD r 0 - a]? = some x ∧ eq (p.getD r 'a') x = true
  last : ∀ i c, i < s.length → s[i]? = some c → eq (p.getLastD 'a') c = true → i < e

theorem windowOk {eq : CharEq} {p s : List Char} {g : List Nat} (hp : p ≠ []) (hg : greedyFrom eq s p 0 = some g) :
    WindowOk eq p s g (v2Window eq p s g).1 (v2Window eq p s g).2 (v2Chars eq p s g) ∧
    ∃ j, findLastIdx? (fun x => eq (p.getLastD 'a') x) s = some j ∧ (v2Window eq p s g).2 = j + 1 := by
  have hal := (greedyFrom_align hg).1
  have hlen := hal.length_eq
  have hppos : 0 < p.length := List.length_pos_iff.mpr hp
  have hget := List.forall₂_iff_get.mp hal.spells
  have hgd : ∀ r, r < p.length → g[r]? = some (g.getD r 0) := by
    intro r hr; rw [List.getElem?_eq_getElem (by omega), getD_of_lt _ (by omega)]
  have hhit : ∀ r, r < p.length → ∃ x, s[g.getD r 0]? = some x ∧ eq (p.getD r 'a') x = true := by
    intro r hr
    obtain ⟨x, hx, hr'⟩ := hget.2 r (by omega) (by omega)
    refine ⟨x, ?_, ?_⟩
    · rw [getD_of_lt _ (by omega)]; exact hx
    · rw [getD_of_lt _ (by omega)]; exact hr'
  have hlastp : p.getLastD 'a' = p.getD (p.length - 1) 'a' := by
    rw [getD_of_lt _ (by omega), getLastD_of_ne _ hp, List.getLast_eq_getElem]
  have hinc := hal.increasing
  rw [List.pairwise_iff_getElem] at hinc
  have hmono : ∀ r r', r < r' → r' < p.length → g.getD r 0 < g.getD r' 0 := by
    intro r r' h1 h2
    rw [getD_of_lt _ (by omega), getD_of_lt _ (by omega)]
    exact hinc r r' (by omega) (by omega) h1
  obtain ⟨xl, hxl, hrl⟩ := hhit (p.length - 1) (by omega)
  have hex : ∃ j, findLastIdx? (fun x => eq (p.getLastD 'a') x) s = some j := by
    cases hf : findLastIdx? (fun x => eq (p.getLastD 'a') x) s with
    | some j => exact ⟨j, rfl⟩
    | none =>
      have := findLastIdx?_none hf xl (List.mem_of_getElem? hxl)
      rw [hlastp, hrl] at this; simp at this
  obtain ⟨j, hj⟩ := hex
  obtain ⟨hjlt, _, hjmax⟩ := findLastIdx?_some hj
  have hw2 : (v2Window eq p s g).2 = j + 1 := by simp only [v2Window, hj, Option.getD_some]
  have hw1 : (v2Window eq p s g).1 = g.getD 0 0 := by
    cases g with
    | nil => simp at hlen; omega
    | cons a g => rfl
  have hle : ∀ r, r < p.length → g.getD r 0 ≤ j := by
    intro r hr
    have hlast : g.getD (p.length - 1) 0 ≤ j := by
      by_contra hcon
      have := hjmax _ xl (Nat.not_le.mp hcon) hxl
      rw [hlastp, hrl] at this; simp at this
    by_cases h : r = p.length - 1
    · rw [h]; exact hlast
    · have := hmono r (p.length - 1) (by omega) (by omega); omega
  have hge : ∀ r, r < p.length → g.getD 0 0 ≤ g.getD r 0 := by
    intro r hr
    by_cases h : r = 0
    · rw [h]; exact Nat.le_refl _
    · have := hmono 0 r (by omega) hr; omega
  have h0j := hle 0 hppos
  have hwlen : (v2Chars eq p s g).length = j + 1 - g.getD 0 0 := by
    simp only [v2Chars, List.length_drop, List.length_take, hw1, hw2]; omega
  have hgetw : ∀ i, i < (v2Chars eq p s g).length → (v2Chars eq p s g)[i]? = s[g.getD 0 0 + i]? := by
    intro i hi
    rw [v2Chars, List.getElem?_drop, hw1, hw2, List.getElem?_take_of_lt (by omega)]
  refine ⟨?_, j, hj, hw2⟩
  rw [hw1, hw2]
  refine ⟨?_, by omega, by omega, hwlen, hgetw, by omega, hlen, hgd, ?_, ?_, ?_, ?_⟩
  · rw [v2Chars, hw1, hw2]
  · intro x hx
    obtain ⟨r, hr, rfl⟩ := List.getElem_of_mem hx
    have := hge r (by omega)
    rwa [getD_of_lt _ hr] at this
  · intro r h1 h2
    have := hmono 0 r h1 h2; omega
  · intro r hr
    have h1 := hle r hr
    have h2 := hge r hr
    refine ⟨by omega, ?_⟩
    rw [hgetw _ (by omega), show g.getD 0 0 + (g.getD r 0 - g.getD 0 0) = g.getD r 0 by omega]
    exact hhit r hr
  · intro i c hi hc hr
    by_contra hcon
    have := hjmax i c (by omega) hc
    rw [hr] at this; simp at this

theorem FzfV2.fuzzy_eq (U : Unicode) (R : Bool) (self : FzfV2) (p : Pattern) (hp : p.text ≠ [])
    {c : Candidate} (hwf : c.WF) (hbon : ∀ i, 0 ≤ bonusOf U self.scoringScheme c.toChars i ∧
      bonusOf U self.scoringScheme c.toChars i ≤ 10) (pre this : List Range) (hsep : Sep this) :
    ∃ slab, FzfV2.fuzzy U R self p c ⟨pre ++ this, pre.length⟩ = .ok ({ self with slab := slab },
      match v2Result (bonusOf U self.scoringScheme c.toChars) (self.charEq p) p.text c.toChars with
        | none => (⟨pre ++ this, pre.length⟩, none)
        | some (ps, score) =>
          (⟨pre ++ (if R then insertAll this (ps.map (charRange c.toChars)) else this), pre.length⟩,
            some score)) := by
  unfold FzfV2.fuzzy v2Result FzfV2.charEq
  have hcl : p.charLen = p.text.length := rfl
  rw [hcl]
  simp only
  by_cases h1 : p.text.length = 1
  · rw [if_pos (by simpa using h1), if_pos h1]
    obtain ⟨q, hq⟩ := List.length_eq_one_iff.mp h1
    have hpc : p.char 0 = .ok q := by unfold Pattern.char; rw [getR_eq_ok, hq]; rfl
    rw [hpc]
    simp only [Res.bind_ok]
    rw [fuzzySingleChar_eq U R q hwf _ _ _ pre this hsep]
    rw [hq]
    refine ⟨self.slab, ?_⟩
    simp only [Res.bind_ok, Res.pure_def, List.headD_cons]
  · rw [if_neg (by simpa using h1), if_neg h1]
    generalize hS : isSensitive self.caseSensitivity p = sens
    generalize hN : self.candidateNormalization = norm
    obtain ⟨ind', offs', hm, hm'⟩ := v2Matches_eq hwf p hp sens norm self.slab.matchedIndices
    rw [hm]
    simp only [Res.bind_ok]
    cases hg : greedyFrom (Norm.charEq sens norm) c.toChars p.text 0 with
    | none =>
      simp only [Option.map_none]
      exact ⟨_, rfl⟩
    | some g =>
      obtain ⟨hoffs, _⟩ := hm' g hg
      subst hoffs
      obtain ⟨hW, j, hj, hj2⟩ := windowOk hp hg
      have hlastD : p.text.getLastD 'a' = p.text.getLast hp := getLastD_of_ne _ hp
      rw [hlastD] at hj
      rw [hj]
      have hppos : 0 < p.text.length := List.length_pos_iff.mpr hp
      have hw1 : (v2Window (Norm.charEq sens norm) p.text c.toChars offs').1 = offs'.getD 0 0 := by
        have := hW.galen
        cases offs' with
        | nil => simp at this; omega
        | cons a g => rfl
      simp only [Option.map_some, v2Trace, v2Best, v2Dp]
      have hF : v2Fst (Norm.charEq sens norm) p.text c.toChars offs' = fun r =>
        offs'.getD r 0 - (v2Window (Norm.charEq sens norm) p.text c.toChars offs').1 := rfl
      generalize hfst : v2Fst (Norm.charEq sens norm) p.text c.toChars offs' = fst at *
      generalize hw : v2Chars (Norm.charEq sens norm) p.text c.toChars offs' = w at *
      rw [← hj2]
      generalize ha : (v2Window (Norm.charEq sens norm) p.text c.toChars offs').1 = a at *
      generalize he : (v2Window (Norm.charEq sens norm) p.text c.toChars offs').2 = e at *
      have hle := hW.le
      have hlt := hW.lt
      rw [getR_eq_ok.mpr (hW.ga 0 hppos), ← hw1]
      simp only [Res.bind_ok]
      have hstart : (if R = true then c.toByteOffset a else pure 0) =
          .ok (if R then byteLen (c.toChars.take a) else 0) := by
        cases R with
        | false => rfl
        | true => simp only [if_true]; rw [Candidate.toByteOffset_eq hwf (by omega), strLen_eq_byteLen]
      rw [ite_bind_ok hstart]
      have hinit : (if (a == 0) = true then pure self.scoringScheme.initialCharClass
          else (do return charClass U (← c.char (a - 1)) self.scoringScheme : Res CharClass)) =
          .ok (clsBefore U self.scoringScheme c.toChars a) := by
        by_cases h0 : a = 0
        · subst h0; rw [clsBefore_zero]; rfl
        · obtain ⟨a', rfl⟩ : ∃ a', a = a' + 1 := ⟨a - 1, by omega⟩
          rw [if_neg (by simp), clsBefore_succ (List.getElem?_eq_getElem (show a' < c.toChars.length by omega)),
            Candidate.char_eq, Nat.add_one_sub_one, getR_of_lt (by omega)]
          rfl
      rw [ite_bind_ok hinit]
      obtain ⟨base, hbase, hbwf, hbchars⟩ := Candidate.slice_ok hwf (r := ⟨a, e⟩) (Nat.le_of_lt hle) hlt
      rw [hbase]
      simp only [Res.bind_ok]
      have hbw : base.toChars = w := by rw [hbchars, hW.chars]
      -- the bonus slab
      have hba : ∃ bs view, bonusAlloc self.slab.bonus base.charLen = .ok (bs, view) ∧
          view.length = base.toChars.length ∧ ∀ cell ∈ view, cell.isSet = false := by
        unfold bonusAlloc
        dsimp only
        rw [sliceToR_of_le (length_ite_resize self.slab.bonus base.charLen BonusCell.default)]
        refine ⟨_, _, rfl, ?_, ?_⟩
        · have := length_ite_resize self.slab.bonus base.charLen BonusCell.default
          rw [List.length_map, List.length_take, Nat.min_eq_left this, Candidate.charLen_eq]
        · intro cell hcell
          rw [List.mem_map] at hcell
          obtain ⟨x, _, rfl⟩ := hcell
          rfl
      obtain ⟨bs, view, hba, hvlen, hvset⟩ := hba
      rw [hba]
      simp only [Res.bind_ok]
      rw [shiftOffsets_eq a offs' hW.gge]
      simp only [Res.bind_ok]
      have hbonuses : Bonuses U self.scoringScheme base (clsBefore U self.scoringScheme c.toChars a)
          (fun i => bonusOf U self.scoringScheme c.toChars (a + i)) := by
        refine ⟨?_, fun i => (hbon _).1, fun i => (hbon _).2⟩
        intro i x hx
        have hi : i < w.length := by rw [hbw] at hx; exact (List.getElem?_eq_some_iff.mp hx).1
        have hx' : c.toChars[a + i]? = some x := by rw [← hW.getw i hi, ← hbw]; exact hx
        rw [bonusOf_some hx']
        cases i with
        | zero => rfl
        | succ i =>
          have hi' : i < w.length := by omega
          have hy : c.toChars[a + i]? = some w[i] := by rw [← hW.getw i hi', List.getElem?_eq_getElem hi']
          rw [show a + (i + 1) = a + i + 1 by omega, clsBefore_succ hy]
          simp only [hbw, List.getElem?_eq_getElem hi']
      have hcv : CvOk base (clsBefore U self.scoringScheme c.toChars a) (CandidateOpts.new sens norm)
          (fun i => bonusOf U self.scoringScheme c.toChars (a + i))
          ⟨view, base, clsBefore U self.scoringScheme c.toChars a, CandidateOpts.new sens norm⟩ := by
        refine ⟨rfl, rfl, rfl, hvlen, ?_⟩
        intro i cell h h'
        rw [hvset cell (List.mem_of_getElem? h)] at h'
        simp at h'
      have hdpM : ∀ r, r < p.text.length →
          dpM (Norm.charEq sens norm) base.toChars (fun r => p.text.getD r 'a') fst r (fst r) = true := by
        intro r hr
        unfold dpM
        rw [matchAt_iff]
        refine ⟨Nat.le_refl _, ?_⟩
        rw [hbw, hF]
        exact (hW.hit r hr).2
      have hf0 : fst 0 = 0 := by rw [hF]; exact hW.fst0
      obtain ⟨ss', cs', cv', hsc, hcv'⟩ := v2Score_eq (sens := sens) (norm := norm)
        (pat := fun r => p.text.getD r 'a') (fst := fst) hbwf hbonuses p
        (offs'.map (· - a)) hppos hf0
        (fun r hr => by rw [List.getElem?_eq_getElem hr, getD_of_lt _ hr])
        (fun r hr => by rw [List.getElem?_map, hW.ga r hr, hF]; rfl)
        (by have := hdpM 0 hppos; rwa [hf0] at this)
        (fun r h0 hr => ⟨by rw [hF]; exact hW.fstPos r h0 hr, hdpM r hr⟩)
        self.slab.scoringMatrix self.slab.consecutiveMatrix hcv
      rw [hsc]
      simp only [Res.bind_ok, hbw]
      have hwpos : 0 < w.length := by rw [hW.len]; omega
      generalize hbest : dpBest (Norm.charEq sens norm) w (fun r => p.text.getD r 'a') fst
        (fun i => bonusOf U self.scoringScheme c.toChars (a + i)) (p.text.length - 1) = best
      have hcell : best.2 < p.text.length * w.length := by
        rw [← hbest]; exact dpBest_cell (by omega) hwpos
      cases R with
      | false => exact ⟨_, rfl⟩
      | true =>
        simp only [if_true]
        unfold v2MatchedRanges Matrix.colOf Matrix.rowOf
        rw [show ∀ (F : Nat → Nat → Score), (matOf p.text.length w.length F).width = w.length from fun _ => rfl,
          if_neg (by omega), if_neg (by omega)]
        simp only [Res.bind_ok]
        have hdm : best.2 = best.2 / w.length * w.length + best.2 % w.length := by
          rw [Nat.mul_comm]; exact (Nat.div_add_mod _ _).symm
        have htb := tracebackLoop_eq hbwf (s := c.toChars) (first := a) (e := e)
          (start := byteLen (c.toChars.take a)) hlt (Nat.le_of_lt hle)
          (by rw [hbw]; exact hW.chars) rfl pre (h := p.text.length)
          (H := fun i => (dp (Norm.charEq sens norm) w (fun r => p.text.getD r 'a') fst
            (fun i => bonusOf U self.scoringScheme c.toChars (a + i)) i).1)
          (C := fun i => (dp (Norm.charEq sens norm) w (fun r => p.text.getD r 'a') fst
            (fun i => bonusOf U self.scoringScheme c.toChars (a + i)) i).2)
          (by
            intro r hr
            obtain ⟨r', rfl⟩ : ∃ r', r = r' + 1 := ⟨r - 1, by omega⟩
            rfl)
          (best.2 % w.length) (best.2 / w.length) true this hsep
          (by rw [hbw]; exact Nat.mod_lt _ hwpos)
          (Nat.div_lt_of_lt_mul (by rw [Nat.mul_comm]; exact hcell))
        rw [hbw, ← hdm] at htb
        rw [hcv'.base_eq, htb]
        simp only [Res.bind_ok, Res.pure_def, List.map_map]
        exact ⟨_, rfl⟩

end Norm
