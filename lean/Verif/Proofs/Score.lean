import Verif.Proofs.Align
import Verif.Proofs.Ranges
import Verif.Model.V1

/-! `compute_score` computes the score of the greedy alignment in its window and inserts exactly its
positions. -/

namespace Norm
open Spec

/-- `omega`, seeing through the abbreviation `Score`. -/
macro "somega" : tactic => `(tactic| ((try delta Score at *); omega))

/-- Inserting ranges one after the other. -/
def insertAll (this : List Range) (rs : List Range) : List Range := rs.foldl pinsert this

@[simp] theorem insertAll_nil (this : List Range) : insertAll this [] = this := rfl
@[simp] theorem insertAll_cons (this : List Range) (r : Range) (rs : List Range) :
    insertAll this (r :: rs) = insertAll (pinsert this r) rs := rfl

theorem sep_insertAll {this rs : List Range} (h : Sep this) (hr : ∀ r ∈ rs, r.start < r.stop) :
    Sep (insertAll this rs) := by
  induction rs generalizing this with
  | nil => exact h
  | cons r rs ih =>
    exact ih (sep_pinsert h (hr r (by simp))) (fun r hr' => hr r (by simp [hr']))

theorem strLen_eq_byteLen (s : List Char) : strLen s = byteLen s := strLen_eq_sum s

theorem byteLen_append (s t : List Char) : byteLen (s ++ t) = byteLen s + byteLen t := by simp [byteLen]

theorem byteLen_take_succ {s : List Char} {i : Nat} {c : Char} (h : s[i]? = some c) :
    byteLen (s.take (i + 1)) = byteLen (s.take i) + c.utf8Size := by
  rw [List.take_add_one, h]; simp [byteLen]

theorem charRange_eq {s : List Char} {i : Nat} {c : Char} (h : s[i]? = some c) :
    charRange s i = ⟨byteLen (s.take i), byteLen (s.take i) + lenUtf8 c⟩ := by
  unfold charRange byteRange; rw [byteLen_take_succ h]; rfl

theorem charRange_nonempty {s : List Char} {i : Nat} (h : i < s.length) :
    (charRange s i).start < (charRange s i).stop := by
  rw [charRange_eq (List.getElem?_eq_getElem h)]
  have := utf8Size_pos s[i]
  simp only [lenUtf8]; omega

variable (U : Unicode) (sch : Scheme) (s : List Char)

/-- The class of the character before index `i` (model's scheme). -/
def clsBefore (i : Nat) : CharClass :=
  match (s.take i).getLast? with
  | none => sch.initialCharClass
  | some c => charClass U c sch

/-- The positional bonus at index `i` (model's scheme). -/
def bonusOf (i : Nat) : Score :=
  match s[i]? with
  | none => 0
  | some c => computeBonus (clsBefore U sch s i) (charClass U c sch) sch

variable {U sch s}

theorem clsBefore_zero : clsBefore U sch s 0 = sch.initialCharClass := by simp [clsBefore]

theorem clsBefore_succ {i : Nat} {c : Char} (h : s[i]? = some c) :
    clsBefore U sch s (i + 1) = charClass U c sch := by
  unfold clsBefore; rw [List.take_add_one, h]; simp

theorem bonusOf_some {i : Nat} {c : Char} (h : s[i]? = some c) :
    bonusOf U sch s i = computeBonus (clsBefore U sch s i) (charClass U c sch) sch := by
  unfold bonusOf; rw [h]

/-- Contribution of the remaining positions to the loop's score, by loop state. -/
def contrib (B : Nat → Score) (isFirst inGap cons : Bool) (fb : Score) (i : Nat) : List Nat → Score
  | [] => 0
  | j :: g =>
    let m (b : Score) : Score := if isFirst then b * 2 else b
    if j = i then
      if cons then
        let fb := if B j ≥ 8 ∧ B j > fb then B j else fb
        16 + m (max (max (B j) fb) 4) + runScore B j fb g
      else 16 + m (B j) + runScore B j (B j) g
    else
      16 + m (B j) - (if inGap then ((j - i : Nat) : Int) else 3 + ((j - i - 1 : Nat) : Int))
        + runScore B j (B j) g

theorem contrib_cons_eq_runScore (B : Nat → Score) (fb : Score) (i : Nat) (g : List Nat) :
    contrib B false false true fb (i + 1) g = runScore B i fb g := by
  cases g with
  | nil => rfl
  | cons j g =>
    simp only [contrib, runScore, if_true, Bool.false_eq_true, if_false]
    by_cases h : j = i + 1
    · simp [h]
    · simp only [h, if_false]
      have : j - (i + 1) - 1 = j - i - 2 := by omega
      rw [this]

theorem contrib_gap (B : Nat → Score) (isFirst inGap cons : Bool) (fb : Score) (i : Nat) (j : Nat)
    (g : List Nat) (h : i < j) :
    contrib B isFirst inGap cons fb i (j :: g) =
      contrib B isFirst true false 0 (i + 1) (j :: g) - (if inGap then 1 else 3) := by
  simp only [contrib]
  rw [if_neg (by somega)]
  by_cases h2 : j = i + 1
  · subst h2; cases inGap <;> simp <;> somega
  · rw [if_neg h2]; cases inGap <;> simp <;> somega

theorem greedyFrom_step_match {eq : CharEq} {c x : Char} {ps : List Char} {i : Nat} (hx : s[i]? = some x)
    (h : eq c x = true) : greedyFrom eq s (c :: ps) i = (greedyFrom eq s ps (i + 1)).map (i :: ·) := by
  simp only [greedyFrom]
  have : findFrom (fun x => eq c x) s i = some i := by
    unfold findFrom
    have hd : s.drop i = x :: s.drop (i + 1) := by
      obtain ⟨hi, rfl⟩ := List.getElem?_eq_some_iff.mp hx
      exact List.drop_eq_getElem_cons hi
    rw [hd, List.findIdx?_cons]; simp [h]
  rw [this]

theorem greedyFrom_step_skip {eq : CharEq} {c x : Char} {ps : List Char} {i : Nat} (hx : s[i]? = some x)
    (h : eq c x = false) : greedyFrom eq s (c :: ps) i = greedyFrom eq s (c :: ps) (i + 1) := by
  simp only [greedyFrom]
  have : findFrom (fun x => eq c x) s i = findFrom (fun x => eq c x) s (i + 1) := by
    unfold findFrom
    have hd : s.drop i = x :: s.drop (i + 1) := by
      obtain ⟨hi, rfl⟩ := List.getElem?_eq_some_iff.mp hx
      exact List.drop_eq_getElem_cons hi
    rw [hd, List.findIdx?_cons]; simp [h]
    cases List.findIdx? (fun x => eq c x) (s.drop (i + 1)) <;> simp; somega
  rw [this]

theorem ite_bind_ok {α β} {R : Bool} {A B : Res α} {K : α → Res β} {v : α}
    (h : (if R = true then A else B) = .ok v) :
    (if R = true then (A >>= K) else (B >>= K)) = K v := by
  cases R <;> simp_all

theorem drop_head {w t : List Char} {x : Char} {i : Nat} (h : s.drop i = (x :: w) ++ t) :
    s[i]? = some x ∧ s.drop (i + 1) = w ++ t := by
  constructor
  · have : (s.drop i)[0]? = some x := by rw [h]; rfl
    simpa [List.getElem?_drop] using this
  · rw [← List.drop_drop, h]; rfl

theorem computeScoreLoop_eq (R : Bool) (eq : CharEq) (start : Nat) (pre : List Range) (t : List Char) :
    ∀ (w : List Char) (i : Nat) (st : ScoreState) (this : List Range) (g : List Nat),
    s.drop i = w ++ t → st.prevClass = clsBefore U sch s i →
    (R = true → start + st.byteOffset = byteLen (s.take i)) →
    st.ranges = ⟨pre ++ this, pre.length⟩ → Sep this →
    greedyFrom eq s (st.patternChar :: st.patternChars) i = some g → (∀ j ∈ g, j < i + w.length) →
    ∃ st', computeScoreLoop U R eq sch start w st = .ok st' ∧
      st'.ranges = ⟨pre ++ (if R then insertAll this (g.map (charRange s)) else this), pre.length⟩ ∧
      st'.score = st.score + contrib (bonusOf U sch s) st.isFirstPatternChar st.isInGap
        (st.consecutive != 0) st.firstBonus i g := by
  intro w
  induction w with
  | nil =>
    intro i st this g _ _ _ _ _ hg hlt
    obtain ⟨ha, hge⟩ := greedyFrom_align hg
    obtain ⟨j, g, rfl⟩ := alignment_cons_left ha
    have := hlt j (by simp); have := hge j (by simp); simp at *; somega
  | cons x w ih =>
    intro i st this g hw hcls hbyte hr hsep hg hlt
    obtain ⟨hx, hw'⟩ := drop_head hw
    have hcls' : charClass U x sch = clsBefore U sch s (i + 1) := (clsBefore_succ hx).symm
    simp only [computeScoreLoop]
    cases he : eq st.patternChar x with
    | true =>
      simp only [if_true]
      rw [greedyFrom_step_match hx he, Option.map_eq_some_iff] at hg
      obtain ⟨g', hg', rfl⟩ := hg
      have hB : computeBonus st.prevClass (charClass U x sch) sch = bonusOf U sch s i := by
        rw [bonusOf_some hx, hcls]
      rw [hB]
      -- the ranges after the insertion
      obtain ⟨this', hthis', hins⟩ : ∃ this',
          this' = (if R then pinsert this (charRange s i) else this) ∧
          (if R = true then st.ranges.insert ⟨start + st.byteOffset, start + st.byteOffset + lenUtf8 x⟩
            else (Res.ok st.ranges)) = .ok ⟨pre ++ this', pre.length⟩ := by
        refine ⟨_, rfl, ?_⟩
        cases R with
        | false => simp [hr]
        | true =>
          simp only [if_true]
          rw [hr, hbyte rfl, ← charRange_eq hx, insert_eq pre this hsep.starts]
      have hsep' : Sep this' := by
        rw [hthis']
        cases R with
        | false => exact hsep
        | true =>
          exact sep_pinsert hsep (charRange_nonempty (List.getElem?_eq_some_iff.mp hx).1)
      simp only [Res.pure_def]
      rw [ite_bind_ok hins]
      have hbyte' : R = true → start + (if R = true then st.byteOffset + lenUtf8 x else st.byteOffset)
          = byteLen (s.take (i + 1)) := by
        intro hR
        rw [if_pos hR, byteLen_take_succ hx, ← hbyte hR]; simp [lenUtf8]; somega
      have hscore : ∀ rest, (st.score + Bonus.match + if st.isFirstPatternChar = true then
            (if (st.consecutive == 0) = true then bonusOf U sch s i
              else max (max (bonusOf U sch s i) (if (st.consecutive == 0) = true then bonusOf U sch s i
                else if (decide (bonusOf U sch s i ≥ Bonus.boundary) &&
                  decide (bonusOf U sch s i > st.firstBonus)) = true then bonusOf U sch s i
                else st.firstBonus)) Bonus.consecutive) * Bonus.firstQueryCharMultiplier
            else if (st.consecutive == 0) = true then bonusOf U sch s i
              else max (max (bonusOf U sch s i) (if (st.consecutive == 0) = true then bonusOf U sch s i
                else if (decide (bonusOf U sch s i ≥ Bonus.boundary) &&
                  decide (bonusOf U sch s i > st.firstBonus)) = true then bonusOf U sch s i
                else st.firstBonus)) Bonus.consecutive) +
          runScore (bonusOf U sch s) i (if (st.consecutive == 0) = true then bonusOf U sch s i
                else if (decide (bonusOf U sch s i ≥ Bonus.boundary) &&
                  decide (bonusOf U sch s i > st.firstBonus)) = true then bonusOf U sch s i
                else st.firstBonus) rest =
          st.score + contrib (bonusOf U sch s) st.isFirstPatternChar st.isInGap
            (st.consecutive != 0) st.firstBonus i (i :: rest) := by
        intro rest
        simp only [contrib, if_true, Bonus.match, Bonus.boundary, Bonus.consecutive,
          Bonus.firstQueryCharMultiplier, Penalty.gapStart, Penalty.gapExtension, Bool.and_eq_true,
          decide_eq_true_eq, beq_iff_eq, bne_iff_ne, ne_eq]
        by_cases hc : st.consecutive = 0
        · simp only [hc, if_true, not_true_eq_false, if_false]; somega
        · simp only [hc, if_false, not_false_eq_true, if_true]
          simp; somega
      cases hpc : st.patternChars with
      | nil =>
        rw [hpc] at hg'
        simp only [greedyFrom, Option.some.injEq] at hg'
        subst hg'
        refine ⟨_, rfl, ?_, ?_⟩
        · simp only [List.map_cons, List.map_nil, insertAll_cons, insertAll_nil]
          rw [hthis']
        · have := hscore []
          simp only [runScore] at this
          rw [← this]; simp
      | cons nextChar pcs =>
        rw [hpc] at hg'
        simp only
        have key : ∀ ST : ScoreState, ST.prevClass = charClass U x sch →
            (R = true → start + ST.byteOffset = byteLen (s.take (i + 1))) →
            ST.ranges = ⟨pre ++ this', pre.length⟩ → ST.patternChar = nextChar →
            ST.patternChars = pcs → ST.isFirstPatternChar = false → ST.isInGap = false →
            ST.consecutive = st.consecutive + 1 →
            ST.score + runScore (bonusOf U sch s) i ST.firstBonus g' =
              st.score + contrib (bonusOf U sch s) st.isFirstPatternChar st.isInGap
                (st.consecutive != 0) st.firstBonus i (i :: g') →
            ∃ st', computeScoreLoop U R eq sch start w ST = .ok st' ∧
              st'.ranges = ⟨pre ++ (if R then insertAll this ((i :: g').map (charRange s)) else this),
                pre.length⟩ ∧
              st'.score = st.score + contrib (bonusOf U sch s) st.isFirstPatternChar st.isInGap
                (st.consecutive != 0) st.firstBonus i (i :: g') := by
          intro ST h1 h2 h3 h4 h5 h6 h7 h8 h9
          obtain ⟨st', hst', hr', hs'⟩ := ih (i + 1) ST this' g' hw' (h1.trans hcls') h2 h3 hsep'
            (by rw [h4, h5]; exact hg') (by
              intro j hj; have := hlt j (by simp [hj]); simp at this; omega)
          refine ⟨st', hst', ?_, ?_⟩
          · rw [hr', hthis']
            cases R <;> simp
          · rw [hs', ← h9, h6, h7, h8, show (st.consecutive + 1 != 0) = true by simp,
              contrib_cons_eq_runScore]
        exact key _ rfl hbyte' rfl rfl rfl rfl rfl rfl (hscore g')
    | false =>
      simp only [Bool.false_eq_true, if_false]
      rw [greedyFrom_step_skip hx he] at hg
      obtain ⟨ha, hge⟩ := greedyFrom_align hg
      obtain ⟨j, g, rfl⟩ := alignment_cons_left ha
      have hbyte' : R = true → start + (if R = true then st.byteOffset + lenUtf8 x else st.byteOffset)
          = byteLen (s.take (i + 1)) := by
        intro hR
        rw [if_pos hR, byteLen_take_succ hx, ← hbyte hR]; simp [lenUtf8]; somega
      obtain ⟨st', hst', hr', hs'⟩ := ih (i + 1) { st with
          score := st.score - (if st.isInGap = true then Penalty.gapExtension else Penalty.gapStart)
          isInGap := true, consecutive := 0, firstBonus := 0, prevClass := charClass U x sch
          byteOffset := if R = true then st.byteOffset + lenUtf8 x else st.byteOffset }
        this (j :: g) hw' hcls' hbyte' hr hsep hg (by
          intro j hj; have := hlt j hj; simp at this; somega)
      refine ⟨st', hst', hr', ?_⟩
      rw [hs', contrib_gap _ _ st.isInGap _ _ i j g (by have := hge j (by simp); somega)]
      simp only [Penalty.gapStart, Penalty.gapExtension]
      rw [show ((0 : Nat) != 0) = false by rfl]
      somega

theorem contrib_start (B : Nat → Score) (a : Nat) (g : List Nat) :
    contrib B true false false 0 a (a :: g) = alignScore B (a :: g) := by
  simp only [contrib, alignScore, if_true, Bool.false_eq_true, if_false]
  somega

theorem window_eq {a e : Nat} (h1 : a ≤ e) (h2 : e ≤ s.length) :
    s.drop a = (s.take e).drop a ++ s.drop e := by
  conv_lhs => rw [← List.take_append_drop e s]
  rw [List.drop_append_of_le_length]
  simp; omega

/-- `compute_score` on a window in which the greedy alignment `g` of the pattern starts at the window's
start. -/
theorem computeScore_eq (U : Unicode) (sch : Scheme) (R : Bool) {c : Candidate} (hwf : c.WF) (p : Pattern)
    {a e : Nat} (eq : CharEq) {g : List Nat} (he : e ≤ c.toChars.length)
    (hp : p.text ≠ []) (hg : greedyFrom eq c.toChars p.text a = some (a :: g)) (hlt : ∀ j ∈ a :: g, j < e)
    (pre this : List Range) (hsep : Sep this) :
    computeScore U R p c ⟨a, e⟩ eq sch ⟨pre ++ this, pre.length⟩ =
      .ok (⟨pre ++ (if R then insertAll this ((a :: g).map (charRange c.toChars)) else this), pre.length⟩,
        alignScore (bonusOf U sch c.toChars) (a :: g)) := by
  have hae : a < e := hlt a (by simp)
  obtain ⟨c', hc', hwf', htc'⟩ := Candidate.slice_ok hwf (r := ⟨a, e⟩) (by simp; omega) (by simpa using he)
  obtain ⟨q, qs, hq⟩ : ∃ q qs, p.text = q :: qs := by
    cases h : p.text with
    | nil => exact absurd h hp
    | cons q qs => exact ⟨q, qs, rfl⟩
  have hstart : (if R = true then c.toByteOffset a else pure 0) =
      Res.ok (if R then byteLen (c.toChars.take a) else 0) := by
    cases R with
    | false => rfl
    | true => simp only [if_true]; rw [Candidate.toByteOffset_eq hwf (by omega), strLen_eq_byteLen]
  have hcls : (if (a == 0) = true then pure sch.initialCharClass
      else (do return charClass U (← c.char (a - 1)) sch : Res CharClass)) =
      Res.ok (clsBefore U sch c.toChars a) := by
    cases a with
    | zero => simp [clsBefore_zero]
    | succ a =>
      have hl : a < c.toChars.length := by omega
      simp only [Nat.add_one_sub_one, Candidate.char_eq, getR_of_lt hl, Res.bind_ok, Res.pure_def]
      rw [clsBefore_succ (List.getElem?_eq_getElem hl)]
      simp
  obtain ⟨st', h1, h2, h3⟩ := computeScoreLoop_eq (U := U) (sch := sch) (s := c.toChars) R eq
    (if R then byteLen (c.toChars.take a) else 0) pre (c.toChars.drop e)
    ((c.toChars.take e).drop a) a
    { isInGap := false, isFirstPatternChar := true, firstBonus := 0, consecutive := 0
      byteOffset := 0, prevClass := clsBefore U sch c.toChars a, patternChars := qs
      patternChar := q, score := 0, ranges := ⟨pre ++ this, pre.length⟩ } this (a :: g)
    (window_eq (by omega) he) rfl (by intro h; simp [h]) rfl hsep (by simpa [hq] using hg) (by
      intro j hj; have := hlt j hj; simp; omega)
  unfold computeScore
  simp only
  rw [ite_bind_ok hstart, ite_bind_ok hcls]
  simp only [Res.bind_ok, hq, List.head?_cons, Res.unwrap, hc', Candidate.chars_eq, htc',
    List.tail_cons, h1, Res.pure_def, h2, h3]
  rw [show ((0 : Nat) != 0) = false by rfl, contrib_start]
  simp

/-! ### The scoring specification -/

theorem isDelimiter_eq (U : Unicode) (S : FzfScheme) (c : Char) :
    S.intoInner.isDelimiter U c = decide (c ∈ delimiters U S) := by
  rw [Bool.eq_iff_iff, decide_eq_true_eq]
  cases S <;> cases h : U.windows <;> simp [h, FzfScheme.intoInner, schemeDefault, schemePath, schemeHistory, delimiters,
    isDelimiterDefault, isDelimiterPath, or_assoc]

theorem delimiter_ascii {U : Unicode} {S : FzfScheme} {c : Char} (h : c ∈ delimiters U S) : c.toNat < 128 := by
  cases S <;> cases hw : U.windows <;> simp only [delimiters, hw, if_true, Bool.false_eq_true, if_false, List.mem_cons, List.not_mem_nil, or_false] at h <;>
    rcases h with rfl | rfl | rfl | rfl | rfl <;> decide

theorem charClass_eq (U : Unicode) (S : FzfScheme) (c : Char) :
    charClass U c S.intoInner = classOf U S c := by
  unfold charClass classOf
  by_cases h : c.toNat < 128
  · have h' : isAscii c = true := decide_eq_true h
    rw [if_pos h, if_pos h']
    unfold asciiCharClass
    rw [isDelimiter_eq]
    simp only [isAsciiLower, isAsciiUpper, isAsciiDigit, isAsciiWhitespace, List.mem_cons, List.not_mem_nil,
      or_false, decide_eq_true_eq, Bool.and_eq_true, Bool.or_eq_true, beq_iff_eq,
      ← Char.toNat_inj, or_assoc]
    rfl
  · have h' : ¬ isAscii c = true := by simpa [isAscii] using h
    rw [if_neg h, if_neg h']
    unfold nonAsciiCharClass
    have hd : S.intoInner.isDelimiter U c = false := by
      rw [isDelimiter_eq, decide_eq_false_iff_not]; exact fun hc => h (delimiter_ascii hc)
    simp [hd]

theorem computeBonus_eq (S : FzfScheme) (prev next : CharClass) :
    computeBonus prev next S.intoInner = bonus S prev next := by
  cases S <;> cases prev <;> cases next <;> rfl

theorem initialCharClass_eq (S : FzfScheme) : S.intoInner.initialCharClass = initialClass S := by
  cases S <;> rfl

theorem clsBefore_eq (U : Unicode) (S : FzfScheme) (s : List Char) :
    clsBefore U S.intoInner s = classBefore U S s := by
  funext i
  unfold clsBefore classBefore
  cases (s.take i).getLast? <;> simp [initialCharClass_eq, charClass_eq]

theorem bonusOf_eq (U : Unicode) (S : FzfScheme) (s : List Char) :
    bonusOf U S.intoInner s = posBonus U S s := by
  funext i
  unfold bonusOf posBonus
  cases s[i]? <;> simp [computeBonus_eq, charClass_eq, clsBefore_eq]

theorem bonus_nonneg (S : FzfScheme) (p n : CharClass) : 0 ≤ bonus S p n := by
  cases S <;> cases p <;> cases n <;> decide

theorem bonus_le (S : FzfScheme) (p n : CharClass) : bonus S p n ≤ 10 := by
  cases S <;> cases p <;> cases n <;> decide

theorem posBonus_nonneg (U : Unicode) (S : FzfScheme) (s : List Char) (i : Nat) : 0 ≤ posBonus U S s i := by
  unfold posBonus; split
  · simp
  · exact bonus_nonneg _ _ _

theorem posBonus_le (U : Unicode) (S : FzfScheme) (s : List Char) (i : Nat) : posBonus U S s i ≤ 10 := by
  unfold posBonus; split
  · simp
  · exact bonus_le _ _ _

end Norm
