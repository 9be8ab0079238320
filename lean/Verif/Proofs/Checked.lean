import Verif.Model.Checked
import Verif.Proofs.Grammar
import Verif.Proofs.Conditions

/-! The functions of `Model/Checked` return what the functions of the main model return. -/

namespace Norm.Checked

variable {U : Unicode} {scheme : Scheme}

/-! ### Two computations that agree -/

/-- `x` and `y` are the same, and a value they return satisfies `P`. -/
def Agree {α : Type} (P : α → Prop) (x y : Res α) : Prop := x = y ∧ ∀ a, y = .ok a → P a

namespace Agree
variable {α β : Type} {P : α → Prop} {Q : β → Prop}

theorem ok {a : α} (h : P a) : Agree P (.ok a) (.ok a) := ⟨rfl, by rintro _ ⟨⟩; exact h⟩

theorem panic : Agree P (.panic : Res α) .panic := ⟨rfl, by simp⟩

theorem self (x : Res α) (h : ∀ a, x = .ok a → P a) : Agree P x x := ⟨rfl, h⟩

theorem refl (x : Res α) : Agree (fun a => x = .ok a) x x := ⟨rfl, fun _ h => h⟩

theorem bind {x y : Res α} {f g : α → Res β} (h : Agree P x y) (hf : ∀ a, P a → Agree Q (f a) (g a)) :
    Agree Q (x >>= f) (y >>= g) := by
  obtain ⟨rfl, h⟩ := h
  cases x with
  | panic => exact panic
  | ok a => exact hf a (h a rfl)

theorem mono {P' : α → Prop} {x y : Res α} (h : Agree P x y) (hP : ∀ a, P a → P' a) : Agree P' x y :=
  ⟨h.1, fun a ha => hP a (h.2 a ha)⟩

end Agree

/-! ### The arithmetic -/

theorem i64_ok {x : Int} (h : -2 ^ 63 ≤ x) (h' : x < 2 ^ 63) : i64 x = .ok x := by
  unfold i64; rw [if_pos ⟨h, h'⟩]

theorem add_ok {a b : Int} (h : -2 ^ 63 ≤ a + b) (h' : a + b < 2 ^ 63) : add a b = .ok (a + b) := i64_ok h h'

theorem sub_ok {a b : Int} (h : -2 ^ 63 ≤ a - b) (h' : a - b < 2 ^ 63) : sub a b = .ok (a - b) := i64_ok h h'

theorem mul_ok {a b : Int} (h : -2 ^ 63 ≤ a * b) (h' : a * b < 2 ^ 63) : mul a b = .ok (a * b) := i64_ok h h'

theorem satSub_eq {a b : Int} (h : -2 ^ 63 ≤ a - b) (h' : a - b < 2 ^ 63) :
    saturatingSubI64 a b = saturatingSub a b := by
  unfold saturatingSubI64 saturatingSub
  rw [if_neg (by somega), if_neg (by somega)]

theorem incU32_ok {a : Nat} (h : a + 1 < 2 ^ 32) : incU32 a = .ok (a + 1) := by
  unfold incU32; rw [if_pos h]

/-- The bonuses of a scheme are between 0 and 10. -/
def BonusBd (scheme : Scheme) : Prop := ∀ x y, 0 ≤ computeBonus x y scheme ∧ computeBonus x y scheme ≤ 10

theorem bonusBd (S : FzfScheme) : BonusBd S.intoInner := by
  intro x y
  refine ⟨computeBonus_nonneg S x y, ?_⟩
  rw [computeBonus_eq]
  cases S <;> cases x <;> cases y <;> decide

theorem max3_bd {x y : Int} (hx : 0 ≤ x ∧ x ≤ 10) (hy : 0 ≤ y ∧ y ≤ 10) :
    0 ≤ max (max x y) 4 ∧ max (max x y) 4 ≤ 10 := by omega

/-! ### `compute_score` -/

/-- The invariant of the loop of `compute_score`: `k` characters have been read. -/
structure LoopInv (k : Int) (st : ScoreState) : Prop where
  lo : -(3 * k) ≤ st.score
  hi : 36 * k ≥ st.score
  fb : 0 ≤ st.firstBonus ∧ st.firstBonus ≤ 10
  cons : st.consecutive + st.patternChars.length + 1 < 2 ^ 32

theorem computeScoreLoop_agree (hS : BonusBd scheme) (RANGES : Bool) (eq : CharEq) (b : Nat) (N : Int)
    (hN : 40 * N + 40 < 2 ^ 63) (cs : List Char) : ∀ (k : Int) (st : ScoreState), 0 ≤ k → k + cs.length ≤ N →
    LoopInv k st →
    Agree (fun st' => -(3 * N) ≤ st'.score ∧ 36 * N ≥ st'.score)
      (computeScoreLoop U RANGES eq scheme b cs st) (Norm.computeScoreLoop U RANGES eq scheme b cs st) := by
  induction cs with
  | nil =>
    intro k st hk hkN inv
    refine Agree.ok ⟨?_, ?_⟩
    · have := inv.lo; simp at hkN; somega
    · have := inv.hi; simp at hkN; somega
  | cons c cs ih =>
    intro k st hk hkN inv
    obtain ⟨hlo, hhi, hfb, hcons⟩ := inv
    rw [List.length_cons] at hkN; push_cast at hkN
    have hcl : (0 : Int) ≤ cs.length := Int.natCast_nonneg _
    unfold computeScoreLoop Norm.computeScoreLoop
    by_cases he : eq st.patternChar c = true
    · simp only [he, if_true]
      generalize hbn : computeBonus st.prevClass (charClass U c scheme) scheme = bn
      have hb : 0 ≤ bn ∧ bn ≤ 10 := by subst hbn; exact hS _ _
      generalize hf : (if st.consecutive == 0 then bn
        else if bn ≥ Bonus.boundary && bn > st.firstBonus then bn else st.firstBonus) = fb
      have hfb' : 0 ≤ fb ∧ fb ≤ 10 := by
        subst hf; split
        · exact hb
        · split
          · exact hb
          · exact hfb
      generalize hb2 : (if st.consecutive == 0 then bn else max (max bn fb) Bonus.consecutive) = b2
      have hb2' : 0 ≤ b2 ∧ b2 ≤ 10 := by
        subst hb2
        have : Bonus.consecutive = 4 := rfl
        split
        · exact hb
        · rw [this]; exact max3_bd hb hfb'
      have hm : Bonus.match = 16 := rfl
      have hq : Bonus.firstQueryCharMultiplier = 2 := rfl
      rw [add_ok (by rw [hm]; somega) (by rw [hm]; somega)]
      rw [mul_ok (by rw [hq]; somega) (by rw [hq]; somega)]
      have hstep : ∀ (v : Score), 0 ≤ v ∧ v ≤ 20 → ∀ (rs : MatchedRanges) (pc : Char) (off : Nat)
          (cls cls' : CharClass) (off' : Nat),
          Agree (fun st' => -(3 * N) ≤ st'.score ∧ 36 * N ≥ st'.score)
            (match st.patternChars with
              | nextChar :: patternChars =>
                computeScoreLoop U RANGES eq scheme b cs
                  ⟨false, false, fb, st.consecutive + 1, off, cls, patternChars, nextChar,
                    st.score + Bonus.match + v, rs⟩
              | [] => Res.ok ⟨false, false, fb, st.consecutive + 1, off', cls', st.patternChars, pc,
                    st.score + Bonus.match + v, rs⟩)
            (match st.patternChars with
              | nextChar :: patternChars =>
                Norm.computeScoreLoop U RANGES eq scheme b cs
                  ⟨false, false, fb, st.consecutive + 1, off, cls, patternChars, nextChar,
                    st.score + Bonus.match + v, rs⟩
              | [] => Res.ok ⟨false, false, fb, st.consecutive + 1, off', cls', st.patternChars, pc,
                    st.score + Bonus.match + v, rs⟩) := by
        intro v hv rs pc off cls cls' off'
        rw [hm]
        cases hpc : st.patternChars with
        | nil => exact Agree.ok ⟨by dsimp only; somega, by dsimp only; somega⟩
        | cons x xs =>
          rw [hpc, List.length_cons] at hcons
          exact ih (k + 1) _ (by omega) (by omega)
            ⟨by dsimp only; somega, by dsimp only; somega, hfb', by dsimp only; omega⟩
      simp only [Res.bind_ok, Res.pure_def]
      rw [add_ok (by rw [hm, hq]; somega) (by rw [hm, hq]; somega),
        add_ok (by rw [hm]; somega) (by rw [hm]; somega), incU32_ok (by omega)]
      simp only [Res.bind_ok]
      rw [hq] at *
      cases st.isFirstPatternChar <;> cases RANGES <;> simp only [Bool.false_eq_true, if_false, if_true]
      · exact hstep b2 (by somega) _ _ _ _ _ _
      · exact Agree.bind (Agree.refl _) fun rs _ => hstep b2 (by somega) _ _ _ _ _ _
      · exact hstep (b2 * 2) (by somega) _ _ _ _ _ _
      · exact Agree.bind (Agree.refl _) fun rs _ => hstep (b2 * 2) (by somega) _ _ _ _ _ _
    · simp only [he, Bool.false_eq_true, if_false]
      have hp : ∃ v : Int, (if st.isInGap = true then Penalty.gapExtension else Penalty.gapStart) = v ∧ 0 ≤ v ∧ v ≤ 3 := by
        refine ⟨_, rfl, ?_⟩
        split <;> decide
      obtain ⟨v, hv, hv'⟩ := hp
      rw [hv, sub_ok (by somega) (by somega), Res.bind_ok]
      exact ih (k + 1) _ (by omega) (by omega)
        ⟨by dsimp only; somega, by dsimp only; somega, ⟨Int.le_refl 0, (by decide : (0 : Int) ≤ 10)⟩, by dsimp only; omega⟩

theorem slice_len {c c' : Candidate} {r : Range} (h : c.slice r = .ok c') : c'.charLen ≤ c.charLen := by
  unfold Candidate.slice at h
  cases c <;> simp only [Res.bind_eq_ok, sliceR] at h <;> obtain ⟨l, h1, h2⟩ := h <;>
    simp only [Res.pure_def, Res.ok.injEq] at h2 <;> subst h2 <;> split at h1 <;> simp at h1 <;> subst h1 <;>
    simp [Candidate.charLen] <;> omega

theorem chars_len {c : Candidate} {l : List Char} (h : c.chars = .ok l) : l.length = c.charLen := by
  unfold Candidate.chars at h
  rw [Candidate.charsFrom_eq, sliceFromR_of_le (by omega)] at h
  simp at h
  rw [Candidate.charLen_eq, h]

/-- The sizes of the inputs: the candidate and the pattern have at most `N` characters, and the pattern fewer than
`2 ^ 32 - 1`. -/
structure Fits (N : Int) (p : Pattern) (c : Candidate) : Prop where
  n : c.charLen ≤ N
  m : p.text.length ≤ N
  p : p.text.length < 2 ^ 32 - 1
  b : 40 * N + 40 < 2 ^ 63

variable {RANGES : Bool} {p : Pattern} {c : Candidate} {eq : CharEq} {N : Int}

theorem computeScore_agree (hS : BonusBd scheme) (hf : Fits N p c) (r : Range) (rs : MatchedRanges) :
    Agree (fun x => -(3 * N) ≤ x.2 ∧ 36 * N ≥ x.2)
      (computeScore U RANGES p c r eq scheme rs) (Norm.computeScore U RANGES p c r eq scheme rs) := by
  obtain ⟨hn, _, hp, hb⟩ := hf
  unfold computeScore Norm.computeScore
  have rest : ∀ (bs : Nat) (cls : CharClass), Agree (fun x => -(3 * N) ≤ x.2 ∧ 36 * N ≥ x.2)
      (do
        let patternChar ← Res.unwrap p.text.head?
        let chars ← (← c.slice r).chars
        let st ← computeScoreLoop U RANGES eq scheme bs chars
          ⟨false, true, 0, 0, 0, cls, p.text.tail, patternChar, 0, rs⟩
        return (st.ranges, st.score))
      (do
        let patternChar ← Res.unwrap p.text.head?
        let chars ← (← c.slice r).chars
        let st ← Norm.computeScoreLoop U RANGES eq scheme bs chars
          ⟨false, true, 0, 0, 0, cls, p.text.tail, patternChar, 0, rs⟩
        return (st.ranges, st.score)) := by
    intro bs cls
    refine Agree.bind (Agree.refl _) fun pc _ => Agree.bind (Agree.refl _) fun c' hc' =>
      Agree.bind (Agree.refl _) fun l hl => ?_
    have h1 := slice_len hc'
    have h2 := chars_len hl
    refine Agree.bind (computeScoreLoop_agree hS RANGES eq bs N hb l 0 _ (by omega) (by omega)
      ⟨by simp, by simp, ⟨Int.le_refl 0, (by decide : (0 : Int) ≤ 10)⟩, by simp; omega⟩) fun st hst => Agree.ok hst
  have rest' : ∀ bs : Nat, Agree (fun x => -(3 * N) ≤ x.2 ∧ 36 * N ≥ x.2)
      (do
        let prevClass ←
          if r.start == 0 then pure scheme.initialCharClass
          else (do return charClass U (← c.char (r.start - 1)) scheme : Res CharClass)
        let patternChar ← Res.unwrap p.text.head?
        let chars ← (← c.slice r).chars
        let st ← computeScoreLoop U RANGES eq scheme bs chars
          ⟨false, true, 0, 0, 0, prevClass, p.text.tail, patternChar, 0, rs⟩
        return (st.ranges, st.score))
      (do
        let prevClass ←
          if r.start == 0 then pure scheme.initialCharClass
          else (do return charClass U (← c.char (r.start - 1)) scheme : Res CharClass)
        let patternChar ← Res.unwrap p.text.head?
        let chars ← (← c.slice r).chars
        let st ← Norm.computeScoreLoop U RANGES eq scheme bs chars
          ⟨false, true, 0, 0, 0, prevClass, p.text.tail, patternChar, 0, rs⟩
        return (st.ranges, st.score)) := by
    intro bs
    cases r.start == 0 <;> simp only [Bool.false_eq_true, if_false, if_true]
    · exact Agree.bind (Agree.refl _) fun cls _ => rest bs cls
    · exact rest bs _
  cases RANGES <;> simp only [Bool.false_eq_true, if_false, if_true]
  · exact rest' 0
  · exact Agree.bind (Agree.refl _) fun bs _ => rest' bs

/-- What a match returns: no score, or one between the bounds. -/
def Bd (M : Int) (x : Option Score) : Prop := ∀ v, x = some v → -M ≤ v ∧ M ≥ v

theorem Bd.none (M : Int) : Bd M none := by intro v h; cases h

theorem Bd.zero {M : Int} (h : 0 ≤ M) : Bd M (some 0) := by rintro v ⟨⟩; constructor <;> somega

theorem finishExact_agree (hS : BonusBd scheme) (hf : Fits N p c) (r : Range) (rs : MatchedRanges) :
    Agree (fun x => Bd (36 * N) x.2)
      (finishExact U RANGES p c r eq scheme rs) (Norm.finishExact U RANGES p c r eq scheme rs) := by
  unfold finishExact Norm.finishExact
  have hN : 0 ≤ N := by have := hf.n; omega
  refine Agree.bind (computeScore_agree hS hf r rs) fun x hx => ?_
  have hx' : Bd (36 * N) (some x.2) := by rintro v ⟨⟩; constructor <;> somega
  cases RANGES <;> simp only [Bool.false_eq_true, if_false, if_true]
  · exact Agree.ok hx'
  · exact Agree.bind (Agree.refl _) fun a _ => Agree.ok hx'

theorem exactMatch_agree (hS : BonusBd scheme) (hf : Fits N p c) (rs : MatchedRanges) :
    Agree (fun x => Bd (36 * N) x.2)
      (exactMatch U RANGES p c eq scheme rs) (Norm.exactMatch U RANGES p c eq scheme rs) := by
  unfold exactMatch Norm.exactMatch
  have hN : 0 ≤ 36 * N := by have := hf.n; omega
  split
  · exact Agree.ok (Bd.zero hN)
  · refine Agree.bind (Agree.refl _) fun x _ => ?_
    split
    · exact Agree.ok (Bd.none _)
    · exact finishExact_agree hS hf _ _

theorem prefixMatch_agree (hS : BonusBd scheme) (hf : Fits N p c) (rs : MatchedRanges) :
    Agree (fun x => Bd (36 * N) x.2)
      (prefixMatch U RANGES p c eq scheme rs) (Norm.prefixMatch U RANGES p c eq scheme rs) := by
  unfold prefixMatch Norm.prefixMatch
  have hN : 0 ≤ 36 * N := by have := hf.n; omega
  split
  · exact Agree.ok (Bd.zero hN)
  · refine Agree.bind (Agree.refl _) fun x _ => ?_
    cases x with
    | none => exact Agree.ok (Bd.none _)
    | some i =>
      refine Agree.bind (Agree.refl _) fun l _ => ?_
      cases zipLoop eq false p.text l with
      | none => exact Agree.ok (Bd.none _)
      | some y =>
        obtain ⟨_ | ⟨a, b⟩, z⟩ := y
        · exact finishExact_agree hS hf _ _
        · exact Agree.ok (Bd.none _)

theorem suffixMatch_agree (hS : BonusBd scheme) (hf : Fits N p c) (rs : MatchedRanges) :
    Agree (fun x => Bd (36 * N) x.2)
      (suffixMatch U RANGES p c eq scheme rs) (Norm.suffixMatch U RANGES p c eq scheme rs) := by
  unfold suffixMatch Norm.suffixMatch
  have hN : 0 ≤ 36 * N := by have := hf.n; omega
  split
  · exact Agree.ok (Bd.zero hN)
  · refine Agree.bind (Agree.refl _) fun x _ => ?_
    cases x with
    | none => exact Agree.ok (Bd.none _)
    | some i =>
      refine Agree.bind (Agree.refl _) fun u _ => Agree.bind (Agree.refl _) fun sl _ =>
        Agree.bind (Agree.refl _) fun l _ => ?_
      cases zipLoop eq false p.text.reverse l.reverse with
      | none => exact Agree.ok (Bd.none _)
      | some y =>
        obtain ⟨_ | ⟨a, b⟩, z⟩ := y
        · exact Agree.bind (Agree.refl _) fun _ _ => finishExact_agree hS hf _ _
        · exact Agree.ok (Bd.none _)

theorem equalMatch_agree (hS : BonusBd scheme) (hf : Fits N p c) (rs : MatchedRanges) :
    Agree (fun x => Bd (36 * N) x.2)
      (equalMatch U RANGES p c eq scheme rs) (Norm.equalMatch U RANGES p c eq scheme rs) := by
  unfold equalMatch Norm.equalMatch
  have hN : 0 ≤ 36 * N := by have := hf.n; omega
  split
  · exact Agree.ok (Bd.zero hN)
  · refine Agree.bind (Agree.refl _) fun x _ => ?_
    cases x with
    | none => exact Agree.ok (Bd.none _)
    | some i =>
      dsimp only
      split
      · exact Agree.ok (Bd.none _)
      · refine Agree.bind (Agree.refl _) fun y _ => ?_
        cases y with
        | none => exact Agree.ok (Bd.none _)
        | some j =>
          refine Agree.bind (Agree.refl _) fun u _ => ?_
          split
          · exact Agree.ok (Bd.none _)
          · refine Agree.bind (Agree.refl _) fun sl _ => Agree.bind (Agree.refl _) fun l _ => ?_
            cases zipLoop eq true p.text l with
            | none => exact Agree.ok (Bd.none _)
            | some z =>
              dsimp only
              split
              · exact Agree.ok (Bd.none _)
              · exact finishExact_agree hS hf _ _

/-! ### `FzfV2` -/

/-- A bonus is between 0 and 10 and the bonuses already computed are at most 10. -/
def CvBd (cv : CandidateV2) : Prop := ∀ b ∈ cv.bonuses, b.isSet = true → b.value ≤ 10

theorem bonusAt_bd (hS : BonusBd scheme) {cv : CandidateV2} (h : CvBd cv) (i : Nat) :
    Agree (fun x => CvBd x.1 ∧ 0 ≤ x.2 ∧ x.2 ≤ 10) (cv.bonusAt U i scheme) (cv.bonusAt U i scheme) := by
  unfold CandidateV2.bonusAt
  refine Agree.bind (Agree.refl _) fun b hb => ?_
  have hb := getR_eq_ok.mp hb
  split
  · rename_i hset
    have := h b (List.mem_of_getElem? hb) hset
    exact Agree.ok ⟨h, by simp only [BonusCell.get]; somega, by simp only [BonusCell.get]; somega⟩
  · have key : ∀ cls : CharClass, Agree (fun x : CandidateV2 × Score => CvBd x.1 ∧ 0 ≤ x.2 ∧ x.2 ≤ 10)
        (do
          let thisClass := charClass U (← cv.base.char i) scheme
          let bonus := BonusCell.set (computeBonus cls thisClass scheme)
          return ({ cv with bonuses := ← setR cv.bonuses i bonus }, bonus.get))
        (do
          let thisClass := charClass U (← cv.base.char i) scheme
          let bonus := BonusCell.set (computeBonus cls thisClass scheme)
          return ({ cv with bonuses := ← setR cv.bonuses i bonus }, bonus.get)) := by
      intro cls
      refine Agree.bind (Agree.refl _) fun ch _ => Agree.bind (Agree.refl _) fun l hl => ?_
      have hbn := hS cls (charClass U ch scheme)
      generalize computeBonus cls (charClass U ch scheme) scheme = bn at *
      have hl' : l = cv.bonuses.set i (BonusCell.set bn) := by
        unfold setR at hl; split at hl <;> simp at hl; exact hl.symm
      refine Agree.ok ⟨?_, ?_, ?_⟩
      · intro b' hb' hset
        dsimp only at hb'
        rw [hl'] at hb'
        rcases List.mem_or_eq_of_mem_set hb' with h1 | rfl
        · exact h b' h1 hset
        · simp only [BonusCell.set]; somega
      · simp only [BonusCell.set, BonusCell.get]; somega
      · simp only [BonusCell.set, BonusCell.get]; somega
    split
    · exact key _
    · exact Agree.bind (Agree.refl _) fun cls _ => key cls

/-- The scores of a row: the score in column `i` is at least `-3 * (i + 1)`, and none exceeds `K`. -/
def RowBd (K : Int) (w : Nat) (row : List Score) : Prop :=
  row.length = w ∧ ∀ (i : Nat) (v : Int), row[i]? = some v → -(3 * ((i : Int) + 1)) ≤ v ∧ v ≤ K

theorem RowBd.mono {K K' : Int} {w : Nat} {row : List Score} (h : RowBd K w row) (hK : K ≤ K') : RowBd K' w row :=
  ⟨h.1, fun i v hv => by have := h.2 i v hv; omega⟩

theorem setR_bd {K : Int} {w : Nat} {row : List Score} (h : RowBd K w row) (i : Nat) (v : Int)
    (hv : i < w → -(3 * ((i : Int) + 1)) ≤ v ∧ v ≤ K) :
    Agree (fun row' => RowBd K w row' ∧ i < w) (setR row i v) (setR row i v) := by
  refine Agree.self _ fun row' h' => ?_
  unfold setR at h'
  split at h' <;> simp at h'
  rename_i hi
  have hi : i < w := by rw [← h.1]; simpa using hi
  subst h'
  refine ⟨⟨by simp [h.1], fun j u hu => ?_⟩, hi⟩
  rw [List.getElem?_set] at hu
  split at hu
  · rename_i hij
    subst hij
    obtain rfl := Option.some.inj hu
    exact hv hi
  · exact h.2 j u hu

/-- A penalty. -/
def PenBd (v : Int) : Prop := 1 ≤ v ∧ v ≤ 3

theorem firstRowGap_agree {K : Int} {w : Nat} (hw : 3 * (w : Int) + 6 < 2 ^ 63) (hK0 : 0 ≤ K) (hK : K < 2 ^ 63) (n : Nat) :
    ∀ (col : Nat) (row : List Score) (prev pen : Int), RowBd K w row → -(3 * (col : Int)) ≤ prev ∧ prev ≤ K →
    PenBd pen →
    Agree (fun x => RowBd K w x.1 ∧ PenBd x.2.2)
      (firstRowGap n col row prev pen) (Norm.firstRowGap n col row prev pen) := by
  induction n with
  | zero => intro col row prev pen h hp hpen; exact Agree.ok ⟨h, hpen⟩
  | succ n ih =>
    intro col row prev pen h hp hpen
    unfold PenBd at hpen
    unfold firstRowGap Norm.firstRowGap
    by_cases hc : col < w
    · dsimp only
      rw [satSub_eq (by omega) (by omega)]
      unfold saturatingSub
      refine Agree.bind (setR_bd h col (prev - pen) fun _ => by omega) fun row' h' =>
        ih (col + 1) row' (prev - pen) _ h'.1 (by push_cast; omega) (by unfold PenBd; decide)
    · have : ∀ v : Score, setR row col v = .panic := by
        intro v; unfold setR; rw [if_neg (by rw [h.1]; exact hc)]
      dsimp only
      rw [this, this]
      exact Agree.panic

structure FirstBd (w : Nat) (st : FirstRowState) : Prop where
  row : RowBd 36 w st.scores
  cv : CvBd st.candidate
  max : 0 ≤ st.maxScore ∧ st.maxScore ≤ 36
  prev : -(3 * ((st.column : Int) + 1)) ≤ st.prevScore ∧ st.prevScore ≤ 36
  pen : PenBd st.penalty

theorem firstRowLoop_agree (hS : BonusBd scheme) {w : Nat} (hw : 3 * (w : Int) + 6 < 2 ^ 63) (offs : List Nat) :
    ∀ st, FirstBd w st → Agree (FirstBd w) (firstRowLoop U scheme offs st) (Norm.firstRowLoop U scheme offs st) := by
  induction offs with
  | nil => intro st h; exact Agree.ok h
  | cons o offs ih =>
    intro st h
    obtain ⟨hrow, hcv, hmax, hprev, hpen⟩ := h
    unfold firstRowLoop Norm.firstRowLoop
    refine Agree.bind (firstRowGap_agree hw (by omega) (by omega) _ _ _ _ _ hrow (by push_cast; omega)
      (by unfold PenBd; decide)) fun x hx => Agree.bind (Agree.refl _) fun cons _ =>
      Agree.bind (bonusAt_bd hS hcv o) fun y hy => ?_
    obtain ⟨row, pv, pen⟩ := x
    obtain ⟨cv, bn⟩ := y
    obtain ⟨hcv', hb⟩ := hy
    dsimp only at hx hcv' hb ⊢
    have hm : Bonus.match = 16 := rfl
    have hq : Bonus.firstQueryCharMultiplier = 2 := rfl
    rw [hm, hq, mul_ok (by somega) (by somega), Res.bind_ok, add_ok (by somega) (by somega), Res.bind_ok]
    have hs : 16 ≤ 16 + bn * 2 ∧ 16 + bn * 2 ≤ 36 := by constructor <;> somega
    generalize 16 + bn * 2 = sc at *
    refine Agree.bind (setR_bd hx.1 o sc fun _ => by constructor <;> somega) fun row' h' => ?_
    refine ih _ ⟨h'.1, hcv', ?_, ?_, hx.2⟩
    · dsimp only; split <;> dsimp only
      · constructor <;> somega
      · exact hmax
    · dsimp only; constructor <;> somega

theorem scoreFirstRow_agree (hS : BonusBd scheme) {w : Nat} (hw : 3 * (w : Int) + 6 < 2 ^ 63) {scores : List Score}
    {cons : List Nat} {ch : Char} {cv : CandidateV2} (hrow : RowBd 36 w scores) (hcv : CvBd cv) :
    Agree (fun x => RowBd 36 w x.1 ∧ CvBd x.2.2.1 ∧ 0 ≤ x.2.2.2.1 ∧ x.2.2.2.1 ≤ 36)
      (scoreFirstRow U scores cons ch cv scheme) (Norm.scoreFirstRow U scores cons ch cv scheme) := by
  unfold scoreFirstRow Norm.scoreFirstRow
  refine Agree.bind (Agree.refl _) fun offs _ => Agree.bind (firstRowLoop_agree hS hw offs _
    ⟨hrow, hcv, by dsimp only; decide, by dsimp only; decide, by unfold PenBd; dsimp only; decide⟩) fun st hst => ?_
  obtain ⟨hrow, hcv, hmax, hprev, hpen⟩ := hst
  refine Agree.bind (firstRowGap_agree hw (by omega) (by omega) _ _ _ _ _ hrow (by push_cast; omega) hpen) fun x hx => ?_
  exact Agree.ok ⟨hx.1, hcv, hmax⟩

theorem rowGap_agree {K : Int} {w : Nat} (hw : 3 * (w : Int) + 6 < 2 ^ 63) (hK : K < 2 ^ 63) (n : Nat) :
    ∀ (col : Nat) (row : List Score) (pen : Int), RowBd K w row → PenBd pen →
    Agree (fun x => RowBd K w x.1 ∧ PenBd x.2) (rowGap n col row pen) (Norm.rowGap n col row pen) := by
  induction n with
  | zero => intro col row pen h hpen; exact Agree.ok ⟨h, hpen⟩
  | succ n ih =>
    intro col row pen h hpen
    unfold PenBd at hpen
    unfold rowGap Norm.rowGap
    refine Agree.bind (Agree.refl _) fun i hi => Agree.bind (Agree.refl _) fun v hv => ?_
    have hi' : i + 1 = col := by unfold subR at hi; split at hi <;> simp at hi; omega
    have hv := getR_eq_ok.mp hv
    have hiw : i < w := by rw [← h.1]; exact (List.getElem?_eq_some_iff.mp hv).1
    have hb := h.2 i v hv
    rw [satSub_eq (by somega) (by somega)]
    unfold saturatingSub
    have hb' : -(3 * ((col : Int) + 1)) ≤ v - pen ∧ v - pen ≤ K := by constructor <;> somega
    exact Agree.bind (setR_bd h col (v - pen) fun _ => hb') fun row' h' =>
      ih (col + 1) row' _ h'.1 (by unfold PenBd; decide)

structure RowStBd (K : Int) (w : Nat) (st : RowState) : Prop where
  row : RowBd K w st.scores
  cv : CvBd st.candidate
  max : 0 ≤ st.maxScore ∧ st.maxScore ≤ K
  pen : PenBd st.penalty

theorem max3_bd' {x y : Int} (hx : 0 ≤ x ∧ x ≤ 10) (hy : 0 ≤ y ∧ y ≤ 10) :
    0 ≤ max (max 4 y) x ∧ max (max 4 y) x ≤ 10 := by omega

theorem max2_bd {x y l K : Int} (hx : l ≤ x ∧ x ≤ K) (hy : y ≤ K) : l ≤ max x y ∧ max x y ≤ K := by omega

theorem rowLoop_agree (hS : BonusBd scheme) {K : Int} {w : Nat} (hw : 3 * (w : Int) + 6 < 2 ^ 63) (hK0 : 0 ≤ K)
    (hK : K + 26 < 2 ^ 63) (rowIdx : Nat) {prevS : List Score} {prevC : List Nat} (hprev : RowBd K w prevS)
    (offs : List Nat) : ∀ st, RowStBd (K + 26) w st → Agree (RowStBd (K + 26) w)
      (rowLoop U scheme w rowIdx prevS prevC offs st) (Norm.rowLoop U scheme w rowIdx prevS prevC offs st) := by
  induction offs with
  | nil => intro st h; exact Agree.ok h
  | cons o offs ih =>
    intro st h
    obtain ⟨hrow, hcv, hmax, hpen⟩ := h
    unfold rowLoop Norm.rowLoop
    refine Agree.bind (rowGap_agree hw (by omega) _ _ _ _ hrow (by unfold PenBd; decide)) fun x hx => ?_
    obtain ⟨row, pen⟩ := x
    obtain ⟨hrow', hpen'⟩ := hx
    unfold PenBd at hpen'
    dsimp only at hrow' hpen' ⊢
    refine Agree.bind (Agree.refl _) fun i hi => Agree.bind (Agree.refl _) fun v hv => ?_
    have hi' : i + 1 = o := by unfold subR at hi; split at hi <;> simp at hi; omega
    have hv := getR_eq_ok.mp hv
    have hiw : i < w := by rw [← hrow'.1]; exact (List.getElem?_eq_some_iff.mp hv).1
    have hb := hrow'.2 i v hv
    rw [satSub_eq (by somega) (by somega)]
    unfold saturatingSub
    have hleft : -(3 * ((o : Int) + 1)) ≤ v - pen ∧ v - pen ≤ K + 26 := by constructor <;> somega
    generalize v - pen = left at *
    refine Agree.bind (Agree.refl _) fun i' hi' => Agree.bind (Agree.refl _) fun u hu => ?_
    have hu := getR_eq_ok.mp hu
    have hu' := hprev.2 i' u hu
    have hi'' : i' < w := by rw [← hprev.1]; exact (List.getElem?_eq_some_iff.mp hu).1
    have hm : Bonus.match = 16 := rfl
    rw [hm, add_ok (by somega) (by somega), Res.bind_ok]
    refine Agree.bind (bonusAt_bd hS hcv o) fun y hy => ?_
    obtain ⟨cv, bn⟩ := y
    obtain ⟨hcv', hbn⟩ := hy
    dsimp only at hcv' hbn ⊢
    refine Agree.bind (Agree.refl _) fun j _ => Agree.bind (Agree.refl _) fun cc _ => ?_
    have tail : ∀ (cv : CandidateV2) (bn : Int) (cc : Nat), CvBd cv → 0 ≤ bn ∧ bn ≤ 10 →
        Agree (RowStBd (K + 26) w)
        (do
          let sum ← add (u + 16) bn
          let (candidate, b, consecutive) ←
            if sum < left then
              (do
                let (candidate, b) ← cv.bonusAt U o scheme
                return (candidate, b, 0) : Res (CandidateV2 × Score × Nat))
            else pure (cv, bn, cc)
          let scoreUpLeft ← add (u + 16) b
          let score := max left scoreUpLeft
          let (maxScore, maxScoreCell) :=
            if score > st.maxScore then (score, rowIdx * w + o)
            else (st.maxScore, st.maxScoreCell)
          let consecutives ← setR st.consecutives o consecutive
          let scores ← setR row o score
          rowLoop U scheme w rowIdx prevS prevC offs {
            scores := scores, consecutives := consecutives, candidate := candidate
            maxScore := maxScore, maxScoreCell := maxScoreCell, column := o, penalty := pen })
        (do
          let (candidate, scoreUpLeft, consecutive) ←
            if u + 16 + bn < left then
              (do
                let (candidate, b) ← cv.bonusAt U o scheme
                return (candidate, u + 16 + b, 0) : Res (CandidateV2 × Score × Nat))
            else pure (cv, u + 16 + bn, cc)
          let score := max left scoreUpLeft
          let (maxScore, maxScoreCell) :=
            if score > st.maxScore then (score, rowIdx * w + o)
            else (st.maxScore, st.maxScoreCell)
          let consecutives ← setR st.consecutives o consecutive
          let scores ← setR row o score
          Norm.rowLoop U scheme w rowIdx prevS prevC offs {
            scores := scores, consecutives := consecutives, candidate := candidate
            maxScore := maxScore, maxScoreCell := maxScoreCell, column := o, penalty := pen }) := by
      intro cv bn cc hcv hbn
      have last : ∀ (cv : CandidateV2) (b : Int) (cc : Nat), CvBd cv → 0 ≤ b ∧ b ≤ 10 →
          Agree (RowStBd (K + 26) w)
          (do
            let scoreUpLeft ← add (u + 16) b
            let score := max left scoreUpLeft
            let (maxScore, maxScoreCell) :=
              if score > st.maxScore then (score, rowIdx * w + o)
              else (st.maxScore, st.maxScoreCell)
            let consecutives ← setR st.consecutives o cc
            let scores ← setR row o score
            rowLoop U scheme w rowIdx prevS prevC offs {
              scores := scores, consecutives := consecutives, candidate := cv
              maxScore := maxScore, maxScoreCell := maxScoreCell, column := o, penalty := pen })
          (do
            let score := max left (u + 16 + b)
            let (maxScore, maxScoreCell) :=
              if score > st.maxScore then (score, rowIdx * w + o)
              else (st.maxScore, st.maxScoreCell)
            let consecutives ← setR st.consecutives o cc
            let scores ← setR row o score
            Norm.rowLoop U scheme w rowIdx prevS prevC offs {
              scores := scores, consecutives := consecutives, candidate := cv
              maxScore := maxScore, maxScoreCell := maxScoreCell, column := o, penalty := pen }) := by
        intro cv b cc hcv hb
        rw [add_ok (by somega) (by somega), Res.bind_ok]
        have hsc : -(3 * ((o : Int) + 1)) ≤ max left (u + 16 + b) ∧ max left (u + 16 + b) ≤ K + 26 :=
          max2_bd hleft (by somega)
        generalize max left (u + 16 + b) = sc at *
        dsimp only
        refine Agree.bind (Agree.refl _) fun cons _ => Agree.bind (setR_bd hrow' o sc fun _ => hsc) fun row' h' => ?_
        refine ih _ ⟨h'.1, hcv, ?_, hpen'⟩
        dsimp only; split <;> dsimp only
        · constructor <;> somega
        · exact hmax
      rw [add_ok (by somega) (by somega), Res.bind_ok]
      split
      · simp only [Res.bind_assoc]
        exact Agree.bind (bonusAt_bd hS hcv o) fun y hy => last y.1 y.2 0 hy.1 hy.2
      · exact last cv bn cc hcv hbn
    split
    · refine Agree.bind (P := fun z => CvBd z.1 ∧ 0 ≤ z.2.1 ∧ z.2.1 ≤ 10) ?_ fun z hz => tail z.1 z.2.1 z.2.2 hz.1 hz.2
      refine Agree.bind (Agree.refl _) fun k _ => Agree.bind (bonusAt_bd hS hcv' k) fun z hz => ?_
      obtain ⟨cv', fb⟩ := z
      obtain ⟨hcv'', hfb⟩ := hz
      dsimp only at hcv'' hfb ⊢
      split
      · exact Agree.ok ⟨hcv'', hbn⟩
      · exact Agree.ok ⟨hcv'', max3_bd' hbn hfb⟩
    · exact tail cv bn _ hcv' hbn

/-- The scores of a matrix of width `w`. -/
def MatBd (K : Int) (w : Nat) (m : Matrix Score) : Prop :=
  m.width = w ∧ ∀ (k : Nat) (v : Int), m.slice[k]? = some v → -(3 * (((k % w : Nat) : Int) + 1)) ≤ v ∧ v ≤ K

theorem MatBd.mono {K K' : Int} {w : Nat} {m : Matrix Score} (h : MatBd K w m) (hK : K ≤ K') : MatBd K' w m :=
  ⟨h.1, fun i v hv => by have := h.2 i v hv; omega⟩

theorem MatBd.slice {K : Int} {w : Nat} {m : Matrix Score} (h : MatBd K w m) (r : Nat) {row : List Score}
    (hl : row.length = w) (hr : ∀ i, i < w → row[i]? = m.slice[r * w + i]?) : RowBd K w row := by
  refine ⟨hl, fun i v hv => ?_⟩
  have hi : i < w := by rw [← hl]; exact (List.getElem?_eq_some_iff.mp hv).1
  have := h.2 (r * w + i) v (by rw [← hr i hi]; exact hv)
  rwa [Nat.add_comm, Nat.add_mul_mod_self_right, Nat.mod_eq_of_lt hi] at this

theorem row_bd {K : Int} {w : Nat} {m : Matrix Score} (h : MatBd K w m) (r : Nat) :
    Agree (RowBd K w) (m.row r) (m.row r) := by
  refine Agree.self _ fun row hrow => ?_
  unfold Matrix.row sliceR at hrow
  rw [h.1] at hrow
  split at hrow <;> simp at hrow
  rename_i hb
  subst hrow
  refine h.slice r ?_ fun i hi => ?_
  · simp at hb ⊢; omega
  · rw [List.getElem?_drop, List.getElem?_take, if_pos (by omega)]

theorem twoRows_bd {K : Int} {w : Nat} {m : Matrix Score} (h : MatBd K w m) (ra rb : Nat) :
    Agree (fun x => RowBd K w x.1 ∧ RowBd K w x.2) (m.twoRows ra rb) (m.twoRows ra rb) := by
  unfold Matrix.twoRows
  rw [h.1]
  refine Agree.bind (Agree.refl _) fun _ _ => Agree.bind (Agree.refl _) fun pa hpa => Agree.bind (Agree.refl _) fun pb hpb =>
    Agree.bind (Agree.refl _) fun x hx => Agree.bind (Agree.refl _) fun y hy => Agree.ok ⟨?_, ?_⟩
  · unfold sliceToR at hpa
    unfold sliceR at hx
    split at hpa <;> simp at hpa
    split at hx <;> simp at hx
    subst hpa; subst hx
    rename_i h1 h2
    refine h.slice ra ?_ fun i hi => ?_
    · simp at h2 ⊢; omega
    · simp only [List.length_take] at h2
      rw [List.getElem?_drop, List.getElem?_take, if_pos (by omega), List.getElem?_take, if_pos (by omega)]
  · unfold sliceFromR at hpb
    unfold sliceToR at hy
    split at hpb <;> simp at hpb
    split at hy <;> simp at hy
    subst hpb; subst hy
    rename_i h1 h2
    refine h.slice rb ?_ fun i hi => ?_
    · simp at h2 ⊢; omega
    · rw [List.getElem?_take, if_pos hi, List.getElem?_drop]

theorem setRow_bd {K : Int} {w : Nat} {m : Matrix Score} (h : MatBd K w m) {r : Nat} {row : List Score}
    (hrow : RowBd K w row) (hr : r * w ≤ m.slice.length) : MatBd K w (m.setRow r row) := by
  refine ⟨h.1, fun k v hv => ?_⟩
  unfold Matrix.setRow at hv
  rw [h.1] at hv
  dsimp only at hv
  rw [List.getElem?_append] at hv
  have hlt : (m.slice.take (r * w)).length = r * w := by simp; omega
  split at hv
  · rw [List.getElem?_append] at hv
    split at hv
    · rw [List.getElem?_take, if_pos (by omega)] at hv
      exact h.2 k v hv
    · rename_i h1 h2
      rw [hlt] at h2 hv
      have hi : k - r * w < w := Nat.lt_of_lt_of_eq (List.getElem?_eq_some_iff.mp hv).1 hrow.1
      have := hrow.2 _ v hv
      have hk : k % w = k - r * w := by
        have : k = (k - r * w) + r * w := by omega
        rw [this, Nat.add_mul_mod_self_right, Nat.mod_eq_of_lt hi]; omega
      rwa [hk]
  · rename_i h1
    rw [List.length_append, hlt, hrow.1] at hv h1
    rw [List.getElem?_drop] at hv
    have := h.2 _ v hv
    rwa [show r * w + w + (k - (r * w + w)) = k by omega] at this

theorem twoRows_len {α : Type} {m : Matrix α} {ra rb : Nat} {x : List α × List α} (h : m.twoRows ra rb = .ok x) :
    rb * m.width ≤ m.slice.length := by
  unfold Matrix.twoRows at h
  simp only [Res.bind_eq_ok] at h
  obtain ⟨_, _, pa, hpa, _⟩ := h
  unfold sliceToR at hpa
  split at hpa <;> simp at hpa
  assumption

theorem remainingRowsLoop_agree (hS : BonusBd scheme) {w : Nat} (hw : 3 * (w : Int) + 6 < 2 ^ 63) (mo : List Nat)
    (n : Nat) : ∀ (rowIdx : Nat) (ms : Matrix Score) (mc : Matrix Nat) (cv : CandidateV2) (mx : Int) (cell : Nat) (K : Int),
    0 ≤ K → K + 26 * n < 2 ^ 63 → MatBd K w ms → CvBd cv → 0 ≤ mx ∧ mx ≤ K →
    Agree (fun x => 0 ≤ x.2.2.2.1 ∧ K + 26 * n ≥ x.2.2.2.1)
      (remainingRowsLoop U scheme p mo n rowIdx ms mc cv mx cell)
      (Norm.remainingRowsLoop U scheme p mo n rowIdx ms mc cv mx cell) := by
  induction n with
  | zero =>
    intro rowIdx ms mc cv mx cell K hK0 hK hms hcv hmx
    exact Agree.ok ⟨hmx.1, by dsimp only; omega⟩
  | succ n ih =>
    intro rowIdx ms mc cv mx cell K hK0 hK hms hcv hmx
    unfold remainingRowsLoop Norm.remainingRowsLoop
    dsimp only
    refine Agree.bind (Agree.refl _) fun pc _ => Agree.bind (Agree.refl _) fun i _ => ?_
    refine Agree.bind (P := fun x => (RowBd K w x.1 ∧ RowBd K w x.2) ∧ rowIdx * w ≤ ms.slice.length)
      (Agree.self _ fun x hx => ⟨(twoRows_bd hms i rowIdx).2 x hx, hms.1 ▸ twoRows_len hx⟩) fun x hx => ?_
    refine Agree.bind (Agree.refl _) fun j _ => Agree.bind (Agree.refl _) fun y _ => Agree.bind (Agree.refl _) fun fo _ =>
      Agree.bind (Agree.refl _) fun offs _ => ?_
    obtain ⟨⟨hxa, hxb⟩, hlen⟩ := hx
    rw [hms.1]
    push_cast at hK
    refine Agree.bind (rowLoop_agree hS hw hK0 (by omega) rowIdx hxa offs _
      ⟨hxb.mono (by omega), hcv, by dsimp only; constructor <;> somega, by unfold PenBd; dsimp only; decide⟩) fun st hst => ?_
    obtain ⟨hrow, hcv', hmax', hpen'⟩ := hst
    refine Agree.bind (rowGap_agree hw (by omega) _ _ _ _ hrow hpen') fun z hz => ?_
    refine (ih (rowIdx + 1) _ _ _ _ _ (K + 26) (by omega) (by omega)
      (setRow_bd (hms.mono (by omega)) hz.1 hlen) hcv' hmax').mono ?_
    intro a ha
    refine ⟨ha.1, ?_⟩
    have := ha.2
    push_cast
    somega

theorem v2Score_agree (hS : BonusBd scheme) {cv : CandidateV2} (hw : 3 * (cv.base.charLen : Int) + 6 < 2 ^ 63)
    (hp : 26 * (p.text.length : Int) + 36 < 2 ^ 63) (hcv : CvBd cv) (ss : List Score) (cs mo : List Nat) :
    Agree (fun x => 0 ≤ x.2.2.2.2.2.1 ∧ 36 + 26 * (p.text.length : Int) ≥ x.2.2.2.2.2.1)
      (v2Score U ss cs p cv mo scheme) (Norm.v2Score U ss cs p cv mo scheme) := by
  unfold v2Score Norm.v2Score
  dsimp only
  refine Agree.bind (P := fun x => MatBd 36 cv.base.charLen x.2 ∧ x.2.height = p.text.length) (Agree.self _ fun x hx => ?_)
    fun x hx => ?_
  · unfold matrixAlloc at hx
    simp only [Res.bind_eq_ok, Res.pure_def, Res.ok.injEq] at hx
    obtain ⟨_, _, l, _, rfl⟩ := hx
    refine ⟨⟨rfl, fun k v hv => ?_⟩, rfl⟩
    simp only [List.getElem?_map, Option.map_eq_some_iff] at hv
    obtain ⟨_, _, rfl⟩ := hv
    constructor <;> omega
  · obtain ⟨hx, hh⟩ := hx
    refine Agree.bind (Agree.refl _) fun y _ => ?_
    refine Agree.bind (row_bd hx 0) fun r hr => Agree.bind (Agree.refl _) fun cr _ => Agree.bind (Agree.refl _) fun pc _ =>
      Agree.bind (scoreFirstRow_agree hS hw hr hcv) fun z hz => ?_
    refine Agree.bind (remainingRowsLoop_agree hS hw mo _ _ _ _ _ _ _ 36 (by omega) (by rw [hh]; omega)
      (setRow_bd hx hz.1 (by omega)) hz.2.1 hz.2.2) fun a ha => Agree.ok ⟨ha.1, ?_⟩
    have h1 := ha.2
    rw [hh] at h1
    exact Int.le_trans h1 (by omega)

theorem singleCharLoop_agree (hS : BonusBd scheme) (offs : List Nat) : ∀ (mx : Int) (pos : Nat), 0 ≤ mx ∧ mx ≤ 36 →
    Agree (fun x => 0 ≤ x.1 ∧ x.1 ≤ 36)
      (singleCharLoop U c scheme offs mx pos) (Norm.singleCharLoop U c scheme offs mx pos) := by
  induction offs with
  | nil => intro mx pos h; exact Agree.ok h
  | cons o offs ih =>
    intro mx pos h
    unfold singleCharLoop Norm.singleCharLoop
    have key : ∀ cls : CharClass, Agree (fun x : Score × Nat => 0 ≤ x.1 ∧ x.1 ≤ 36)
        (do
          let thisClass := charClass U (← c.char o) scheme
          let bonus := computeBonus cls thisClass scheme
          let score ← add Bonus.match (← mul bonus Bonus.firstQueryCharMultiplier)
          if score > mx then singleCharLoop U c scheme offs score o
          else singleCharLoop U c scheme offs mx pos)
        (do
          let thisClass := charClass U (← c.char o) scheme
          let bonus := computeBonus cls thisClass scheme
          let score := Bonus.match + bonus * Bonus.firstQueryCharMultiplier
          if score > mx then Norm.singleCharLoop U c scheme offs score o
          else Norm.singleCharLoop U c scheme offs mx pos) := by
      intro cls
      refine Agree.bind (Agree.refl _) fun ch _ => ?_
      have hb := hS cls (charClass U ch scheme)
      dsimp only
      generalize computeBonus cls (charClass U ch scheme) scheme = bn at *
      have hm : Bonus.match = 16 := rfl
      have hq : Bonus.firstQueryCharMultiplier = 2 := rfl
      rw [hm, hq, mul_ok (by somega) (by somega), Res.bind_ok, add_ok (by somega) (by somega), Res.bind_ok]
      split
      · exact ih _ _ (by constructor <;> somega)
      · exact ih _ _ h
    split
    · exact key _
    · exact Agree.bind (Agree.refl _) fun cls _ => key cls

theorem fuzzySingleChar_agree (hS : BonusBd scheme) (ch : Char) (opts : CandidateOpts) (rs : MatchedRanges) :
    Agree (fun x => Bd 36 x.2)
      (fuzzySingleChar U RANGES ch c opts scheme rs) (Norm.fuzzySingleChar U RANGES ch c opts scheme rs) := by
  unfold fuzzySingleChar Norm.fuzzySingleChar
  refine Agree.bind (Agree.refl _) fun offs _ =>
    Agree.bind (singleCharLoop_agree hS offs 0 0 (by decide)) fun x hx => ?_
  dsimp only
  have hb : Bd 36 (some x.1) := by intro v hv; obtain rfl := Option.some.inj hv; exact ⟨Int.le_trans (by decide) hx.1, hx.2⟩
  split
  · exact Agree.ok (Bd.none _)
  · cases RANGES <;> simp only [Bool.false_eq_true, if_false, if_true]
    · exact Agree.ok hb
    · exact Agree.bind (Agree.refl _) fun _ _ => Agree.ok hb

theorem Bd.mono {M M' : Int} {x : Option Score} (h : Bd M x) (hM : M ≤ M') : Bd M' x := by
  intro v hv; have := h v hv; constructor <;> somega

theorem fuzzyV1_agree {self : FzfV1} (hS : BonusBd self.scoringScheme) (hf : Fits N p c) (rs : MatchedRanges) :
    Agree (fun x => BonusBd x.1.scoringScheme ∧ Bd (40 * N + 40) x.2.2)
      (fuzzyV1 U RANGES self p c rs) (FzfV1.fuzzy U RANGES self p c rs) := by
  unfold fuzzyV1 FzfV1.fuzzy
  refine Agree.bind (Agree.refl _) fun x _ => ?_
  have hN := hf.n
  cases x with
  | none => exact Agree.ok ⟨hS, Bd.none _⟩
  | some e =>
    refine Agree.bind (Agree.refl _) fun b _ => Agree.bind (computeScore_agree hS hf _ rs) fun y hy => Agree.ok ⟨hS, ?_⟩
    rintro v ⟨⟩; constructor <;> somega

theorem fuzzyV2_agree {self : FzfV2} (hS : BonusBd self.scoringScheme) (hf : Fits N p c) (rs : MatchedRanges) :
    Agree (fun x => BonusBd x.1.scoringScheme ∧ Bd (40 * N + 40) x.2.2)
      (fuzzyV2 U RANGES self p c rs) (FzfV2.fuzzy U RANGES self p c rs) := by
  unfold fuzzyV2 FzfV2.fuzzy
  have hN := hf.n
  have hm := hf.m
  have hb := hf.b
  dsimp only
  split
  · exact Agree.bind (Agree.refl _) fun ch _ => Agree.bind (fuzzySingleChar_agree hS ch _ rs) fun y hy =>
      Agree.ok ⟨hS, hy.mono (by omega)⟩
  · refine Agree.bind (Agree.refl _) fun x _ => ?_
    obtain ⟨ind, mo, last⟩ := x
    cases last with
    | none => exact Agree.ok ⟨hS, Bd.none _⟩
    | some last =>
      refine Agree.bind (Agree.refl _) fun fo _ => ?_
      have rest : ∀ (sb : Nat) (cls : CharClass), Agree (fun x => BonusBd x.1.scoringScheme ∧ Bd (40 * N + 40) x.2.2)
          (do
            let base ← c.slice ⟨fo, last⟩
            let (bonusSlab, bonuses) ← bonusAlloc self.slab.bonus base.charLen
            let candidateV2 : CandidateV2 := ⟨bonuses, base, cls,
              CandidateOpts.new (isSensitive self.caseSensitivity p) self.candidateNormalization⟩
            let matchOffsets ← shiftOffsets fo mo
            let (scoringSlab, consecutiveSlab, scores, consecutives, candidateV2, score, scoreCell) ←
              v2Score U self.slab.scoringMatrix self.slab.consecutiveMatrix p candidateV2
                matchOffsets self.scoringScheme
            let ranges ←
              if RANGES then
                v2MatchedRanges scores consecutives scoreCell candidateV2.base sb rs
              else pure rs
            return ({ self with slab := {
              bonus := writeBack bonusSlab candidateV2.bonuses
              consecutiveMatrix := writeBack consecutiveSlab consecutives.slice
              matchedIndices := writeBack ind matchOffsets
              scoringMatrix := writeBack scoringSlab scores.slice } }, ranges, some score))
          (do
            let base ← c.slice ⟨fo, last⟩
            let (bonusSlab, bonuses) ← bonusAlloc self.slab.bonus base.charLen
            let candidateV2 : CandidateV2 := ⟨bonuses, base, cls,
              CandidateOpts.new (isSensitive self.caseSensitivity p) self.candidateNormalization⟩
            let matchOffsets ← shiftOffsets fo mo
            let (scoringSlab, consecutiveSlab, scores, consecutives, candidateV2, score, scoreCell) ←
              Norm.v2Score U self.slab.scoringMatrix self.slab.consecutiveMatrix p candidateV2
                matchOffsets self.scoringScheme
            let ranges ←
              if RANGES then
                v2MatchedRanges scores consecutives scoreCell candidateV2.base sb rs
              else pure rs
            return ({ self with slab := {
              bonus := writeBack bonusSlab candidateV2.bonuses
              consecutiveMatrix := writeBack consecutiveSlab consecutives.slice
              matchedIndices := writeBack ind matchOffsets
              scoringMatrix := writeBack scoringSlab scores.slice } }, ranges, some score)) := by
        intro sb cls
        refine Agree.bind (Agree.refl _) fun base hbase => Agree.bind (Agree.refl _) fun bs hbs =>
          Agree.bind (Agree.refl _) fun mo' _ => ?_
        have hlen := slice_len hbase
        refine Agree.bind (v2Score_agree hS (by dsimp only; omega) (by omega) ?_ _ _ _) fun y hy => ?_
        · unfold bonusAlloc at hbs
          simp only [Res.bind_eq_ok, Res.pure_def, Res.ok.injEq] at hbs
          obtain ⟨l, _, rfl⟩ := hbs
          intro b hb hset
          simp only [List.mem_map] at hb
          obtain ⟨b', _, rfl⟩ := hb
          simp at hset
        · have hbd : Bd (40 * N + 40) (some y.2.2.2.2.2.1) := by
            intro v hv; obtain rfl := Option.some.inj hv
            exact ⟨Int.le_trans (by omega) hy.1, Int.le_trans hy.2 (by omega)⟩
          dsimp only
          cases RANGES <;> simp only [Bool.false_eq_true, if_false, if_true]
          · exact Agree.ok ⟨hS, hbd⟩
          · exact Agree.bind (Agree.refl _) fun _ _ => Agree.ok ⟨hS, hbd⟩
      have rest' : ∀ (sb : Nat), Agree (fun x => BonusBd x.1.scoringScheme ∧ Bd (40 * N + 40) x.2.2)
          (do
            let initialCharClass ←
              if fo == 0 then pure self.scoringScheme.initialCharClass
              else (do
                return charClass U (← c.char (fo - 1)) self.scoringScheme : Res CharClass)
            let base ← c.slice ⟨fo, last⟩
            let (bonusSlab, bonuses) ← bonusAlloc self.slab.bonus base.charLen
            let candidateV2 : CandidateV2 := ⟨bonuses, base, initialCharClass,
              CandidateOpts.new (isSensitive self.caseSensitivity p) self.candidateNormalization⟩
            let matchOffsets ← shiftOffsets fo mo
            let (scoringSlab, consecutiveSlab, scores, consecutives, candidateV2, score, scoreCell) ←
              v2Score U self.slab.scoringMatrix self.slab.consecutiveMatrix p candidateV2
                matchOffsets self.scoringScheme
            let ranges ←
              if RANGES then
                v2MatchedRanges scores consecutives scoreCell candidateV2.base sb rs
              else pure rs
            return ({ self with slab := {
              bonus := writeBack bonusSlab candidateV2.bonuses
              consecutiveMatrix := writeBack consecutiveSlab consecutives.slice
              matchedIndices := writeBack ind matchOffsets
              scoringMatrix := writeBack scoringSlab scores.slice } }, ranges, some score))
          (do
            let initialCharClass ←
              if fo == 0 then pure self.scoringScheme.initialCharClass
              else (do
                return charClass U (← c.char (fo - 1)) self.scoringScheme : Res CharClass)
            let base ← c.slice ⟨fo, last⟩
            let (bonusSlab, bonuses) ← bonusAlloc self.slab.bonus base.charLen
            let candidateV2 : CandidateV2 := ⟨bonuses, base, initialCharClass,
              CandidateOpts.new (isSensitive self.caseSensitivity p) self.candidateNormalization⟩
            let matchOffsets ← shiftOffsets fo mo
            let (scoringSlab, consecutiveSlab, scores, consecutives, candidateV2, score, scoreCell) ←
              Norm.v2Score U self.slab.scoringMatrix self.slab.consecutiveMatrix p candidateV2
                matchOffsets self.scoringScheme
            let ranges ←
              if RANGES then
                v2MatchedRanges scores consecutives scoreCell candidateV2.base sb rs
              else pure rs
            return ({ self with slab := {
              bonus := writeBack bonusSlab candidateV2.bonuses
              consecutiveMatrix := writeBack consecutiveSlab consecutives.slice
              matchedIndices := writeBack ind matchOffsets
              scoringMatrix := writeBack scoringSlab scores.slice } }, ranges, some score)) := by
        intro sb
        cases fo == 0 <;> simp only [Bool.false_eq_true, if_false, if_true]
        · exact Agree.bind (Agree.refl _) fun cls _ => rest sb cls
        · exact rest sb _
      cases RANGES <;> simp only [Bool.false_eq_true, if_false, if_true]
      · exact rest' 0
      · exact Agree.bind (Agree.refl _) fun sb _ => rest' sb

/-! ### Patterns, conditions and calls -/

/-- The implementation `IC` of `Fzf` with checked arithmetic agrees with `I`, on the states that satisfy `J`. -/
structure ImplAgree {σ : Type} (IC I : FzfImpl σ) (J : σ → Prop) (N : Int) : Prop where
  alloc : IC.allocChars = I.allocChars
  eq : IC.charEq = I.charEq
  sch : IC.scheme = I.scheme
  bonus : ∀ self, J self → BonusBd (I.scheme self)
  keep : ∀ self s x, J self → I.allocChars self s = .ok x → J x.1 ∧ x.2.length = s.length
  fuzzy : ∀ R self p c rs, J self → Fits N p c →
    Agree (fun x => J x.1 ∧ Bd (40 * N + 40) x.2.2) (IC.fuzzy R self p c rs) (I.fuzzy R self p c rs)

theorem implV1_agree : ImplAgree (implV1 U) (FzfV1.impl U) (fun m => BonusBd m.scoringScheme) N where
  alloc := rfl
  eq := rfl
  sch := rfl
  bonus _ h := h
  keep self s x h hx := by
    obtain ⟨slab, hs⟩ := candidateAlloc_eq self.candidateSlab s
    simp only [FzfV1.impl, FzfV1.allocChars, hs, Res.bind_ok, Res.pure_def, Res.ok.injEq] at hx
    subst hx; exact ⟨h, rfl⟩
  fuzzy R self p c rs h hf := fuzzyV1_agree h hf rs

theorem implV2_agree : ImplAgree (implV2 U) (FzfV2.impl U) (fun m => BonusBd m.scoringScheme) N where
  alloc := rfl
  eq := rfl
  sch := rfl
  bonus _ h := h
  keep self s x h hx := by
    obtain ⟨slab, hs⟩ := candidateAlloc_eq self.candidateSlab s
    simp only [FzfV2.impl, FzfV2.allocChars, hs, Res.bind_ok, Res.pure_def, Res.ok.injEq] at hx
    subst hx; exact ⟨h, rfl⟩
  fuzzy R self p c rs h hf := fuzzyV2_agree h hf rs

variable {σ : Type} {IC I : FzfImpl σ} {J : σ → Prop}

theorem score_agree (h : ImplAgree IC I J N) {self : σ} (hJ : J self) (hf : Fits N p c) (rs : MatchedRanges) :
    Agree (fun x => J x.1 ∧ Bd (40 * N + 40) x.2.2)
      (score U IC RANGES self p c rs) (I.score U RANGES self p c rs) := by
  unfold score FzfImpl.score
  have hN := hf.n
  have hB := h.bonus self hJ
  rw [h.eq, h.sch]
  have hw : ∀ x : MatchedRanges × Option Score, Bd (36 * N) x.2 → Bd (40 * N + 40) x.2 := fun x hx => hx.mono (by omega)
  have tail : ∀ (s : σ) (r : MatchedRanges) (x : Option Score), J s → Bd (40 * N + 40) x →
      Agree (fun x => J x.1 ∧ Bd (40 * N + 40) x.2.2)
        (match x.isSome, p.isInverse with
          | true, false => (pure (s, r, x) : Res (σ × MatchedRanges × Option Score))
          | false, true => pure (s, r, some 0)
          | _, _ => pure (s, r, none))
        (match x.isSome, p.isInverse with
          | true, false => (pure (s, r, x) : Res (σ × MatchedRanges × Option Score))
          | false, true => pure (s, r, some 0)
          | _, _ => pure (s, r, none)) := by
    intro s r x hs hx
    cases x.isSome <;> cases p.isInverse
    · exact Agree.ok ⟨hs, Bd.none _⟩
    · exact Agree.ok ⟨hs, Bd.zero (by omega)⟩
    · exact Agree.ok ⟨hs, hx⟩
    · exact Agree.ok ⟨hs, Bd.none _⟩
  cases p.matchType <;> dsimp only
  · exact Agree.bind (h.fuzzy _ self p c rs hJ hf) fun x hx => tail x.1 x.2.1 x.2.2 hx.1 hx.2
  · exact Agree.bind (exactMatch_agree hB hf rs) fun x hx => tail self x.1 x.2 hJ (hw x hx)
  · exact Agree.bind (prefixMatch_agree hB hf rs) fun x hx => tail self x.1 x.2 hJ (hw x hx)
  · exact Agree.bind (suffixMatch_agree hB hf rs) fun x hx => tail self x.1 x.2 hJ (hw x hx)
  · exact Agree.bind (equalMatch_agree hB hf rs) fun x hx => tail self x.1 x.2 hJ (hw x hx)

theorem scoreCondition_agree (h : ImplAgree IC I J N) (cond : List Pattern) (hf : ∀ p ∈ cond, Fits N p c) :
    ∀ (self : σ) (rs : MatchedRanges), J self → Agree (fun x => J x.1 ∧ Bd (40 * N + 40) x.2.2)
      (scoreCondition U IC RANGES c cond self rs) (I.scoreCondition U RANGES c cond self rs) := by
  induction cond with
  | nil => intro self rs hJ; exact Agree.ok ⟨hJ, Bd.none _⟩
  | cons p cond ih =>
    intro self rs hJ
    unfold scoreCondition FzfImpl.scoreCondition
    refine Agree.bind (score_agree h hJ (hf p (by simp)) rs) fun x hx => ?_
    obtain ⟨self', rs', s⟩ := x
    cases s with
    | some v => exact Agree.ok hx
    | none => exact ih (fun p hp => hf p (by simp [hp])) self' rs' hx.1

theorem scoreConditions_agree (h : ImplAgree IC I J N) (hN : 0 ≤ N) (cs : List Condition) :
    ∀ (self : σ) (rs : MatchedRanges) (total T : Int), (∀ cond ∈ cs, ∀ p ∈ cond, Fits N p c) → J self →
    -T ≤ total ∧ total ≤ T → T + (cs.length : Int) * (40 * N + 40) < 2 ^ 63 →
    Agree (fun _ => True)
      (scoreConditions U IC RANGES c cs self rs total) (I.scoreConditions U RANGES c cs self rs total) := by
  induction cs with
  | nil => intro self rs total T _ _ _ _; exact Agree.ok trivial
  | cons cond cs ih =>
    intro self rs total T hf hJ ht hT
    unfold scoreConditions FzfImpl.scoreConditions
    refine Agree.bind (scoreCondition_agree h cond (hf cond (by simp)) self rs hJ) fun x hx => ?_
    obtain ⟨self', rs', s⟩ := x
    cases s with
    | none => exact Agree.ok trivial
    | some v =>
      obtain ⟨hJ', hv⟩ := hx
      have hv := hv v rfl
      rw [List.length_cons] at hT
      push_cast at hT
      rw [Int.add_mul, Int.one_mul] at hT
      have hnn : 0 ≤ (cs.length : Int) * (40 * N + 40) := Int.mul_nonneg (by omega) (by omega)
      generalize (cs.length : Int) * (40 * N + 40) = z at hT hnn ih
      dsimp only
      rw [add_ok (by somega) (by somega), Res.bind_ok]
      exact ih self' rs' (total + v) (T + (40 * N + 40)) (fun c hc => hf c (by simp [hc])) hJ'
        (by constructor <;> somega) (by omega)

open Spec (Sizes)

theorem _root_.Norm.Spec.Sizes.fits {N : Nat} {q : FzfQuery} {s : List Char} (h : Sizes N q s) {c : Candidate} (hc : c.charLen = s.length)
    {p : Pattern} (hp : p ∈ Spec.patterns q) : Fits (N : Int) p c := by
  obtain ⟨h1, h2⟩ := h.pattern p hp
  have h3 := h.candidate
  have h4 := h.total
  rw [Nat.add_mul, Nat.one_mul] at h4
  generalize (Spec.conditions q).length * (40 * N + 40) = z at h4
  exact ⟨by omega, by omega, h2, by omega⟩

theorem distance_agree {N : Nat} (h : ImplAgree IC I J N) {self : σ} (hJ : J self) {q : FzfQuery} {s : List Char}
    (hs : Sizes N q s) (buf : List Range) :
    distance U IC RANGES self q s buf = I.distance U RANGES self q s buf := by
  have key : Agree (fun _ => True) (distance U IC RANGES self q s buf) (I.distance U RANGES self q s buf) := by
    unfold distance FzfImpl.distance
    rw [h.alloc]
    split
    · exact Agree.ok trivial
    · have rest : ∀ (self : σ) (c : Candidate), J self → c.charLen = s.length → Agree (fun _ => True)
          (do
            let ranges := MatchedRanges.ofVec buf
            let (self, ranges, s) ←
              match q with
              | .notExtended pattern => IC.fuzzy RANGES self pattern c ranges
              | .extended conditions => scoreConditions U IC RANGES c conditions self ranges 0
            return (self, ranges.ranges, s.map FzfDistance.fromScore))
          (do
            let ranges := MatchedRanges.ofVec buf
            let (self, ranges, s) ←
              match q with
              | .notExtended pattern => I.fuzzy RANGES self pattern c ranges
              | .extended conditions => I.scoreConditions U RANGES c conditions self ranges 0
            return (self, ranges.ranges, s.map FzfDistance.fromScore)) := by
        intro self c hJ hc
        cases q with
        | notExtended p =>
          exact Agree.bind (h.fuzzy _ _ _ _ _ hJ (hs.fits hc (by simp [Spec.patterns]))) fun x _ => Agree.ok trivial
        | extended cs =>
          refine Agree.bind (scoreConditions_agree h (by omega) cs self _ 0 0
            (fun cond hcond p hp => hs.fits hc (by simp only [Spec.patterns, List.mem_flatten]; exact ⟨cond, hcond, hp⟩))
            hJ (by omega) ?_) fun x _ => Agree.ok trivial
          have h4 := hs.total
          simp only [Spec.conditions] at h4
          rw [Nat.add_mul, Nat.one_mul] at h4
          have h5 : (((cs.length * (40 * N + 40) : Nat)) : Int) = (cs.length : Int) * (40 * (N : Int) + 40) := by
            push_cast; rfl
          rw [← h5]
          omega
      by_cases hasc : strIsAscii s = true
      · rw [if_pos hasc, if_pos hasc]
        refine rest self _ hJ ?_
        rw [Candidate.charLen_eq, (ascii_candidate hasc).2]
      · rw [if_neg hasc, if_neg hasc]
        refine Agree.bind (P := fun x : σ × Candidate => J x.1 ∧ x.2.charLen = s.length) ?_ fun x hx =>
          rest x.1 x.2 hx.1 hx.2
        exact Agree.bind (Agree.refl _) fun x hx => Agree.ok (h.keep _ _ _ hJ hx)
  exact key.1

/-! ### Sizes of parsed queries -/

open Spec

theorem pieces_size (t : List Char) : ((pieces t).map List.length).sum + (pieces t).length ≤ t.length + 1 := by
  have hcons : ∀ (c : Char) (l : List (List Char)), l ≠ [] → ((consHead c l).map List.length).sum + (consHead c l).length =
      (l.map List.length).sum + l.length + 1 := by
    intro c l hl
    cases l with
    | nil => exact absurd rfl hl
    | cons w ws => simp only [consHead, List.map_cons, List.sum_cons, List.length_cons]; omega
  fun_induction pieces t with
  | case1 => simp
  | case2 s ih => rw [hcons _ _ (pieces_ne_nil s)]; simp only [List.length_cons]; omega
  | case3 s ih => simp only [List.map_cons, List.sum_cons, List.length_cons, List.length_nil]; omega
  | case4 c s _ _ ih => rw [hcons _ _ (pieces_ne_nil s)]; simp only [List.length_cons]; omega

theorem sum_filter_le (l : List (List Char)) : (l.filter (fun w => !w.isEmpty)).length ≤ (l.map List.length).sum := by
  induction l with
  | nil => simp
  | cons w l ih =>
    cases w with
    | nil => simpa using ih
    | cons c w => simp only [List.filter_cons, List.isEmpty_cons, Bool.not_false, if_true, List.length_cons,
        List.map_cons, List.sum_cons]; omega

theorem le_sum_length {w : List Char} {l : List (List Char)} (h : w ∈ l) : w.length ≤ (l.map List.length).sum := by
  induction l with
  | nil => simp at h
  | cons v l ih =>
    simp only [List.map_cons, List.sum_cons]
    rcases List.mem_cons.mp h with rfl | h
    · omega
    · have := ih h; omega

theorem wordPattern_size {U : Unicode} {w : List Char} {p : Pattern} (h : wordPattern U w = some p) :
    p.text.length ≤ w.length := by
  have hd := (decorates_exists w).word
  unfold wordPattern at h
  dsimp only at h
  split at h
  · simp at h
  · obtain rfl := Option.some.inj h
    simp only [mkPattern]
    have := congrArg List.length hd
    simp only [List.length_append] at this
    omega

theorem query_sizes (U : Unicode) (t : List Char) :
    (Spec.conditions (query U t)).length ≤ t.length ∧ ∀ p ∈ Spec.patterns (query U t), p.text.length ≤ t.length := by
  have hsz := pieces_size t
  have hlen : (pieces t).length ≠ 0 := by have := pieces_ne_nil t; simpa using this
  have htok : (tokens U (words t)).length ≤ (words t).length := by unfold tokens; exact List.length_filterMap_le _ _
  have hw : (words t).length ≤ t.length := by have := sum_filter_le (pieces t); unfold words; omega
  have hcs : Spec.conditions (query U t) = groups (tokens U (words t)) := by rw [query, conditions_collapse]
  have hpats : Spec.patterns (query U t) = (groups (tokens U (words t))).flatten := by
    unfold query collapse
    split
    · rename_i heq
      rw [heq]
      split <;> simp [patterns]
    · simp [patterns]
  refine ⟨?_, fun p hp => ?_⟩
  · rw [hcs]
    refine Nat.le_trans ?_ (Nat.le_trans htok hw)
    generalize tokens U (words t) = ts
    induction ts with
    | nil => simp [groups]
    | cons x ts ih =>
      cases x with
      | bar => simp only [groups, List.length_cons]; omega
      | pat p =>
        unfold groups
        split
        · rename_i g gs _ hg
          rw [hg] at ih
          simp only [List.length_cons] at ih ⊢; omega
        · simp only [List.length_cons]; omega
  · rw [hpats, List.mem_flatten] at hp
    obtain ⟨c, hc, hp⟩ := hp
    have hmem := (groups_mem c hc).2 p hp
    unfold tokens at hmem
    rw [List.mem_filterMap] at hmem
    obtain ⟨w, hw, hwp⟩ := hmem
    split at hwp
    · simp at hwp
    · simp only [Option.map_eq_some_iff, Token.pat.injEq] at hwp
      obtain ⟨p', hp', rfl⟩ := hwp
      have h1 := wordPattern_size hp'
      have h2 : w ∈ pieces t := by unfold words at hw; exact (List.mem_filter.mp hw).1
      have h3 := le_sum_length h2
      omega

end Norm.Checked
