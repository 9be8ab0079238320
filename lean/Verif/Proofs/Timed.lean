import Verif.Model.Timed
import Verif.Proofs.Res

/-! The functions that count steps return what those of the main model return. -/

namespace Norm

namespace Timed

@[simp] theorem res_pure {α : Type} (a : α) : (pure a : Timed α).res = .ok a := rfl
@[simp] theorem res_bind {α β : Type} (x : Timed α) (f : α → Timed β) :
    (x >>= f).res = x.res >>= fun a => (f a).res := by
  show (Timed.bind x f).res = _
  unfold Timed.bind
  cases x.res <;> rfl
@[simp] theorem res_tick (n : Nat) : (tick n).res = .ok () := rfl
@[simp] theorem res_free {α : Type} (r : Res α) : (free r).res = r := rfl
@[simp] theorem res_get {α : Type} (l : List α) (i : Nat) : (get l i).res = getR l i := rfl
@[simp] theorem res_set {α : Type} (l : List α) (i : Nat) (a : α) : (set l i a).res = setR l i a := rfl
@[simp] theorem res_insert (m : MatchedRanges) (r : Range) : (insert m r).res = m.insert r := rfl
@[simp] theorem res_char (c : Candidate) (i : Nat) : (char c i).res = c.char i := rfl
@[simp] theorem res_ite {α : Type} (p : Prop) [Decidable p] (x y : Timed α) :
    (if p then x else y).res = if p then x.res else y.res := by split <;> rfl
@[simp] theorem res_grow {α : Type} (l : List α) (n : Nat) (a : α) :
    (grow l n a).res = .ok (if n > l.length then resize l n a else l) := by
  unfold grow; split <;> rfl

@[simp] theorem res_findIdx {α : Type} (p : α → Bool) (l : List α) :
    (findIdx p l).res = .ok (l.findIdx? p) := by
  induction l with
  | nil => rfl
  | cons a l ih => 
    simp only [findIdx, res_bind, res_tick, Res.bind_ok, res_ite, res_pure, ih, List.findIdx?_cons]
    cases p a <;> simp

@[simp] theorem res_findLastIdx {α : Type} (p : α → Bool) (l : List α) :
    (findLastIdx p l).res = .ok (findLastIdx? p l) := by
  simp [findLastIdx, findLastIdx?]

@[simp] theorem res_allIdxFrom {α : Type} (p : α → Bool) (l : List α) (off : Nat) :
    (allIdxFrom p l off).res = .ok (Norm.allIdxFrom p l off) := by
  induction l generalizing off with
  | nil => rfl
  | cons a l ih => simp [allIdxFrom, Norm.allIdxFrom, ih]

@[simp] theorem res_countWhile {α : Type} (p : α → Bool) (l : List α) :
    (countWhile p l).res = .ok (l.takeWhile p).length := by
  induction l with
  | nil => rfl
  | cons a l ih => 
    simp only [countWhile, res_bind, res_tick, Res.bind_ok, res_ite, res_pure, ih, List.takeWhile_cons]
    cases p a <;> simp

@[simp] theorem res_unicodeMatchesNext (it : UnicodeMatches) :
    (unicodeMatchesNext it).res = it.next := by
  unfold unicodeMatchesNext UnicodeMatches.next
  simp only [res_bind, res_findIdx, Res.bind_ok]
  cases List.findIdx? (fun ch => it.eq it.needle ch) it.haystack <;> simp

@[simp] theorem res_unicodeMatchesCollect (fuel : Nat) (it : UnicodeMatches) :
    (unicodeMatchesCollect fuel it).res = UnicodeMatches.collect fuel it := by
  induction fuel generalizing it with
  | zero => rfl
  | succ fuel ih =>
    simp only [unicodeMatchesCollect, UnicodeMatches.collect, res_bind, res_unicodeMatchesNext]
    congr 1; funext x
    rcases x with _ | ⟨i, it'⟩ <;> simp [ih]

@[simp] theorem res_findFirstFrom (c : Candidate) (off : Nat) (ch : Char) (s : Bool) (eq : CharEq) :
    (findFirstFrom c off ch s eq).res = c.findFirstFrom off ch s eq := by
  cases c <;> simp [findFirstFrom, Candidate.findFirstFrom, findFirstAscii, findFirstUnicode]

@[simp] theorem res_findLast (c : Candidate) (ch : Char) (s : Bool) (eq : CharEq) :
    (findLast c ch s eq).res = .ok (c.findLast ch s eq) := by
  cases c
  · simp only [findLast, Candidate.findLast, findLastAscii, res_ite, res_findLastIdx, res_pure]
    split <;> rfl
  · simp [findLast, Candidate.findLast, findLastUnicode]

@[simp] theorem res_findLastFrom (c : Candidate) (off : Nat) (ch : Char) (s : Bool) (eq : CharEq) :
    (findLastFrom c off ch s eq).res = c.findLastFrom off ch s eq := by
  cases c <;> simp [findLastFrom, Candidate.findLastFrom, findLastAscii, findLastUnicode]

@[simp] theorem res_leadingSpaces (c : Candidate) : (leadingSpaces c).res = .ok c.leadingSpaces := by
  cases c <;> simp [leadingSpaces, Candidate.leadingSpaces]

@[simp] theorem res_trailingSpaces (c : Candidate) : (trailingSpaces c).res = .ok c.trailingSpaces := by
  cases c <;> simp [trailingSpaces, Candidate.trailingSpaces]

@[simp] theorem res_matchesAscii (ch : Char) (l : List UInt8) (s : Bool) (off : Nat) :
    (matchesAscii ch l s off).res = Candidate.matchesAscii ch l s off := by
  simp [matchesAscii, Candidate.matchesAscii]

@[simp] theorem res_matchesUnicode (ch : Char) (l : List Char) (eq : CharEq) (off : Nat) :
    (matchesUnicode ch l eq off).res = Candidate.matchesUnicode ch l eq off := by
  simp [matchesUnicode, Candidate.matchesUnicode]

@[simp] theorem res_matches (c : Candidate) (ch : Char) (s : Bool) (eq : CharEq) :
    («matches» c ch s eq).res = c.matches ch s eq := by
  cases c <;> simp [«matches», Candidate.matches]

@[simp] theorem res_matchesFrom (c : Candidate) (off : Nat) (ch : Char) (s : Bool) (eq : CharEq) :
    (matchesFrom c off ch s eq).res = c.matchesFrom off ch s eq := by
  cases c <;> simp [matchesFrom, Candidate.matchesFrom]

@[simp] theorem res_toByteOffset (c : Candidate) (off : Nat) : (toByteOffset c off).res = c.toByteOffset off := by
  cases c <;> simp [toByteOffset, Candidate.toByteOffset]

@[simp] theorem res_toByteRange (c : Candidate) (r : Range) : (toByteRange c r).res = c.toByteRange r := by
  cases c <;> simp [toByteRange, Candidate.toByteRange]

@[simp] theorem res_bonusAlloc (vec : List BonusCell) (len : Nat) :
    (bonusAlloc vec len).res = Norm.bonusAlloc vec len := by
  simp [bonusAlloc, Norm.bonusAlloc]

@[simp] theorem res_slabWriteChars (chars text : List Char) (n : Nat) :
    (slabWriteChars chars text n).res = Norm.slabWriteChars chars text n := by
  induction text generalizing chars n with
  | nil => rfl
  | cons a l ih => simp [slabWriteChars, Norm.slabWriteChars, ih]

@[simp] theorem res_candidateAlloc (chars text : List Char) :
    (candidateAlloc chars text).res = Norm.candidateAlloc chars text := by
  simp [candidateAlloc, Norm.candidateAlloc]

@[simp] theorem res_indicesAlloc (vec : List Nat) (len : Nat) :
    (indicesAlloc vec len).res = Norm.indicesAlloc vec len := by
  simp [indicesAlloc, Norm.indicesAlloc]

@[simp] theorem res_matrixAlloc {α : Type} (fill : α) (vec : List α) (w h : Nat) :
    (matrixAlloc fill vec w h).res = Norm.matrixAlloc fill vec w h := by
  simp [matrixAlloc, Norm.matrixAlloc]

@[simp] theorem res_bonusAt (U : Unicode) (c : CandidateV2) (i : Nat) (scheme : Scheme) :
    (bonusAt U c i scheme).res = c.bonusAt U i scheme := by
  simp [bonusAt, CandidateV2.bonusAt]

@[simp] theorem res_computeScoreLoop (U : Unicode) (R : Bool) (eq : CharEq) (scheme : Scheme) (b : Nat)
    (l : List Char) (st : ScoreState) :
    (computeScoreLoop U R eq scheme b l st).res = Norm.computeScoreLoop U R eq scheme b l st := by
  induction l generalizing st with
  | nil => rfl
  | cons a l ih =>
    simp only [computeScoreLoop, Norm.computeScoreLoop, res_bind, res_tick, Res.bind_ok, res_ite, ih,
      res_insert, res_pure]
    split
    · cases R
      · cases st.patternChars <;> simp [ih]
      · simp only [if_true]
        congr 1; funext x
        cases st.patternChars <;> simp [ih]
    · rfl

@[simp] theorem res_computeScore (U : Unicode) (R : Bool) (pattern : Pattern) (c : Candidate) (r : Range)
    (eq : CharEq) (scheme : Scheme) (ranges : MatchedRanges) :
    (computeScore U R pattern c r eq scheme ranges).res =
      Norm.computeScore U R pattern c r eq scheme ranges := by
  simp [computeScore, Norm.computeScore]

@[simp] theorem res_exactInner (U : Unicode) (pattern : Pattern) (eq : CharEq) (scheme : Scheme) (o : Nat)
    (l : List Char) (n : Nat) (st : ExactState) :
    (exactInner U pattern eq scheme o l n st).res = Norm.exactInner U pattern eq scheme o l n st := by
  induction l generalizing n st with
  | nil => rfl
  | cons a l ih =>
    simp only [exactInner, Norm.exactInner, res_bind, res_tick, Res.bind_ok, res_ite, ih, res_free,
      res_pure, Res.pure_def]

@[simp] theorem res_exactOuter (U : Unicode) (pattern : Pattern) (c : Candidate) (eq : CharEq) (scheme : Scheme)
    (fuel : Nat) (st : ExactState) :
    (exactOuter U pattern c eq scheme fuel st).res = Norm.exactOuter U pattern c eq scheme fuel st := by
  induction fuel generalizing st with
  | zero => rfl
  | succ fuel ih =>
    simp only [exactOuter, Norm.exactOuter, res_bind, res_free, res_exactInner]
    congr 1; funext chars
    congr 1; funext x
    rcases x with ⟨_ | _ | _, st⟩ <;> simp [ih]

@[simp] theorem res_finishExact (U : Unicode) (R : Bool) (pattern : Pattern) (c : Candidate) (r : Range)
    (eq : CharEq) (scheme : Scheme) (ranges : MatchedRanges) :
    (finishExact U R pattern c r eq scheme ranges).res =
      Norm.finishExact U R pattern c r eq scheme ranges := by
  simp [finishExact, Norm.finishExact]

@[simp] theorem res_exactMatch (U : Unicode) (R : Bool) (pattern : Pattern) (c : Candidate)
    (eq : CharEq) (scheme : Scheme) (ranges : MatchedRanges) :
    (exactMatch U R pattern c eq scheme ranges).res = Norm.exactMatch U R pattern c eq scheme ranges := by
  simp [exactMatch, Norm.exactMatch]

@[simp] theorem res_ignoredLeading (pattern : Pattern) (c : Candidate) :
    (ignoredCandidateLeadingSpaces pattern c).res = Norm.ignoredCandidateLeadingSpaces pattern c := by
  simp [ignoredCandidateLeadingSpaces, Norm.ignoredCandidateLeadingSpaces]

@[simp] theorem res_ignoredTrailing (pattern : Pattern) (c : Candidate) :
    (ignoredCandidateTrailingSpaces pattern c).res = Norm.ignoredCandidateTrailingSpaces pattern c := by
  simp [ignoredCandidateTrailingSpaces, Norm.ignoredCandidateTrailingSpaces]

@[simp] theorem res_zipLoop (eq : CharEq) (b : Bool) (p c : List Char) :
    (zipLoop eq b p c).res = .ok (Norm.zipLoop eq b p c) := by
  induction p generalizing c with
  | nil => cases c <;> rfl
  | cons x p ih =>
    cases c with
    | nil => rfl
    | cons y c => 
      simp only [zipLoop, Norm.zipLoop, res_bind, res_tick, Res.bind_ok, res_ite, ih, res_pure]
      split <;> rfl

@[simp] theorem res_prefixMatch (U : Unicode) (R : Bool) (pattern : Pattern) (c : Candidate)
    (eq : CharEq) (scheme : Scheme) (ranges : MatchedRanges) :
    (prefixMatch U R pattern c eq scheme ranges).res = Norm.prefixMatch U R pattern c eq scheme ranges := by
  simp only [prefixMatch, Norm.prefixMatch, res_ite, res_bind, res_pure, res_ignoredLeading, Res.pure_def]
  congr 2; funext x
  cases x with
  | none => rfl
  | some n =>
    simp only [res_bind, res_free, res_zipLoop, Res.bind_ok]
    congr 1; funext chars
    rcases Norm.zipLoop eq false pattern.text chars with _ | ⟨_ | _, _⟩ <;> simp

@[simp] theorem res_suffixMatch (U : Unicode) (R : Bool) (pattern : Pattern) (c : Candidate)
    (eq : CharEq) (scheme : Scheme) (ranges : MatchedRanges) :
    (suffixMatch U R pattern c eq scheme ranges).res = Norm.suffixMatch U R pattern c eq scheme ranges := by
  simp only [suffixMatch, Norm.suffixMatch, res_ite, res_bind, res_pure, res_ignoredTrailing, Res.pure_def]
  congr 2; funext x
  cases x with
  | none => rfl
  | some n =>
    simp only [res_bind, res_free, res_zipLoop, Res.bind_ok]
    congr 1; funext u
    congr 1; funext sl
    congr 1; funext chars
    rcases Norm.zipLoop eq false pattern.text.reverse chars.reverse with _ | ⟨_ | _, _⟩ <;> simp

@[simp] theorem res_equalMatch (U : Unicode) (R : Bool) (pattern : Pattern) (c : Candidate)
    (eq : CharEq) (scheme : Scheme) (ranges : MatchedRanges) :
    (equalMatch U R pattern c eq scheme ranges).res = Norm.equalMatch U R pattern c eq scheme ranges := by
  simp only [equalMatch, Norm.equalMatch, res_ite, res_bind, res_pure, res_ignoredLeading, Res.pure_def]
  congr 2; funext x
  cases x with
  | none => rfl
  | some n =>
    simp only [res_ite, res_bind, res_pure, res_ignoredTrailing]
    congr 2; funext y
    cases y with
    | none => rfl
    | some k =>
      simp only [res_ite, res_bind, res_pure, res_free, res_zipLoop, Res.bind_ok]
      congr 1; funext stop
      congr 2; funext sl
      congr 1; funext chars
      rcases Norm.zipLoop eq true pattern.text chars with _ | ⟨_, _⟩ <;> simp

end Timed

namespace TimedImpl
open Timed
variable {σ : Type}

/-- The two descriptions of a metric's methods agree. -/
structure Agrees (T : TimedImpl σ) (I : FzfImpl σ) : Prop where
  allocChars : ∀ self s, (T.allocChars self s).res = I.allocChars self s
  charEq : T.charEq = I.charEq
  scheme : T.scheme = I.scheme
  fuzzy : ∀ R self p c r, (T.fuzzy R self p c r).res = I.fuzzy R self p c r

variable {T : TimedImpl σ} {I : FzfImpl σ}

theorem res_score (h : Agrees T I) (U : Unicode) (R : Bool) (self : σ) (p : Pattern) (c : Candidate)
    (ranges : MatchedRanges) : (T.score U R self p c ranges).res = I.score U R self p c ranges := by
  unfold score FzfImpl.score
  simp only [h.charEq, h.scheme]
  cases p.matchType <;> simp only [res_bind, h.fuzzy, res_exactMatch, res_prefixMatch, res_suffixMatch,
    res_equalMatch, res_pure, Res.pure_def, Res.bind_ok] <;>
    (congr 1; funext x)
  · rcases x with ⟨a, b, _ | s⟩ <;> cases p.isInverse <;> rfl
  all_goals rcases x with ⟨b, _ | s⟩ <;> cases p.isInverse <;> rfl

theorem res_scoreCondition (h : Agrees T I) (U : Unicode) (R : Bool) (c : Candidate) (ps : List Pattern)
    (self : σ) (ranges : MatchedRanges) :
    (T.scoreCondition U R c ps self ranges).res = I.scoreCondition U R c ps self ranges := by
  induction ps generalizing self ranges with
  | nil => rfl
  | cons p ps ih =>
    simp only [scoreCondition, FzfImpl.scoreCondition, res_bind, res_tick, Res.bind_ok, res_score h]
    congr 1; funext x
    rcases x with ⟨a, b, _ | _⟩ <;> simp [ih]

theorem res_scoreConditions (h : Agrees T I) (U : Unicode) (R : Bool) (c : Candidate) (cs : List Condition)
    (self : σ) (ranges : MatchedRanges) (t : Score) :
    (T.scoreConditions U R c cs self ranges t).res = I.scoreConditions U R c cs self ranges t := by
  induction cs generalizing self ranges t with
  | nil => rfl
  | cons p ps ih =>
    simp only [scoreConditions, FzfImpl.scoreConditions, res_bind, res_tick, Res.bind_ok,
      res_scoreCondition h]
    congr 1; funext x
    rcases x with ⟨a, b, _ | _⟩ <;> simp [ih]

theorem res_distance (h : Agrees T I) (U : Unicode) (R : Bool) (self : σ) (q : FzfQuery) (s : List Char)
    (ranges : List Range) : (T.distance U R self q s ranges).res = I.distance U R self q s ranges := by
  unfold distance FzfImpl.distance
  cases strIsAscii s <;> cases q <;> simp [h.allocChars, h.fuzzy, res_scoreConditions h]

end TimedImpl

namespace Timed

@[simp] theorem res_forwardLoop (c : Candidate) (opts : CandidateOpts) (rest : List Char) (ch : Char) (o : Nat) :
    (forwardLoop c opts rest ch o).res = Norm.forwardLoop c opts rest ch o := by
  induction rest generalizing ch o with
  | nil =>
    unfold forwardLoop Norm.forwardLoop
    simp only [res_bind, res_tick, Res.bind_ok, res_findFirstFrom]
    congr 1; funext x
    cases x <;> rfl
  | cons a l ih =>
    unfold forwardLoop Norm.forwardLoop
    simp only [res_bind, res_tick, Res.bind_ok, res_findFirstFrom]
    congr 1; funext x
    cases x
    · rfl
    · exact ih _ _

@[simp] theorem res_forwardPass (p : Pattern) (c : Candidate) (opts : CandidateOpts) :
    (forwardPass p c opts).res = Norm.forwardPass p c opts := by
  unfold forwardPass Norm.forwardPass
  cases p.text <;> simp

@[simp] theorem res_backwardLoop (c : Candidate) (opts : CandidateOpts) (rest : List Char) (ch : Char) (o : Nat) :
    (backwardLoop c opts rest ch o).res = Norm.backwardLoop c opts rest ch o := by
  induction rest generalizing ch o with
  | nil =>
    unfold backwardLoop Norm.backwardLoop
    simp
  | cons a l ih =>
    unfold backwardLoop Norm.backwardLoop
    simp [ih]

@[simp] theorem res_backwardPass (p : Pattern) (c : Candidate) (e : Nat) (opts : CandidateOpts) :
    (backwardPass p c e opts).res = Norm.backwardPass p c e opts := by
  unfold backwardPass Norm.backwardPass
  cases p.text.reverse <;> simp

namespace V1

theorem res_fuzzy (U : Unicode) (R : Bool) (self : FzfV1) (p : Pattern) (c : Candidate)
    (ranges : MatchedRanges) : (fuzzy U R self p c ranges).res = self.fuzzy U R p c ranges := by
  unfold fuzzy FzfV1.fuzzy
  simp only [res_bind, res_forwardPass]
  congr 1; funext x
  cases x <;> simp

theorem agrees (U : Unicode) : (impl U).Agrees (FzfV1.impl U) where
  allocChars self s := by simp [impl, FzfV1.impl, allocChars, FzfV1.allocChars]
  charEq := rfl
  scheme := rfl
  fuzzy := res_fuzzy U

end V1

@[simp] theorem res_matchesLoop (p : Pattern) (c : Candidate) (opts : CandidateOpts) (fuel : Nat) (l : List Nat)
    (i o : Nat) : (matchesLoop p c opts fuel l i o).res = Norm.matchesLoop p c opts fuel l i o := by
  induction fuel generalizing l i o with
  | zero => rfl
  | succ fuel ih =>
    simp only [matchesLoop, Norm.matchesLoop, res_bind, res_tick, Res.bind_ok, res_free, res_findFirstFrom]
    congr 1; funext ch
    congr 1; funext x
    cases x <;> simp [ih]

@[simp] theorem res_v2Matches (l : List Nat) (p : Pattern) (c : Candidate) (opts : CandidateOpts) :
    (v2Matches l p c opts).res = Norm.v2Matches l p c opts := by
  simp only [v2Matches, Norm.v2Matches, res_bind, res_indicesAlloc, res_matchesLoop]
  congr 1; funext x
  congr 1; funext y
  rcases y with ⟨_, _ | _⟩ <;> simp

@[simp] theorem res_firstRowGap (n col : Nat) (row : List Score) (s t : Score) :
    (firstRowGap n col row s t).res = Norm.firstRowGap n col row s t := by
  induction n generalizing col row s t with
  | zero => rfl
  | succ n ih => simp [firstRowGap, Norm.firstRowGap, ih]

@[simp] theorem res_firstRowLoop (U : Unicode) (scheme : Scheme) (l : List Nat) (st : FirstRowState) :
    (firstRowLoop U scheme l st).res = Norm.firstRowLoop U scheme l st := by
  induction l generalizing st with
  | nil => rfl
  | cons a l ih => simp [firstRowLoop, Norm.firstRowLoop, ih]

@[simp] theorem res_scoreFirstRow (U : Unicode) (l : List Score) (k : List Nat) (ch : Char) (c : CandidateV2)
    (scheme : Scheme) : (scoreFirstRow U l k ch c scheme).res = Norm.scoreFirstRow U l k ch c scheme := by
  simp [scoreFirstRow, Norm.scoreFirstRow, CandidateV2.matches]

@[simp] theorem res_rowGap (n col : Nat) (row : List Score) (t : Score) :
    (rowGap n col row t).res = Norm.rowGap n col row t := by
  induction n generalizing col row t with
  | zero => rfl
  | succ n ih => simp [rowGap, Norm.rowGap, ih]

@[simp] theorem res_rowLoop (U : Unicode) (scheme : Scheme) (w i : Nat) (ps : List Score) (pc : List Nat)
    (l : List Nat) (st : RowState) :
    (rowLoop U scheme w i ps pc l st).res = Norm.rowLoop U scheme w i ps pc l st := by
  induction l generalizing st with
  | nil => rfl
  | cons a l ih => simp [rowLoop, Norm.rowLoop, ih]

@[simp] theorem res_remainingRowsLoop (U : Unicode) (scheme : Scheme) (p : Pattern) (offs : List Nat)
    (n i : Nat) (a : Matrix Score) (b : Matrix Nat) (c : CandidateV2) (s : Score) (m : Nat) :
    (remainingRowsLoop U scheme p offs n i a b c s m).res =
      Norm.remainingRowsLoop U scheme p offs n i a b c s m := by
  induction n generalizing i a b c s m with
  | zero => rfl
  | succ n ih => simp [remainingRowsLoop, Norm.remainingRowsLoop, CandidateV2.matchesFrom, ih]

@[simp] theorem res_v2Score (U : Unicode) (a : List Score) (b : List Nat) (p : Pattern) (c : CandidateV2)
    (offs : List Nat) (scheme : Scheme) :
    (v2Score U a b p c offs scheme).res = Norm.v2Score U a b p c offs scheme := by
  simp [v2Score, Norm.v2Score]

@[simp] theorem res_tracebackLoop (a : Matrix Score) (b : Matrix Nat) (c : Candidate) (o fuel : Nat) (f : Bool)
    (cell col row : Nat) (ranges : MatchedRanges) :
    (tracebackLoop a b c o fuel f cell col row ranges).res =
      Norm.tracebackLoop a b c o fuel f cell col row ranges := by
  induction fuel generalizing f cell col row ranges with
  | zero => rfl
  | succ fuel ih =>
    cases h : b.getValue (b.downRight cell) <;> simp [tracebackLoop, Norm.tracebackLoop, Matrix.get, ih, h]

@[simp] theorem res_v2MatchedRanges (a : Matrix Score) (b : Matrix Nat) (cell : Nat) (c : Candidate) (o : Nat)
    (ranges : MatchedRanges) :
    (v2MatchedRanges a b cell c o ranges).res = Norm.v2MatchedRanges a b cell c o ranges := by
  simp [v2MatchedRanges, Norm.v2MatchedRanges]

@[simp] theorem res_singleCharLoop (U : Unicode) (c : Candidate) (scheme : Scheme) (l : List Nat) (s : Score)
    (n : Nat) : (singleCharLoop U c scheme l s n).res = Norm.singleCharLoop U c scheme l s n := by
  induction l generalizing s n with
  | nil => rfl
  | cons a l ih => simp [singleCharLoop, Norm.singleCharLoop, ih]

@[simp] theorem res_fuzzySingleChar (U : Unicode) (R : Bool) (ch : Char) (c : Candidate) (opts : CandidateOpts)
    (scheme : Scheme) (ranges : MatchedRanges) :
    (fuzzySingleChar U R ch c opts scheme ranges).res =
      Norm.fuzzySingleChar U R ch c opts scheme ranges := by
  simp [fuzzySingleChar, Norm.fuzzySingleChar]

@[simp] theorem res_shiftOffsets (n : Nat) (l : List Nat) :
    (shiftOffsets n l).res = Norm.shiftOffsets n l := by
  induction l with
  | nil => rfl
  | cons a l ih => simp [shiftOffsets, Norm.shiftOffsets, ih]

namespace V2

theorem res_fuzzy (U : Unicode) (R : Bool) (self : FzfV2) (p : Pattern) (c : Candidate)
    (ranges : MatchedRanges) : (fuzzy U R self p c ranges).res = self.fuzzy U R p c ranges := by
  unfold fuzzy FzfV2.fuzzy
  simp only [res_ite, res_bind, res_tick, res_free, Res.bind_ok, res_fuzzySingleChar, res_pure, res_v2Matches]
  congr 2; funext x
  rcases x with ⟨a, b, _ | e⟩
  · rfl
  · simp

theorem agrees (U : Unicode) : (impl U).Agrees (FzfV2.impl U) where
  allocChars self s := by simp [impl, FzfV2.impl, allocChars, FzfV2.allocChars]
  charEq := rfl
  scheme := rfl
  fuzzy := res_fuzzy U

end V2

end Timed

namespace Metric

theorem res_timedDistance (U : Unicode) (q : FzfQuery) (s : List Char) (m : Metric) :
    (m.timedDistance U q s).res = m.distance U q s := by
  cases m with
  | v1 m =>
    simp only [timedDistance, distance, FzfV1.distance, Timed.res_bind, TimedImpl.res_distance (Timed.V1.agrees U)]
    cases (FzfV1.impl U).distance U false m q s [] <;> rfl
  | v2 m =>
    simp only [timedDistance, distance, FzfV2.distance, Timed.res_bind, TimedImpl.res_distance (Timed.V2.agrees U)]
    cases (FzfV2.impl U).distance U false m q s [] <;> rfl

theorem res_timedDistanceAndRanges (U : Unicode) (q : FzfQuery) (s : List Char) (buf : List Range) (m : Metric) :
    (m.timedDistanceAndRanges U q s buf).res = m.distanceAndRanges U q s buf := by
  cases m with
  | v1 m =>
    simp only [timedDistanceAndRanges, distanceAndRanges, FzfV1.distanceAndRanges, Timed.res_bind,
      TimedImpl.res_distance (Timed.V1.agrees U)]
    cases (FzfV1.impl U).distance U true m q s buf <;> rfl
  | v2 m =>
    simp only [timedDistanceAndRanges, distanceAndRanges, FzfV2.distanceAndRanges, Timed.res_bind,
      TimedImpl.res_distance (Timed.V2.agrees U)]
    cases (FzfV2.impl U).distance U true m q s buf <;> rfl

end Metric

end Norm
