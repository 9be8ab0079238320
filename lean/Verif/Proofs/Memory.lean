import Verif.SpecMemory
import Verif.Proofs.Parser

/-! The parser with references refines the parser with values. -/

namespace Norm
open Spec

/-! ### `Words` -/

/-- Memory `h`, with the given contents of the allocations of `P`. -/
def Heap.put (h : Heap) (P : FzfParserR) (cs : List Char) (ps : List PatternR) (ds : List ConditionR) : Heap where
  chars := update h.chars P.chars (some cs)
  patterns := update h.patterns P.patterns (some ps)
  conditions := update h.conditions P.conditions (some ds)
  next := h.next

section Put
variable (h : Heap) (P : FzfParserR) (cs cs' : List Char) (ps ps' : List PatternR) (ds ds' : List ConditionR)

@[simp] theorem put_chars : (h.put P cs ps ds).chars P.chars = some cs := by simp [Heap.put, update]
@[simp] theorem put_patterns : (h.put P cs ps ds).patterns P.patterns = some ps := by simp [Heap.put, update]
@[simp] theorem put_conditions : (h.put P cs ps ds).conditions P.conditions = some ds := by simp [Heap.put, update]

theorem update_update {α : Type} (m : Nat → Option α) (b : Nat) (x y : Option α) :
    update (update m b x) b y = update m b y := by
  funext i; unfold update; split <;> rfl

@[simp] theorem put_setChars : (h.put P cs ps ds).setChars P.chars cs' = h.put P cs' ps ds := by
  simp [Heap.put, Heap.setChars, update_update]
@[simp] theorem put_setPatterns : (h.put P cs ps ds).setPatterns P.patterns ps' = h.put P cs ps' ds := by
  simp [Heap.put, Heap.setPatterns, update_update]
@[simp] theorem put_setConditions : (h.put P cs ps ds).setConditions P.conditions ds' = h.put P cs ps ds' := by
  simp [Heap.put, Heap.setConditions, update_update]

theorem update_self {α : Type} {m : Nat → Option α} {b : Nat} {x : α} (h : m b = some x) : update m b (some x) = m := by
  funext i; unfold update; split
  · rename_i hi; rw [hi, h]
  · rfl

theorem put_self {h : Heap} {P : FzfParserR} {cs : List Char} {ps : List PatternR} {ds : List ConditionR}
    (h1 : h.chars P.chars = some cs) (h2 : h.patterns P.patterns = some ps) (h3 : h.conditions P.conditions = some ds) :
    h = h.put P cs ps ds := by
  unfold Heap.put
  rw [update_self h1, update_self h2, update_self h3]

end Put

/-- The words with references. -/
def wordsR (P : FzfParserR) (v : Words) : WordsR := ⟨P.chars, v.allocated, v.s⟩

variable {h : Heap} {P : FzfParserR} {ps : List PatternR} {ds : List ConditionR}

theorem wordsR_alloc (l : List Char) : ∀ v : Words, (wordsR P v).alloc (h.put P v.buf ps ds) l =
    (v.alloc l).mapR fun v' => (h.put P v'.buf ps ds, wordsR P v') := by
  induction l with
  | nil => intro v; rfl
  | cons c l ih =>
    intro v
    rw [WordsR.alloc, Words.alloc]
    simp only [wordsR, put_chars, Res.unwrap_some, Res.bind_ok]
    cases hs : setR v.buf v.allocated c with
    | panic => rfl
    | ok buf =>
      simp only [Res.bind_ok, put_setChars]
      exact ih { v with buf := buf, allocated := v.allocated + 1 }

theorem wordsR_nextLoop : ∀ (fuel : Nat) (v : Words) (s : List Char) (e : Nat),
    WordsR.nextLoop fuel (h.put P v.buf ps ds) (wordsR P v) s e =
      (Words.nextLoop fuel v s e).mapR fun x => (h.put P x.1.buf ps ds, wordsR P x.1, x.2) := by
  intro fuel
  induction fuel with
  | zero => intros; rfl
  | succ fuel ih =>
    intro v s e
    rw [WordsR.nextLoop, Words.nextLoop]
    cases hm : memchr 32 (strBytes s) with
    | none =>
      simp only [wordsR_alloc]
      cases v.alloc s <;> rfl
    | some o =>
      cases o with
      | zero => rfl
      | succ o =>
        change (getR (strBytes s) (o + 1 - 1) >>= _) = Res.mapR _ (getR (strBytes s) (o + 1 - 1) >>= _)
        cases getR (strBytes s) (o + 1 - 1) with
        | panic => rfl
        | ok b =>
          simp only [Res.bind_ok]
          split
          · cases strToR s (o + 1 - 1) with
            | panic => rfl
            | ok a =>
              simp only [Res.bind_ok, wordsR_alloc]
              cases v.alloc a with
              | panic => rfl
              | ok v1 =>
                simp only [Res.mapR_ok, Res.bind_ok, wordsR_alloc]
                cases v1.alloc [' '] with
                | panic => rfl
                | ok v2 =>
                  simp only [Res.mapR_ok, Res.bind_ok]
                  cases strFromR s (o + 1 + 1) with
                  | panic => rfl
                  | ok s' => simp only [Res.bind_ok, ih]
          · cases strToR s (o + 1) with
            | panic => rfl
            | ok a =>
              simp only [Res.bind_ok, wordsR_alloc]
              cases v.alloc a <;> rfl

/-- Allocating leaves what has been allocated as it is. -/
structure Grows (v v' : Words) : Prop where
  le : v.allocated ≤ v'.allocated
  take : v'.buf.take v.allocated = v.buf.take v.allocated
  length : v'.buf.length = v.buf.length

theorem Grows.refl (v : Words) : Grows v v := ⟨Nat.le_refl _, rfl, rfl⟩

theorem Grows.trans {v v' v'' : Words} (h1 : Grows v v') (h2 : Grows v' v'') : Grows v v'' := by
  refine ⟨Nat.le_trans h1.le h2.le, ?_, h2.length.trans h1.length⟩
  have := congrArg (List.take v.allocated) h2.take
  rwa [List.take_take, List.take_take, Nat.min_eq_left h1.le, h1.take] at this

theorem setR_ok {α : Type} {l l' : List α} {i : Nat} {a : α} (h : setR l i a = .ok l') : i < l.length ∧ l' = l.set i a := by
  unfold setR at h
  split at h
  · exact ⟨by assumption, by cases h; rfl⟩
  · cases h

theorem words_alloc_grows (l : List Char) : ∀ {v v' : Words}, v.alloc l = .ok v' → Grows v v' := by
  induction l with
  | nil => intro v v' h; cases h; exact .refl _
  | cons c l ih =>
    intro v v' h
    rw [Words.alloc] at h
    obtain ⟨buf, h1, h2⟩ := Res.bind_eq_ok.mp h
    obtain ⟨hlt, rfl⟩ := setR_ok h1
    have := ih h2
    refine Grows.trans (v' := { v with buf := v.buf.set v.allocated c, allocated := v.allocated + 1 }) ⟨by simp, ?_, by simp⟩
      this
    exact List.take_set_of_le (Nat.le_refl _)

theorem words_alloc_s (l : List Char) : ∀ {v v' : Words}, v.alloc l = .ok v' → v'.s = v.s := by
  induction l with
  | nil => intro v v' h; cases h; rfl
  | cons c l ih =>
    intro v v' h
    rw [Words.alloc] at h
    obtain ⟨buf, _, h2⟩ := Res.bind_eq_ok.mp h
    have := ih h2
    exact this

theorem words_nextLoop_grows : ∀ (fuel : Nat) {v : Words} {s : List Char} {e : Nat} {x : Words × Nat},
    Words.nextLoop fuel v s e = .ok x → Grows v x.1 ∧ x.1.s = v.s := by
  intro fuel
  induction fuel with
  | zero => intro v s e x h; cases h
  | succ fuel ih =>
    intro v s e x h
    rw [Words.nextLoop] at h
    cases hm : memchr 32 (strBytes s) with
    | none =>
      rw [hm] at h
      obtain ⟨v1, h1, h2⟩ := Res.bind_eq_ok.mp h
      cases h2
      exact ⟨words_alloc_grows _ h1, words_alloc_s _ h1⟩
    | some o =>
      rw [hm] at h
      cases o with
      | zero => cases h; exact ⟨.refl _, rfl⟩
      | succ o =>
        change (getR (strBytes s) (o + 1 - 1) >>= _) = _ at h
        obtain ⟨b, _, h⟩ := Res.bind_eq_ok.mp h
        split at h
        · obtain ⟨a, _, h⟩ := Res.bind_eq_ok.mp h
          obtain ⟨v1, h1, h⟩ := Res.bind_eq_ok.mp h
          obtain ⟨v2, h2, h⟩ := Res.bind_eq_ok.mp h
          obtain ⟨s', _, h⟩ := Res.bind_eq_ok.mp h
          obtain ⟨h3, h4⟩ := ih h
          exact ⟨(words_alloc_grows _ h1).trans ((words_alloc_grows _ h2).trans h3),
            h4.trans ((words_alloc_s _ h2).trans (words_alloc_s _ h1))⟩
        · obtain ⟨a, _, h⟩ := Res.bind_eq_ok.mp h
          obtain ⟨v1, h1, h2⟩ := Res.bind_eq_ok.mp h
          cases h2
          exact ⟨words_alloc_grows _ h1, words_alloc_s _ h1⟩

theorem sliceR_ok {α : Type} {l l' : List α} {a b : Nat} (h : sliceR l a b = .ok l') :
    a ≤ b ∧ b ≤ l.length ∧ l' = (l.take b).drop a := by
  unfold sliceR at h
  split at h
  · rename_i hc; exact ⟨hc.1, hc.2, by cases h; rfl⟩
  · cases h

theorem readR_eq {α : Type} {m : Nat → Option (List α)} {r : Ref} {l : List α} (hm : m r.block = some l) :
    readR m r = sliceR l r.start (r.start + r.len) := by
  unfold readR; rw [hm]; rfl

/-- `Words::next`. -/
theorem wordsR_next {v v' : Words} {o : Option (List Char)} (hv : v.next = .ok (o, v')) :
    Grows v v' ∧
      ∃ r, (wordsR P v).next (h.put P v.buf ps ds) = .ok (h.put P v'.buf ps ds, r, wordsR P v') ∧
        ((o = none ∧ r = none) ∨ ∃ word ref, o = some word ∧ r = some ref ∧ ref.block = P.chars ∧
          ref.start + ref.len ≤ v'.allocated ∧ sliceR v'.buf ref.start (ref.start + ref.len) = .ok word) := by
  unfold Words.next at hv
  unfold WordsR.next
  by_cases hs : v.s.isEmpty = true
  · rw [if_pos hs] at hv
    cases hv
    exact ⟨.refl _, none, by simp [wordsR, hs], .inl ⟨rfl, rfl⟩⟩
  · rw [if_neg hs] at hv
    obtain ⟨⟨v1, e⟩, h1, hv⟩ := Res.bind_eq_ok.mp hv
    obtain ⟨x, h2, hv⟩ := Res.bind_eq_ok.mp hv
    obtain ⟨y, h3, hv⟩ := Res.bind_eq_ok.mp hv
    obtain ⟨word, h4, hv⟩ := Res.bind_eq_ok.mp hv
    cases hv
    obtain ⟨hg, _⟩ := words_nextLoop_grows _ h1
    dsimp only at h2 h3 h4 hg ⊢
    obtain ⟨ha, hb, _⟩ := sliceR_ok h4
    have hadd : v.allocated + (v1.allocated - v.allocated) = v1.allocated := by omega
    refine ⟨⟨hg.le, hg.take, hg.length⟩, some ⟨P.chars, v.allocated, v1.allocated - v.allocated⟩, ?_,
      .inr ⟨word, _, rfl, rfl, rfl, ?_, ?_⟩⟩
    · have hn := wordsR_nextLoop (h := h) (P := P) (ps := ps) (ds := ds) (v.s.length + 1) v v.s 0
      rw [h1] at hn
      rw [if_neg (show ¬ (wordsR P v).s.isEmpty = true from hs)]
      change (WordsR.nextLoop (v.s.length + 1) _ _ v.s 0 >>= _) = _
      rw [hn]
      simp only [Res.mapR_ok, Res.bind_ok, wordsR]
      rw [h2]
      simp only [Res.bind_ok]
      rw [h3]
      simp only [Res.bind_ok, subR_of_le hg.le]
      rw [readR_eq (put_chars ..)]
      simp only [hadd]
      rw [h4]
      rfl
    · dsimp only; omega
    · dsimp only; rw [hadd]; exact h4

/-! ### `Pattern::parse` -/

theorem readR_ok {α : Type} {m : Nat → Option (List α)} {r : Ref} {l : List α} (h : readR m r = .ok l) :
    ∃ b, m r.block = some b ∧ r.start + r.len ≤ b.length ∧ l = (b.take (r.start + r.len)).drop r.start ∧ l.length = r.len := by
  unfold readR at h
  obtain ⟨b, h1, h2⟩ := Res.bind_eq_ok.mp h
  have h1 : m r.block = some b := by
    cases hm : m r.block with
    | none => rw [hm] at h1; cases h1
    | some x => rw [hm] at h1; cases h1; rfl
  obtain ⟨h3, h4, rfl⟩ := sliceR_ok h2
  exact ⟨b, h1, h4, rfl, by simp; omega⟩

theorem readR_fromR {α : Type} {m : Nat → Option (List α)} {r : Ref} {l : List α} (h : readR m r = .ok l) (hl : l ≠ []) :
    ∃ r', r.fromR 1 = .ok r' ∧ r'.block = r.block ∧ r.start ≤ r'.start ∧ r'.start + r'.len = r.start + r.len ∧
      readR m r' = .ok l.tail ∧ sliceFromR l 1 = .ok l.tail := by
  obtain ⟨b, h1, h2, rfl, h4⟩ := readR_ok h
  have hpos := List.length_pos_iff.mpr hl
  refine ⟨⟨r.block, r.start + 1, r.len - 1⟩, if_pos (by omega), rfl, by simp, by dsimp only; omega, ?_, sliceFromR_tail hl⟩
  rw [readR_eq (r := ⟨r.block, r.start + 1, r.len - 1⟩) h1]
  have e : r.start + 1 + (r.len - 1) = r.start + r.len := by omega
  dsimp only
  rw [e, sliceR_of_le (by omega) h2]
  simp [← List.drop_one]

theorem readR_toR {α : Type} {m : Nat → Option (List α)} {r : Ref} {l : List α} (h : readR m r = .ok l) :
    ∃ r', r.toR (r.len - 1) = .ok r' ∧ r'.block = r.block ∧ r.start ≤ r'.start ∧ r'.start + r'.len ≤ r.start + r.len ∧
      readR m r' = .ok l.dropLast ∧ sliceToR l (l.length - 1) = .ok l.dropLast := by
  obtain ⟨b, h1, h2, rfl, h4⟩ := readR_ok h
  refine ⟨⟨r.block, r.start, r.len - 1⟩, if_pos (by omega), rfl, Nat.le_refl _, by dsimp only; omega, ?_, sliceToR_dropLast _⟩
  rw [readR_eq (r := ⟨r.block, r.start, r.len - 1⟩) h1, List.dropLast_eq_take, h4]
  dsimp only
  rw [sliceR_of_le (by omega) (by omega)]
  congr 1
  rw [List.take_drop, List.take_take]
  congr 2
  omega

/-- The pattern `x`, whose text is between `a` and `n` in the allocation `b` with contents `buf`, stands for `p`. -/
structure Den (b a n : Nat) (buf : List Char) (x : PatternR) (p : Pattern) : Prop where
  block : x.text.block = b
  ge : a ≤ x.text.start
  le : x.text.start + x.text.len ≤ n
  text : sliceR buf x.text.start (x.text.start + x.text.len) = .ok p.text
  hasUppercase : x.hasUppercase = p.hasUppercase
  matchType : x.matchType = p.matchType
  isInverse : x.isInverse = p.isInverse
  leadingSpaces : x.leadingSpaces = p.leadingSpaces
  trailingSpaces : x.trailingSpaces = p.trailingSpaces

/-- The end of `Pattern::parse`, with references. -/
def sigilR (U : Unicode) (m : Heap) (inv : Bool) (mt : MatchType) (r : Ref) : Res (Option PatternR) := do
  if r.len == 0 then return none
  else
    let t ← readR m.chars r
    return some {
      isInverse := inv
      matchType := mt
      text := r
      hasUppercase := t.any U.isUppercase
      leadingSpaces := (t.takeWhile (· == ' ')).length
      trailingSpaces := (t.reverse.takeWhile (· == ' ')).length }

/-- The middle of `Pattern::parse`, with references. -/
def dollarR (U : Unicode) (m : Heap) (inv : Bool) (mt : MatchType) (r : Ref) : Res (Option PatternR) := do
  let t ← readR m.chars r
  let t' ← readR m.chars r
  if Pattern.startsWith t '\'' then
    sigilR U m inv (if !inv then MatchType.exact else MatchType.fuzzy) (← r.fromR 1)
  else if Pattern.startsWith t' '^' then
    sigilR U m inv (if mt == .suffixExact then MatchType.equalExact else MatchType.prefixExact) (← r.fromR 1)
  else sigilR U m inv mt r

def bangR (U : Unicode) (m : Heap) (inv : Bool) (mt : MatchType) (r : Ref) : Res (Option PatternR) := do
  if Pattern.endsWith (← readR m.chars r) '$' && r.len > 1 then dollarR U m inv MatchType.suffixExact (← r.toR (r.len - 1))
  else dollarR U m inv mt r

theorem patternR_parse_stages (U : Unicode) (m : Heap) (r : Ref) : PatternR.parse U m r = (do
    Res.assert (r.len != 0)
    if Pattern.startsWith (← readR m.chars r) '!' then bangR U m true .exact (← r.fromR 1)
    else bangR U m false .fuzzy r) := by
  unfold PatternR.parse bangR dollarR sigilR
  simp only [Res.bind_assoc, Res.pure_def, Res.bind_ok]

def sigilV (U : Unicode) (inv : Bool) (mt : MatchType) (t : List Char) : Res (Option Pattern) := do
  if t.isEmpty then return none
  else
    return some {
      isInverse := inv
      matchType := mt
      text := t
      hasUppercase := t.any U.isUppercase
      leadingSpaces := (t.takeWhile (· == ' ')).length
      trailingSpaces := (t.reverse.takeWhile (· == ' ')).length }

def dollarV (U : Unicode) (inv : Bool) (mt : MatchType) (t : List Char) : Res (Option Pattern) := do
  if Pattern.startsWith t '\'' then
    sigilV U inv (if !inv then MatchType.exact else MatchType.fuzzy) (← sliceFromR t 1)
  else if Pattern.startsWith t '^' then
    sigilV U inv (if mt == .suffixExact then MatchType.equalExact else MatchType.prefixExact) (← sliceFromR t 1)
  else sigilV U inv mt t

def bangV (U : Unicode) (inv : Bool) (mt : MatchType) (t : List Char) : Res (Option Pattern) := do
  if Pattern.endsWith t '$' && t.length > 1 then dollarV U inv MatchType.suffixExact (← sliceToR t (t.length - 1))
  else dollarV U inv mt t

theorem pattern_parse_stages (U : Unicode) (t : List Char) : Pattern.parse U t = (do
    Res.assert (!t.isEmpty)
    if Pattern.startsWith t '!' then bangV U true .exact (← sliceFromR t 1)
    else bangV U false .fuzzy t) := by
  unfold Pattern.parse bangV dollarV sigilV
  simp only [Res.bind_assoc, Res.pure_def, Res.bind_ok]

/-- Both give nothing, or patterns that correspond. -/
def Corr (b a n : Nat) (buf : List Char) (x : Res (Option PatternR)) (y : Res (Option Pattern)) : Prop :=
  ∀ o, y = .ok o → (o = none ∧ x = .ok none) ∨ ∃ z p, o = some p ∧ x = .ok (some z) ∧ Den b a n buf z p

theorem patternR_parse {U : Unicode} {m : Heap} {buf : List Char} {r : Ref} {l : List Char}
    (hb : m.chars r.block = some buf) (hr : readR m.chars r = .ok l) :
    Corr r.block r.start (r.start + r.len) buf (PatternR.parse U m r) (Pattern.parse U l) := by
  have hlen : ∀ {r' : Ref} {l' : List Char}, readR m.chars r' = .ok l' → l'.length = r'.len := by
    intro r' l' h; obtain ⟨_, _, _, _, h4⟩ := readR_ok h; exact h4
  have s3 : ∀ (inv : Bool) (mt : MatchType) (r' : Ref) (l' : List Char), r'.block = r.block → r.start ≤ r'.start →
      r'.start + r'.len ≤ r.start + r.len → readR m.chars r' = .ok l' →
      Corr r.block r.start (r.start + r.len) buf (sigilR U m inv mt r') (sigilV U inv mt l') := by
    intro inv mt r' l' h1 h2 h3 h4 o ho
    have hl := hlen h4
    unfold sigilV at ho
    unfold sigilR
    cases l' with
    | nil =>
      cases ho
      rw [if_pos (by simp at hl; simp [← hl])]
      exact .inl ⟨rfl, rfl⟩
    | cons c l' =>
      cases ho
      rw [if_neg (by simp at hl; simp [← hl])]
      rw [h4]
      refine .inr ⟨_, _, rfl, rfl, h1, h2, h3, ?_, rfl, rfl, rfl, rfl, rfl⟩
      rw [← h1] at hb
      rw [readR_eq hb] at h4
      exact h4
  have s2 : ∀ (inv : Bool) (mt : MatchType) (r' : Ref) (l' : List Char), r'.block = r.block → r.start ≤ r'.start →
      r'.start + r'.len ≤ r.start + r.len → readR m.chars r' = .ok l' →
      Corr r.block r.start (r.start + r.len) buf (dollarR U m inv mt r') (dollarV U inv mt l') := by
    intro inv mt r' l' h1 h2 h3 h4
    unfold dollarV dollarR
    rw [h4]
    simp only [Res.bind_ok]
    by_cases c1 : Pattern.startsWith l' '\'' = true
    · obtain ⟨r2, e1, e2, e3, e4, e5, e6⟩ := readR_fromR h4 (startsWith_ne c1)
      rw [if_pos c1, if_pos c1, e1, e6]
      exact s3 _ _ _ _ (e2.trans h1) (by omega) (by omega) e5
    · rw [if_neg c1, if_neg c1]
      by_cases c2 : Pattern.startsWith l' '^' = true
      · obtain ⟨r2, e1, e2, e3, e4, e5, e6⟩ := readR_fromR h4 (startsWith_ne c2)
        rw [if_pos c2, if_pos c2, e1, e6]
        exact s3 _ _ _ _ (e2.trans h1) (by omega) (by omega) e5
      · rw [if_neg c2, if_neg c2]
        exact s3 _ _ _ _ h1 h2 h3 h4
  have s1 : ∀ (inv : Bool) (mt : MatchType) (r' : Ref) (l' : List Char), r'.block = r.block → r.start ≤ r'.start →
      r'.start + r'.len ≤ r.start + r.len → readR m.chars r' = .ok l' →
      Corr r.block r.start (r.start + r.len) buf (bangR U m inv mt r') (bangV U inv mt l') := by
    intro inv mt r' l' h1 h2 h3 h4
    have hl := hlen h4
    unfold bangV bangR
    rw [h4]
    simp only [Res.bind_ok, ← hl]
    by_cases c1 : (Pattern.endsWith l' '$' && decide (l'.length > 1)) = true
    · obtain ⟨r2, e1, e2, e3, e4, e5, e6⟩ := readR_toR h4
      rw [if_pos c1, if_pos c1, e6, hl, e1]
      exact s2 _ _ _ _ (e2.trans h1) (by omega) (by omega) e5
    · rw [if_neg c1, if_neg c1]
      exact s2 _ _ _ _ h1 h2 h3 h4
  rw [patternR_parse_stages, pattern_parse_stages]
  have hl := hlen hr
  cases hn : l with
  | nil => intro o ho; cases ho
  | cons c l' =>
    have h0 : (r.len != 0) = true := by rw [hn] at hl; simp at hl; simp [← hl]
    rw [h0, hr]
    simp only [Res.assert_true, Res.bind_ok, List.isEmpty_cons, Bool.not_false]
    rw [← hn]
    by_cases c1 : Pattern.startsWith l '!' = true
    · obtain ⟨r2, e1, e2, e3, e4, e5, e6⟩ := readR_fromR hr (startsWith_ne c1)
      rw [if_pos c1, if_pos c1, e1, e6]
      exact s1 _ _ _ _ e2 (by omega) (by omega) e5
    · rw [if_neg c1, if_neg c1]
      exact s1 _ _ _ _ rfl (by omega) (by omega) hr

/-! ### `Patterns` -/

theorem sliceR_take {α : Type} {l l' : List α} {a b n : Nat} (hb : b ≤ n) (hl : l'.length = l.length)
    (ht : l'.take n = l.take n) : sliceR l' a b = sliceR l a b := by
  unfold sliceR
  have : l'.take b = l.take b := by
    have := congrArg (List.take b) ht
    rwa [List.take_take, List.take_take, Nat.min_eq_left hb] at this
  rw [hl, this]

theorem Den.mono {b a : Nat} {v v' : Words} {x : PatternR} {y : Pattern} (hg : Grows v v')
    (hd : Den b a v.allocated v.buf x y) : Den b 0 v'.allocated v'.buf x y :=
  { hd with
    ge := Nat.zero_le _
    le := Nat.le_trans hd.le hg.le
    text := by rw [sliceR_take hd.le hg.length hg.take]; exact hd.text }

/-- What has been allocated stays. -/
structure PGrows (v v' : Patterns) : Prop where
  le : v.allocated ≤ v'.allocated
  take : v'.buf.take v.allocated = v.buf.take v.allocated
  length : v'.buf.length = v.buf.length
  words : Grows v.words v'.words

theorem PGrows.trans {v v' v'' : Patterns} (h1 : PGrows v v') (h2 : PGrows v' v'') : PGrows v v'' := by
  refine ⟨Nat.le_trans h1.le h2.le, ?_, h2.length.trans h1.length, h1.words.trans h2.words⟩
  have := congrArg (List.take v.allocated) h2.take
  rwa [List.take_take, List.take_take, Nat.min_eq_left h1.le, h1.take] at this

/-- The patterns with references. -/
def patternsR (P : FzfParserR) (v : Patterns) (nx : Option PatternR) : PatternsR :=
  ⟨P.patterns, v.allocated, wordsR P v.words, nx⟩

/-- The patterns allocated so far, and the next one, are the same with and without references. -/
structure PInv (P : FzfParserR) (v : Patterns) (lR : List PatternR) (nx : Option PatternR) : Prop where
  length : lR.length = v.buf.length
  get : ∀ i, i < v.allocated → ∃ x y, lR[i]? = some x ∧ v.buf[i]? = some y ∧
    Den P.chars 0 v.words.allocated v.words.buf x y
  next : (nx = none ∧ v.next = none) ∨ ∃ x y, nx = some x ∧ v.next = some y ∧
    Den P.chars 0 v.words.allocated v.words.buf x y

theorem PInv.words {v : Patterns} {lR : List PatternR} {nx : Option PatternR} {w : Words} (hi : PInv P v lR nx)
    (hg : Grows v.words w) : PInv P { v with words := w } lR nx := by
  refine ⟨hi.length, fun i hl => ?_, ?_⟩
  · obtain ⟨x, y, h1, h2, h3⟩ := hi.get i hl
    exact ⟨x, y, h1, h2, h3.mono hg⟩
  · rcases hi.next with h1 | ⟨x, y, h1, h2, h3⟩
    · exact .inl h1
    · exact .inr ⟨x, y, h1, h2, h3.mono hg⟩

/-- `Patterns::alloc`. -/
theorem patternsR_alloc {v v' : Patterns} {lR : List PatternR} {nx : Option PatternR} {x : PatternR} {y : Pattern}
    {cs : List Char} (hv : v.alloc y = .ok v') (hi : PInv P v lR nx)
    (hd : Den P.chars 0 v.words.allocated v.words.buf x y) :
    PGrows v v' ∧ v'.words = v.words ∧ ∃ lR', (patternsR P v nx).alloc (h.put P cs lR ds) x =
      .ok (h.put P cs lR' ds, patternsR P v' nx) ∧ PInv P v' lR' nx := by
  unfold Patterns.alloc at hv
  obtain ⟨buf, h1, h2⟩ := Res.bind_eq_ok.mp hv
  cases h2
  obtain ⟨hlt, rfl⟩ := setR_ok h1
  refine ⟨⟨by simp, by simpa using List.take_set_of_le (Nat.le_refl _), by simp, .refl _⟩, rfl, lR.set v.allocated x, ?_, ?_⟩
  · unfold PatternsR.alloc patternsR
    simp only [put_patterns, Res.unwrap_some, Res.bind_ok]
    rw [setR_of_lt (by rw [hi.length]; exact hlt)]
    simp
  · refine ⟨by simp [hi.length], fun i hl => ?_, hi.next⟩
    dsimp only at hl ⊢
    by_cases hie : i = v.allocated
    · subst hie
      exact ⟨x, y, by simp [hi.length, hlt], by simp [hlt], hd⟩
    · obtain ⟨x', y', h3, h4, h5⟩ := hi.get i (by omega)
      exact ⟨x', y', by rw [List.getElem?_set_ne (by omega)]; exact h3, by rw [List.getElem?_set_ne (by omega)]; exact h4, h5⟩

theorem patternsR_nextLoop {U : Unicode} : ∀ (fuel : Nat) {v v' : Patterns} {lR : List PatternR} {nx : Option PatternR}
    {lfo : Bool}, Patterns.nextLoop U fuel v lfo = .ok v' → PInv P v lR nx →
    PGrows v v' ∧ ∃ lR' nx', PatternsR.nextLoop U fuel (h.put P v.words.buf lR ds) (patternsR P v nx) lfo =
      .ok (h.put P v'.words.buf lR' ds, patternsR P v' nx') ∧ PInv P v' lR' nx' := by
  intro fuel
  induction fuel with
  | zero => intro v v' lR nx lfo hv; cases hv
  | succ fuel ih =>
    intro v v' lR nx lfo hv hi
    rw [Patterns.nextLoop] at hv
    obtain ⟨⟨o, w⟩, h1, hv⟩ := Res.bind_eq_ok.mp hv
    obtain ⟨hg, r, h2, h3⟩ := wordsR_next (h := h) (P := P) (ps := lR) (ds := ds) h1
    have hi' := hi.words hg
    have hpg : PGrows v { v with words := w } := ⟨Nat.le_refl _, rfl, rfl, hg⟩
    rw [PatternsR.nextLoop]
    simp only [patternsR]
    rw [h2]
    simp only [Res.bind_ok]
    rcases h3 with ⟨rfl, rfl⟩ | ⟨word, ref, rfl, rfl, hb, hle, hs⟩
    · cases hv
      exact ⟨hpg, lR, nx, rfl, hi'⟩
    · dsimp only at hv ⊢
      have hmem : (h.put P w.buf lR ds).chars ref.block = some w.buf := by rw [hb]; simp
      have hread : readR (h.put P w.buf lR ds).chars ref = .ok word := by rw [readR_eq hmem]; exact hs
      rw [hread]
      simp only [Res.bind_ok]
      by_cases hc : (word != ['|']) = true
      · rw [if_pos hc] at hv ⊢
        obtain ⟨o, h4, hv⟩ := Res.bind_eq_ok.mp hv
        rcases patternR_parse (U := U) hmem hread o h4 with ⟨rfl, h5⟩ | ⟨x, y, rfl, h5, hd⟩
        · rw [h5]
          simp only [Res.bind_ok] at hv ⊢
          obtain ⟨g, h6⟩ := ih hv hi'
          exact ⟨hpg.trans g, h6⟩
        · rw [h5]
          simp only [Res.bind_ok] at hv ⊢
          have hd' : Den P.chars 0 w.allocated w.buf x y :=
            { hd with block := hd.block.trans hb, ge := Nat.zero_le _, le := Nat.le_trans hd.le hle }
          cases lfo with
          | true =>
            cases hv
            exact ⟨⟨hpg.le, hpg.take, hpg.length, hpg.words⟩, lR, some x, rfl, ⟨hi'.length, hi'.get, .inr ⟨x, y, rfl, rfl, hd'⟩⟩⟩
          | false =>
            rw [if_neg (by simp)] at hv ⊢
            obtain ⟨v2, h6, hv⟩ := Res.bind_eq_ok.mp hv
            obtain ⟨g, hw, lR2, h7, hi2⟩ := patternsR_alloc (h := h) (ds := ds) (cs := w.buf) h6 hi' hd'
            unfold patternsR at h7
            dsimp only at h7 hw
            rw [h7]
            simp only [Res.bind_ok]
            obtain ⟨g', h8⟩ := ih hv hi2
            rw [hw] at h8
            refine ⟨hpg.trans (g.trans g'), ?_⟩
            simp only [patternsR, hw] at h8 ⊢
            exact h8
      · rw [if_neg hc] at hv ⊢
        obtain ⟨g, h6⟩ := ih hv hi'
        exact ⟨hpg.trans g, h6⟩

/-- `Patterns::next`. -/
theorem patternsR_nextItem {U : Unicode} {v v' : Patterns} {o : Option Condition} {lR : List PatternR}
    {nx : Option PatternR} (hv : v.nextItem U = .ok (o, v')) (hi : PInv P v lR nx) :
    PGrows v v' ∧ ∃ r lR' nx', (patternsR P v nx).nextItem U (h.put P v.words.buf lR ds) =
      .ok (h.put P v'.words.buf lR' ds, r, patternsR P v' nx') ∧ PInv P v' lR' nx' ∧
      ((o = none ∧ r = none) ∨ ∃ c ref, o = some c ∧ r = some ref ∧ ref.block = P.patterns ∧
        ref.start + ref.len ≤ v'.allocated ∧ sliceR v'.buf ref.start (ref.start + ref.len) = .ok c) := by
  have key : ∀ {v1 v' : Patterns} {lR1 : List PatternR} {nx1 : Option PatternR} {lfo : Bool}, PGrows v v1 →
      v1.words = v.words → PInv P v1 lR1 nx1 →
      (do
        let p ← Patterns.nextLoop U (v1.words.s.length + 1) v1 lfo
        if p.allocated == v.allocated then return (none, p)
        else return (some (← sliceR p.buf v.allocated p.allocated), p)) = .ok (o, v') →
      PGrows v v' ∧ ∃ r lR' nx', (do
        let (h, p) ← PatternsR.nextLoop U (v1.words.s.length + 1) (h.put P v1.words.buf lR1 ds) (patternsR P v1 nx1) lfo
        if p.allocated == v.allocated then return (h, none, p)
        else
          let condition : ConditionR := ⟨p.buf, v.allocated, ← subR p.allocated v.allocated⟩
          let _ ← readR h.patterns condition
          return (h, some condition, p)) = .ok (h.put P v'.words.buf lR' ds, r, patternsR P v' nx') ∧ PInv P v' lR' nx' ∧
        ((o = none ∧ r = none) ∨ ∃ c ref, o = some c ∧ r = some ref ∧ ref.block = P.patterns ∧
          ref.start + ref.len ≤ v'.allocated ∧ sliceR v'.buf ref.start (ref.start + ref.len) = .ok c) := by
    intro v1 v' lR1 nx1 lfo hg hw hi1 hv
    obtain ⟨v2, h1, hv⟩ := Res.bind_eq_ok.mp hv
    obtain ⟨g, lR2, nx2, h2, hi2⟩ := patternsR_nextLoop (h := h) (ds := ds) _ h1 hi1
    rw [h2]
    simp only [Res.bind_ok]
    have g' := hg.trans g
    by_cases hc : (v2.allocated == v.allocated) = true
    · rw [if_pos hc] at hv
      cases hv
      refine ⟨g', none, lR2, nx2, ?_, hi2, .inl ⟨rfl, rfl⟩⟩
      rw [if_pos (show ((patternsR P v' nx2).allocated == v.allocated) = true from hc)]
      rfl
    · rw [if_neg hc] at hv
      obtain ⟨c, h3, hv⟩ := Res.bind_eq_ok.mp hv
      cases hv
      obtain ⟨_, hb, _⟩ := sliceR_ok h3
      have hadd : v.allocated + (v'.allocated - v.allocated) = v'.allocated := by have := g'.le; omega
      refine ⟨g', some ⟨P.patterns, v.allocated, v'.allocated - v.allocated⟩, lR2, nx2, ?_, hi2,
        .inr ⟨c, _, rfl, rfl, rfl, by dsimp only; omega, by dsimp only; rw [hadd]; exact h3⟩⟩
      rw [if_neg (show ¬ ((patternsR P v' nx2).allocated == v.allocated) = true from hc)]
      simp only [patternsR, subR_of_le g'.le, Res.bind_ok]
      rw [readR_eq (put_patterns ..)]
      simp only [hadd]
      rw [sliceR_of_le g'.le (by rw [hi2.length]; exact hb)]
      rfl
  unfold Patterns.nextItem at hv
  unfold PatternsR.nextItem
  rcases hi.next with ⟨h1, h2⟩ | ⟨x, y, h1, h2, hd⟩
  · rw [h2] at hv
    subst h1
    exact key (v1 := v) ⟨Nat.le_refl _, rfl, rfl, .refl _⟩ rfl hi hv
  · rw [h2] at hv
    subst h1
    dsimp only at hv
    rw [Res.bind_assoc] at hv
    obtain ⟨v1, h3, hv⟩ := Res.bind_eq_ok.mp hv
    have hi0 : PInv P { v with next := none } lR none := ⟨hi.length, hi.get, .inl ⟨rfl, rfl⟩⟩
    obtain ⟨g, hw, lR1, h4, hi1⟩ := patternsR_alloc (h := h) (ds := ds) (cs := v.words.buf) h3 hi0 hd
    have g0 : PGrows v v1 := ⟨g.le, g.take, g.length, g.words⟩
    dsimp only at hw
    have := key (v1 := v1) (lfo := true) g0 hw hi1 hv
    rw [hw] at this
    simp only [patternsR] at h4 this ⊢
    rw [h4]
    simp only [Res.bind_ok, Res.pure_def, hw] at this ⊢
    exact this

/-! ### `FzfParser::parse` -/

/-- The conditions found so far are the same with and without references. -/
structure CInv (P : FzfParserR) (v : Patterns) (cR : List ConditionR) (cs : List Condition) (k : Nat) : Prop where
  length : cR.length = cs.length
  get : ∀ i, i < k → ∃ r c, cR[i]? = some r ∧ cs[i]? = some c ∧ r.block = P.patterns ∧ r.start + r.len ≤ v.allocated ∧
    sliceR v.buf r.start (r.start + r.len) = .ok c

theorem CInv.grows {v v' : Patterns} {cR : List ConditionR} {cs : List Condition} {k : Nat} (hc : CInv P v cR cs k)
    (hg : PGrows v v') : CInv P v' cR cs k := by
  refine ⟨hc.length, fun i hi => ?_⟩
  obtain ⟨r, c, h1, h2, h3, h4, h5⟩ := hc.get i hi
  exact ⟨r, c, h1, h2, h3, Nat.le_trans h4 hg.le, by rw [sliceR_take h4 hg.length hg.take]; exact h5⟩

theorem parserR_loop {U : Unicode} : ∀ (fuel : Nat) {v v' : Patterns} {cs cs' : List Condition} {k k' : Nat}
    {lR : List PatternR} {nx : Option PatternR} {cR : List ConditionR},
    FzfParser.parseLoop U fuel v cs k = .ok (v', cs', k') → PInv P v lR nx → CInv P v cR cs k →
    ∃ lR' nx' cR', FzfParserR.parseLoop U P.conditions fuel (h.put P v.words.buf lR cR) (patternsR P v nx) k =
      .ok (h.put P v'.words.buf lR' cR', k') ∧ PInv P v' lR' nx' ∧ CInv P v' cR' cs' k' := by
  intro fuel
  induction fuel with
  | zero => intro v v' cs cs' k k' lR nx cR hv; cases hv
  | succ fuel ih =>
    intro v v' cs cs' k k' lR nx cR hv hi hc
    rw [FzfParser.parseLoop] at hv
    obtain ⟨⟨o, v1⟩, h1, hv⟩ := Res.bind_eq_ok.mp hv
    obtain ⟨hg, r, lR1, nx1, h2, hi1, h3⟩ := patternsR_nextItem (h := h) (ds := cR) h1 hi
    have hc1 := hc.grows hg
    rw [FzfParserR.parseLoop, h2]
    simp only [Res.bind_ok]
    rcases h3 with ⟨rfl, rfl⟩ | ⟨c, ref, rfl, rfl, hb, hle, hs⟩
    · cases hv
      exact ⟨lR1, nx1, cR, rfl, hi1, hc1⟩
    · dsimp only at hv ⊢
      obtain ⟨cs1, h4, hv⟩ := Res.bind_eq_ok.mp hv
      obtain ⟨hlt, rfl⟩ := setR_ok h4
      simp only [put_conditions, Res.unwrap_some, Res.bind_ok]
      rw [setR_of_lt (by rw [hc1.length]; exact hlt)]
      simp only [Res.bind_ok, put_setConditions]
      refine ih hv hi1 ⟨by simp [hc1.length], fun i hl => ?_⟩
      by_cases hik : i = k
      · subst hik
        exact ⟨ref, c, by simp [hc1.length, hlt], by simp [hlt], hb, hle, hs⟩
      · obtain ⟨r', c', h5, h6, h7⟩ := hc1.get i (by omega)
        exact ⟨r', c', by rw [List.getElem?_set_ne (by omega)]; exact h5, by rw [List.getElem?_set_ne (by omega)]; exact h6, h7⟩

/-- `h'` has the same contents as `h` in the allocations of `P`. -/
structure Agrees (P : FzfParserR) (h h' : Heap) : Prop where
  chars : h'.chars P.chars = h.chars P.chars
  patterns : h'.patterns P.patterns = h.patterns P.patterns
  conditions : h'.conditions P.conditions = h.conditions P.conditions

theorem reads_of_slice {α : Type} {m : Nat → Option (List α)} {r : Ref} {b l : List α} (hm : m r.block = some b)
    (hs : sliceR b r.start (r.start + r.len) = .ok l) : Reads m r l := by
  obtain ⟨h1, h2, rfl⟩ := sliceR_ok hs
  refine ⟨b.take r.start, b.drop (r.start + r.len), ?_, by simp; omega, by simp; omega⟩
  rw [hm]
  congr 1
  conv_lhs => rw [← List.take_append_drop (r.start + r.len) b]
  congr 1
  conv_lhs => rw [← List.take_append_drop r.start (b.take (r.start + r.len))]
  rw [List.take_take, Nat.min_eq_left (by omega)]

theorem Den.reads {b a n : Nat} {buf : List Char} {x : PatternR} {y : Pattern} {m : Heap} (hd : Den b a n buf x y)
    (hm : m.chars b = some buf) : PatternReads m x y :=
  ⟨reads_of_slice (by rw [hd.block]; exact hm) hd.text, hd.hasUppercase, hd.matchType, hd.isInverse, hd.leadingSpaces,
    hd.trailingSpaces⟩

theorem sliceR_get {α : Type} {l l' : List α} {a b : Nat} (h : sliceR l a b = .ok l') (i : Nat) (hi : i < l'.length) :
    a + i < b ∧ l[a + i]? = some l'[i] := by
  obtain ⟨_, h2, rfl⟩ := sliceR_ok h
  have hi' : i < b - a := by simp at hi; omega
  refine ⟨by omega, ?_⟩
  rw [List.getElem_drop, List.getElem_take, List.getElem?_eq_getElem (by omega)]

theorem condition_reads {v : Patterns} {lR : List PatternR} {nx : Option PatternR} {m : Heap} {r : Ref} {c : Condition}
    (hi : PInv P v lR nx) (h2 : m.patterns P.patterns = some lR)
    (hb : r.block = P.patterns) (hle : r.start + r.len ≤ v.allocated)
    (hs : sliceR v.buf r.start (r.start + r.len) = .ok c) :
    ∃ xs, readR m.patterns r = .ok xs ∧ Reads m.patterns r xs ∧ List.Forall₂ (Den P.chars 0 v.words.allocated v.words.buf) xs c := by
  obtain ⟨_, h4, h5⟩ := sliceR_ok hs
  have hm : m.patterns r.block = some lR := by rw [hb]; exact h2
  have hsl : sliceR lR r.start (r.start + r.len) = .ok ((lR.take (r.start + r.len)).drop r.start) :=
    sliceR_of_le (by omega) (by rw [hi.length]; exact h4)
  refine ⟨_, by rw [readR_eq hm]; exact hsl, reads_of_slice hm hsl, ?_⟩
  rw [List.forall₂_iff_get]
  have hl := hi.length
  refine ⟨by rw [h5]; simp; omega, fun i hx hc => ?_⟩
  obtain ⟨h6, h7⟩ := sliceR_get hsl i hx
  obtain ⟨_, h8⟩ := sliceR_get hs i hc
  obtain ⟨x, y, h9, h10, hd⟩ := hi.get (r.start + i) (by omega)
  rw [h7] at h9
  rw [h8] at h10
  cases h9
  cases h10
  exact hd

/-- `FzfQuery::new_extended`, and what the query reads in any memory that agrees with the present one in the allocations
of the parser. -/
theorem queryR_newExtended {v : Patterns} {lR : List PatternR} {nx : Option PatternR} {cR : List ConditionR}
    {cs : List Condition} {k : Nat} {q : FzfQuery} {m : Heap} (hi : PInv P v lR nx) (hc : CInv P v cR cs k)
    (h1 : m.chars P.chars = some v.words.buf) (h2 : m.patterns P.patterns = some lR)
    (h3 : m.conditions P.conditions = some cR) (hk : k ≤ cs.length) (hq : FzfQuery.newExtended (cs.take k) = .ok q) :
    ∃ q', FzfQueryR.newExtended m ⟨P.conditions, 0, k⟩ = .ok q' ∧ ∀ m', Agrees P m m' → QueryReads m' q' q := by
  have hsl : sliceR cR 0 (0 + k) = .ok (cR.take k) := by
    rw [sliceR_of_le (by omega) (by rw [hc.length]; omega)]; simp
  have hrd : readR m.conditions ⟨P.conditions, 0, k⟩ = .ok (cR.take k) := by
    rw [readR_eq (r := ⟨P.conditions, 0, k⟩) h3]; exact hsl
  have hext : ∀ m', Agrees P m m' → QueryReads m' (.extended ⟨P.conditions, 0, k⟩) (.extended (cs.take k)) := by
    intro m' ha
    refine .extended (rs := cR.take k) (reads_of_slice (r := ⟨P.conditions, 0, k⟩) (ha.conditions.trans h3) hsl) ?_
    rw [List.forall₂_iff_get]
    have hl := hc.length
    refine ⟨by simp [hl], fun i hx hy => ?_⟩
    obtain ⟨r, c, e1, e2, e3, e4, e5⟩ := hc.get i (by simp at hx; omega)
    obtain ⟨xs, _, hr, hd⟩ := condition_reads hi (ha.patterns.trans h2) e3 e4 e5
    have e1' : (cR.take k).get ⟨i, hx⟩ = r := by
      rw [List.getElem?_eq_some_iff] at e1
      obtain ⟨_, e1⟩ := e1
      simp [e1]
    have e2' : (cs.take k).get ⟨i, hy⟩ = c := by
      rw [List.getElem?_eq_some_iff] at e2
      obtain ⟨_, e2⟩ := e2
      simp [e2]
    rw [e1', e2']
    exact ⟨xs, hr, hd.imp fun x y d => d.reads (ha.chars.trans h1)⟩
  unfold FzfQuery.newExtended at hq
  unfold FzfQueryR.newExtended
  dsimp only
  have hlen : (cs.take k).length = k := by simp; omega
  rw [hlen] at hq
  by_cases hk1 : (k == 1) = true
  · rw [if_pos hk1] at hq ⊢
    obtain rfl : k = 1 := by simpa using hk1
    obtain ⟨c0, g1, hq⟩ := Res.bind_eq_ok.mp hq
    obtain ⟨y, g2, hq⟩ := Res.bind_eq_ok.mp hq
    obtain ⟨r, c, e1, e2, e3, e4, e5⟩ := hc.get 0 (by omega)
    obtain rfl : c0 = c := by
      rw [getR_eq_ok, List.getElem?_take, if_pos (by omega), e2] at g1
      exact (Option.some.inj g1).symm
    obtain ⟨xs, hr0, _, hd⟩ := condition_reads hi h2 e3 e4 e5
    rw [hrd]
    have hget : getR (cR.take 1) 0 = .ok r := by
      rw [getR_eq_ok, List.getElem?_take, if_pos (by omega)]; exact e1
    simp only [Res.bind_ok]
    rw [hget]
    simp only [Res.bind_ok]
    rw [hr0]
    simp only [Res.bind_ok]
    cases hd with
    | nil => cases g2
    | @cons x y' xs' c' hxy hrest =>
      cases g2
      change (if (c'.isEmpty && y.matchType == .fuzzy) = true then pure (FzfQuery.notExtended y)
        else pure (FzfQuery.extended (cs.take 1))) = Res.ok q at hq
      change ∃ q', (if (xs'.isEmpty && x.matchType == .fuzzy) = true then pure (FzfQueryR.notExtended x)
        else pure (FzfQueryR.extended ⟨P.conditions, 0, 1⟩)) = Res.ok q' ∧ _
      have hempty : xs'.isEmpty = c'.isEmpty := by cases hrest <;> rfl
      have hcond : (xs'.isEmpty && x.matchType == .fuzzy) = (c'.isEmpty && y.matchType == .fuzzy) := by
        rw [hempty, hxy.matchType]
      by_cases hf : (c'.isEmpty && y.matchType == .fuzzy) = true
      · rw [if_pos hf] at hq
        rw [if_pos (hcond.trans hf)]
        cases hq
        exact ⟨_, rfl, fun m' ha => .notExtended (hxy.reads (ha.chars.trans h1))⟩
      · rw [if_neg hf] at hq
        rw [if_neg (by rw [hcond]; exact hf)]
        cases hq
        exact ⟨_, rfl, hext⟩
  · rw [if_neg hk1] at hq ⊢
    cases hq
    exact ⟨_, rfl, hext⟩

/-- What a call on the parser `P` does to the rest of the memory: nothing. The parser's allocations may become new ones. -/
structure Frame (h : Heap) (P : FzfParserR) (h' : Heap) (P' : FzfParserR) : Prop where
  next : h.next ≤ h'.next
  chars : ∀ b, b < h.next → b ≠ P.chars → h'.chars b = h.chars b
  patterns : ∀ b, b < h.next → b ≠ P.patterns → h'.patterns b = h.patterns b
  conditions : ∀ b, b < h.next → b ≠ P.conditions → h'.conditions b = h.conditions b
  charsAt : P'.chars = P.chars ∨ (h.next ≤ P'.chars ∧ P'.chars < h'.next)
  patternsAt : P'.patterns = P.patterns ∨ (h.next ≤ P'.patterns ∧ P'.patterns < h'.next)
  conditionsAt : P'.conditions = P.conditions ∨ (h.next ≤ P'.conditions ∧ P'.conditions < h'.next)

theorem Frame.refl (h : Heap) (P : FzfParserR) : Frame h P h P :=
  ⟨Nat.le_refl _, fun _ _ _ => rfl, fun _ _ _ => rfl, fun _ _ _ => rfl, .inl rfl, .inl rfl, .inl rfl⟩

theorem Frame.trans {h h' h'' : Heap} {P P' P'' : FzfParserR} (f : Frame h P h' P') (g : Frame h' P' h'' P'') :
    Frame h P h'' P'' := by
  have hn := f.next
  have hn' := g.next
  refine ⟨by omega, fun b hb hne => ?_, fun b hb hne => ?_, fun b hb hne => ?_, ?_, ?_, ?_⟩
  · rw [g.chars b (by omega) (by rcases f.charsAt with h | h <;> omega), f.chars b hb hne]
  · rw [g.patterns b (by omega) (by rcases f.patternsAt with h | h <;> omega), f.patterns b hb hne]
  · rw [g.conditions b (by omega) (by rcases f.conditionsAt with h | h <;> omega), f.conditions b hb hne]
  · rcases f.charsAt with h | h <;> rcases g.charsAt with h2 | h2 <;> omega
  · rcases f.patternsAt with h | h <;> rcases g.patternsAt with h2 | h2 <;> omega
  · rcases f.conditionsAt with h | h <;> rcases g.conditionsAt with h2 | h2 <;> omega

theorem update_ne {α : Type} (m : Nat → Option α) {b i : Nat} (x : Option α) (h : i ≠ b) : update m b x i = m i := if_neg h
theorem update_eq {α : Type} (m : Nat → Option α) (b : Nat) (x : Option α) : update m b x b = x := if_pos rfl

theorem put_frame (h : Heap) (P : FzfParserR) (cs : List Char) (ps : List PatternR) (ds : List ConditionR) :
    Frame h P (h.put P cs ps ds) P :=
  ⟨Nat.le_refl _, fun _ _ hne => update_ne _ _ hne, fun _ _ hne => update_ne _ _ hne, fun _ _ hne => update_ne _ _ hne,
    .inl rfl, .inl rfl, .inl rfl⟩

/-- The allocations of the parser are live, with these contents, and not new ones. -/
structure Live (h : Heap) (P : FzfParserR) (cs : List Char) (ps : List PatternR) (ds : List ConditionR) : Prop where
  chars : h.chars P.chars = some cs
  patterns : h.patterns P.patterns = some ps
  conditions : h.conditions P.conditions = some ds
  charsLt : P.chars < h.next
  patternsLt : P.patterns < h.next
  conditionsLt : P.conditions < h.next

section Grow
variable {cs : List Char}

theorem growChars_ok (mv : Bool) (n : Nat) (hl : Live h P cs ps ds) : ∃ h' b,
    (do if (← Res.unwrap (h.chars P.chars)).length < n then h.growChars mv P.chars n else pure (h, P.chars)) = .ok (h', b) ∧
      Frame h P h' { P with chars := b } ∧
      Live h' { P with chars := b } (if cs.length < n then resize cs n charDefault else cs) ps ds := by
  rw [hl.chars]
  simp only [Res.unwrap_some, Res.bind_ok]
  have h1 := hl.charsLt
  have h2 := hl.patternsLt
  have h3 := hl.conditionsLt
  by_cases hc : cs.length < n
  · rw [if_pos hc, if_pos hc]
    unfold Heap.growChars
    rw [hl.chars]
    simp only [Res.unwrap_some, Res.bind_ok]
    cases mv with
    | true =>
      refine ⟨_, _, rfl, ⟨by simp, fun b hb hne => ?_, fun _ _ _ => rfl, fun _ _ _ => rfl, .inr (by simp), .inl rfl, .inl rfl⟩,
        ⟨by simp [update], hl.patterns, hl.conditions, by simp, ?_, ?_⟩⟩
      · dsimp only; rw [update_ne _ _ (by omega), update_ne _ _ hne]
      · dsimp only; omega
      · dsimp only; omega
    | false =>
      refine ⟨_, _, rfl, ⟨Nat.le_refl _, fun b hb hne => update_ne _ _ hne, fun _ _ _ => rfl, fun _ _ _ => rfl, .inl rfl,
        .inl rfl, .inl rfl⟩, ⟨by simp [Heap.setChars, update], hl.patterns, hl.conditions, h1, h2, h3⟩⟩
  · rw [if_neg hc, if_neg hc]
    exact ⟨h, P.chars, rfl, .refl _ _, hl⟩

theorem growConditions_ok (mv : Bool) (n : Nat) (hl : Live h P cs ps ds) : ∃ h' b,
    (do
      if (← Res.unwrap (h.conditions P.conditions)).length < n then h.growConditions mv P.conditions n
      else pure (h, P.conditions)) = .ok (h', b) ∧
      Frame h P h' { P with conditions := b } ∧
      Live h' { P with conditions := b } cs ps (if ds.length < n then resize ds n Ref.empty else ds) := by
  rw [hl.conditions]
  simp only [Res.unwrap_some, Res.bind_ok]
  have h1 := hl.charsLt
  have h2 := hl.patternsLt
  have h3 := hl.conditionsLt
  by_cases hc : ds.length < n
  · rw [if_pos hc, if_pos hc]
    unfold Heap.growConditions
    rw [hl.conditions]
    simp only [Res.unwrap_some, Res.bind_ok]
    cases mv with
    | true =>
      refine ⟨_, _, rfl, ⟨by simp, fun _ _ _ => rfl, fun _ _ _ => rfl, fun b hb hne => ?_, .inl rfl, .inl rfl, .inr (by simp)⟩,
        ⟨hl.chars, hl.patterns, by simp [update], ?_, ?_, by simp⟩⟩
      · dsimp only; rw [update_ne _ _ (by omega), update_ne _ _ hne]
      · dsimp only; omega
      · dsimp only; omega
    | false =>
      refine ⟨_, _, rfl, ⟨Nat.le_refl _, fun _ _ _ => rfl, fun _ _ _ => rfl, fun b hb hne => update_ne _ _ hne, .inl rfl,
        .inl rfl, .inl rfl⟩, ⟨hl.chars, hl.patterns, by simp [Heap.setConditions, update], h1, h2, h3⟩⟩
  · rw [if_neg hc, if_neg hc]
    exact ⟨h, P.conditions, rfl, .refl _ _, hl⟩

theorem growPatterns_ok (mv : Bool) (n : Nat) (hl : Live h P cs ps ds) : ∃ h' b,
    (do
      if (← Res.unwrap (h.patterns P.patterns)).length < n then h.growPatterns mv P.patterns n
      else pure (h, P.patterns)) = .ok (h', b) ∧
      Frame h P h' { P with patterns := b } ∧
      Live h' { P with patterns := b } cs (if ps.length < n then resize ps n PatternR.default else ps) ds := by
  rw [hl.patterns]
  simp only [Res.unwrap_some, Res.bind_ok]
  have h1 := hl.charsLt
  have h2 := hl.patternsLt
  have h3 := hl.conditionsLt
  by_cases hc : ps.length < n
  · rw [if_pos hc, if_pos hc]
    unfold Heap.growPatterns
    rw [hl.patterns]
    simp only [Res.unwrap_some, Res.bind_ok]
    cases mv with
    | true =>
      refine ⟨_, _, rfl, ⟨by simp, fun _ _ _ => rfl, fun b hb hne => ?_, fun _ _ _ => rfl, .inl rfl, .inr (by simp), .inl rfl⟩,
        ⟨hl.chars, by simp [update], hl.conditions, ?_, by simp, ?_⟩⟩
      · dsimp only; rw [update_ne _ _ (by omega), update_ne _ _ hne]
      · dsimp only; omega
      · dsimp only; omega
    | false =>
      refine ⟨_, _, rfl, ⟨Nat.le_refl _, fun _ _ _ => rfl, fun b hb hne => update_ne _ _ hne, fun _ _ _ => rfl, .inl rfl,
        .inl rfl, .inl rfl⟩, ⟨hl.chars, by simp [Heap.setPatterns, update], hl.conditions, h1, h2, h3⟩⟩
  · rw [if_neg hc, if_neg hc]
    exact ⟨h, P.patterns, rfl, .refl _ _, hl⟩

/-- The rest of `FzfParser::parse`, once the buffers are large enough. -/
def parseTail (U : Unicode) (h : Heap) (t : List Char) (chars conditions patterns : Nat) :
    Res (Heap × FzfParserR × FzfQueryR) := do
  let p ← PatternsR.new patterns chars t
  let (h, numConditions) ← FzfParserR.parseLoop U conditions ((← Res.unwrap (h.patterns patterns)).length + 1) h p 0
  let slice : Ref := ⟨conditions, 0, numConditions⟩
  let _ ← readR h.conditions slice
  let q ← FzfQueryR.newExtended h slice
  return (h, ⟨chars, patterns, conditions⟩, q)

theorem ite_bindR {α β : Type} (c : Prop) [Decidable c] (x y : Res α) (f : α → Res β) :
    ((if c then x else y) >>= f) = if c then x >>= f else y >>= f := by
  split <;> rfl

theorem parseR_stages (U : Unicode) (mv : Moves) (t : List Char) : P.parse U h mv t =
    ((do if (← Res.unwrap (h.chars P.chars)).length < strLen t then h.growChars mv.chars P.chars (strLen t)
         else pure (h, P.chars) : Res (Heap × Nat)) >>= fun x =>
      (do
        if (← Res.unwrap (x.1.conditions P.conditions)).length < strLen t / 2 + 1 then
          x.1.growConditions mv.conditions P.conditions (strLen t / 2 + 1)
        else pure (x.1, P.conditions) : Res (Heap × Nat)) >>= fun y =>
      (do
        if (← Res.unwrap (y.1.patterns P.patterns)).length < strLen t / 2 + 1 then
          y.1.growPatterns mv.patterns P.patterns (strLen t / 2 + 1)
        else pure (y.1, P.patterns) : Res (Heap × Nat)) >>= fun z => parseTail U z.1 t x.2 y.2 z.2) := by
  unfold FzfParserR.parse parseTail
  simp only [Res.bind_assoc, ite_bindR]

/-- `FzfParser::parse`, with references: it returns, and what its query reads in any memory that agrees with the final
one in the allocations of the parser. -/
theorem parserR_parse (U : Unicode) (mv : Moves) (t : List Char) (hl : Live h P cs ps ds) :
    ∃ h' P' q, P.parse U h mv t = .ok (h', P', q) ∧ Frame h P h' P' ∧ (∃ cs' ps' ds', Live h' P' cs' ps' ds') ∧
      ∀ m, Agrees P' h' m → QueryReads m q (query U t) := by
  obtain ⟨h1, b1, e1, f1, l1⟩ := growChars_ok mv.chars (strLen t) hl
  obtain ⟨h2, b2, e2, f2, l2⟩ := growConditions_ok mv.conditions (strLen t / 2 + 1) l1
  obtain ⟨h3, b3, e3, f3, l3⟩ := growPatterns_ok mv.patterns (strLen t / 2 + 1) l2
  have l3' : Live h3 ⟨b1, b3, b2⟩ _ _ _ := l3
  generalize hcs : (if cs.length < strLen t then resize cs (strLen t) charDefault else cs) = cs3 at l3'
  generalize hps : (if ps.length < strLen t / 2 + 1 then resize ps (strLen t / 2 + 1) PatternR.default else ps) = ps3 at l3'
  generalize hds : (if ds.length < strLen t / 2 + 1 then resize ds (strLen t / 2 + 1) Ref.empty else ds) = ds3 at l3'
  have hlc : strLen t ≤ cs3.length := by
    rw [← hcs]; split
    · exact Nat.le_of_eq (resize_length (by omega)).symm
    · omega
  have hlp : strLen t / 2 + 1 ≤ ps3.length := by
    rw [← hps]; split
    · exact Nat.le_of_eq (resize_length (by omega)).symm
    · omega
  have hld : strLen t / 2 + 1 ≤ ds3.length := by
    rw [← hds]; split
    · exact Nat.le_of_eq (resize_length (by omega)).symm
    · omega
  obtain ⟨Pv, _, hv⟩ := FzfParser.parse_eq U ⟨cs3, List.replicate ps3.length Pattern.default, List.replicate ds3.length []⟩ t
  unfold FzfParser.parse at hv
  dsimp only at hv
  have n1 : ¬ cs3.length < strLen t := by omega
  have n2 : ¬ (List.replicate ps3.length Pattern.default).length < strLen t / 2 + 1 := by rw [List.length_replicate]; omega
  have n3 : ¬ (List.replicate ds3.length ([] : Condition)).length < strLen t / 2 + 1 := by rw [List.length_replicate]; omega
  rw [if_neg n1, if_neg n2, if_neg n3] at hv
  unfold Patterns.new Words.new at hv
  rw [stripLeadingSpaces_eq] at hv
  simp only [Res.bind_ok, Res.pure_def, List.length_replicate] at hv
  obtain ⟨⟨v', cs', k⟩, hloop, hv⟩ := Res.bind_eq_ok.mp hv
  obtain ⟨s', hs', hv⟩ := Res.bind_eq_ok.mp hv
  obtain ⟨q, hq, hv⟩ := Res.bind_eq_ok.mp hv
  cases hv
  have hput := put_self (P := ⟨b1, b3, b2⟩) l3'.chars l3'.patterns l3'.conditions
  obtain ⟨lR, nx, cR, hR, hi, hc⟩ := parserR_loop (h := h3) (P := ⟨b1, b3, b2⟩) (lR := ps3) (nx := none) (cR := ds3) _ hloop
    ⟨by simp, fun i hi => absurd hi (by simp), .inl ⟨rfl, rfl⟩⟩ ⟨by simp, fun i hi => absurd hi (by simp)⟩
  have hlen : k ≤ cs'.length ∧ s' = cs'.take k := by
    unfold sliceToR at hs'
    split at hs'
    · cases hs'; exact ⟨by assumption, rfl⟩
    · cases hs'
  obtain ⟨hk, rfl⟩ := hlen
  obtain ⟨q', hq', hreads⟩ := queryR_newExtended (m := h3.put ⟨b1, b3, b2⟩ v'.words.buf lR cR) hi hc (put_chars ..) (put_patterns ..)
    (put_conditions ..) hk hq
  refine ⟨h3.put ⟨b1, b3, b2⟩ v'.words.buf lR cR, ⟨b1, b3, b2⟩, q', ?_, ((f1.trans f2).trans f3).trans (put_frame ..),
    ⟨v'.words.buf, lR, cR, ?_⟩, hreads⟩
  · rw [parseR_stages, e1]
    simp only [Res.bind_ok]
    dsimp only at e2 e3
    rw [e2]
    simp only [Res.bind_ok]
    rw [e3]
    simp only [Res.bind_ok]
    unfold parseTail
    have c3 := l3'.patterns
    dsimp only at c3
    unfold PatternsR.new WordsR.new
    rw [stripLeadingSpaces_eq]
    simp only [Res.bind_ok, Res.pure_def, c3, Res.unwrap_some]
    simp only [patternsR, wordsR] at hR
    rw [← hput] at hR
    rw [hR]
    simp only [Res.bind_ok]
    rw [readR_eq (r := ⟨b2, 0, k⟩) (put_conditions ..), sliceR_of_le (by omega) (by rw [hc.length]; dsimp only; omega)]
    simp only [Res.bind_ok]
    dsimp only at hq'
    rw [hq']
    rfl
  · exact ⟨put_chars .., put_patterns .., put_conditions .., l3'.charsLt, l3'.patternsLt, l3'.conditionsLt⟩

theorem parserR_writeChars (t : List Char) : ∀ (cs : List Char) (k : Nat),
    FzfParserR.writeChars P.chars (h.put P cs ps ds) t k =
      (FzfParser.writeChars cs t k).mapR fun x => (h.put P x.1 ps ds, x.2) := by
  induction t with
  | nil => intro cs k; rfl
  | cons c t ih =>
    intro cs k
    rw [FzfParserR.writeChars, FzfParser.writeChars]
    simp only [put_chars, Res.unwrap_some, Res.bind_ok]
    cases hs : setR cs k c with
    | panic => rfl
    | ok buf =>
      simp only [Res.bind_ok, put_setChars]
      exact ih buf (k + 1)

/-- `FzfParser::parse_not_extended`, with references. -/
theorem parserR_parseNotExtended (U : Unicode) (t : List Char) (hl : Live h P cs ps ds) (ht : t.length ≤ cs.length) :
    ∃ h' q, P.parseNotExtended U h t = .ok (h', q) ∧ Frame h P h' P ∧ (∃ cs' ps' ds', Live h' P cs' ps' ds') ∧
      ∀ m, Agrees P h' m → QueryReads m q (rawQuery U t) := by
  have hput := put_self hl.chars hl.patterns hl.conditions
  have hw := parserR_writeChars (h := h) (P := P) (ps := ps) (ds := ds) t cs 0
  have hok := writeChars_ok t [] cs ht
  simp only [List.nil_append, List.length_nil] at hok
  rw [hok, ← hput] at hw
  have hsl : sliceR (t ++ cs.drop t.length) 0 (0 + t.length) = .ok t := by
    rw [sliceR_of_le (by omega) (by simp)]; simp
  have hrd : readR (h.put P (t ++ cs.drop t.length) ps ds).chars ⟨P.chars, 0, t.length⟩ = .ok t := by
    rw [readR_eq (r := ⟨P.chars, 0, t.length⟩) (put_chars ..)]; exact hsl
  refine ⟨h.put P (t ++ cs.drop t.length) ps ds, .notExtended {
      text := ⟨P.chars, 0, t.length⟩
      hasUppercase := t.any U.isUppercase
      matchType := .fuzzy
      isInverse := false
      leadingSpaces := (t.takeWhile (· == ' ')).length
      trailingSpaces := (t.reverse.takeWhile (· == ' ')).length }, ?_, put_frame .., ⟨_, _, _, put_chars .., put_patterns .., put_conditions ..,
    hl.charsLt, hl.patternsLt, hl.conditionsLt⟩, fun m ha => .notExtended ⟨reads_of_slice (ha.chars.trans (put_chars ..)) hsl, ?_, ?_, ?_, ?_, ?_⟩⟩
  · unfold FzfParserR.parseNotExtended
    rw [hw]
    simp only [Res.mapR, Res.bind_ok]
    unfold FzfQueryR.newNotExtended PatternR.raw
    rw [hrd]
    rfl
  all_goals rfl

theorem parserR_parseNotExtended_panic (U : Unicode) (t : List Char) (hl : Live h P cs ps ds) (ht : cs.length < t.length) :
    P.parseNotExtended U h t = .panic := by
  have hput := put_self hl.chars hl.patterns hl.conditions
  have hw := parserR_writeChars (h := h) (P := P) (ps := ps) (ds := ds) t cs 0
  rw [writeChars_panic t cs 0 (by omega) (by omega), ← hput] at hw
  unfold FzfParserR.parseNotExtended
  rw [hw]
  rfl

end Grow

theorem parsedRaw_new (U : Unicode) (t : List Char) : ParsedRaw U t (rawQuery U t) := by
  obtain ⟨P, hl, hp⟩ := FzfParser.parse_eq U FzfParser.new t
  obtain ⟨P', _, hr⟩ := FzfParser.parseNotExtended_ok U P t (by have := length_le_strLen t; omega)
  exact ⟨P, P', .parse .new hp, hr⟩

/-! ### Programs with several parsers -/

/-- The parsers in the variables own live allocations, and share none. -/
structure WInv (w : World) : Prop where
  live : ∀ i P, w.parsers i = some P → ∃ cs ps ds, Live w.heap P cs ps ds
  apart : ∀ i j P Q, i ≠ j → w.parsers i = some P → w.parsers j = some Q →
    P.chars ≠ Q.chars ∧ P.patterns ≠ Q.patterns ∧ P.conditions ≠ Q.conditions

/-- What an operation on the parser in variable `j` does not change. -/
structure Keeps (j : Nat) (w w' : World) : Prop where
  next : w.heap.next ≤ w'.heap.next
  other : ∀ i Q, i ≠ j → w.parsers i = some Q → w'.parsers i = some Q ∧ Agrees Q w.heap w'.heap
  back : ∀ i Q, i ≠ j → w'.parsers i = some Q → w.parsers i = some Q
  self : ∀ P', w'.parsers j = some P' → (∃ cs ps ds, Live w'.heap P' cs ps ds) ∧
    (w.heap.next ≤ P'.chars ∨ ∃ P, w.parsers j = some P ∧ P'.chars = P.chars) ∧
    (w.heap.next ≤ P'.patterns ∨ ∃ P, w.parsers j = some P ∧ P'.patterns = P.patterns) ∧
    (w.heap.next ≤ P'.conditions ∨ ∃ P, w.parsers j = some P ∧ P'.conditions = P.conditions)

theorem Keeps.inv {j : Nat} {w w' : World} (hk : Keeps j w w') (hi : WInv w) : WInv w' := by
  have hn := hk.next
  have hself : ∀ i P' Q, i ≠ j → w'.parsers j = some P' → w'.parsers i = some Q →
      P'.chars ≠ Q.chars ∧ P'.patterns ≠ Q.patterns ∧ P'.conditions ≠ Q.conditions := by
    intro i P' Q hij hP' hQ
    have hQ0 := hk.back i Q hij hQ
    obtain ⟨_, h1, h2, h3⟩ := hk.self P' hP'
    obtain ⟨cs, ps, ds, hl⟩ := hi.live i Q hQ0
    have l1 := hl.charsLt
    have l2 := hl.patternsLt
    have l3 := hl.conditionsLt
    refine ⟨?_, ?_, ?_⟩
    · rcases h1 with h1 | ⟨P, hP, h1⟩
      · omega
      · rw [h1]; exact (hi.apart j i P Q (Ne.symm hij) hP hQ0).1
    · rcases h2 with h1 | ⟨P, hP, h1⟩
      · omega
      · rw [h1]; exact (hi.apart j i P Q (Ne.symm hij) hP hQ0).2.1
    · rcases h3 with h1 | ⟨P, hP, h1⟩
      · omega
      · rw [h1]; exact (hi.apart j i P Q (Ne.symm hij) hP hQ0).2.2
  constructor
  · intro i Q hQ
    by_cases hij : i = j
    · subst hij; exact (hk.self Q hQ).1
    · have hQ0 := hk.back i Q hij hQ
      obtain ⟨cs, ps, ds, hl⟩ := hi.live i Q hQ0
      obtain ⟨_, ha⟩ := hk.other i Q hij hQ0
      have l1 := hl.charsLt
      have l2 := hl.patternsLt
      have l3 := hl.conditionsLt
      exact ⟨cs, ps, ds, ha.chars.trans hl.chars, ha.patterns.trans hl.patterns, ha.conditions.trans hl.conditions, by omega,
        by omega, by omega⟩
  · intro i k P Q hik hP hQ
    by_cases hij : i = j
    · subst hij; exact hself k P Q (Ne.symm hik) hP hQ
    · by_cases hkj : k = j
      · subst hkj
        obtain ⟨h1, h2, h3⟩ := hself i Q P hij hQ hP
        exact ⟨Ne.symm h1, Ne.symm h2, Ne.symm h3⟩
      · exact hi.apart i k P Q hik (hk.back i P hij hP) (hk.back k Q hkj hQ)

/-- A call on the parser in variable `j`. -/
theorem keeps_of_frame {j : Nat} {w : World} {P P' : FzfParserR} {h' : Heap} (hi : WInv w) (hP : w.parsers j = some P)
    (hf : Frame w.heap P h' P') (hl : ∃ cs ps ds, Live h' P' cs ps ds) : Keeps j w ⟨h', update w.parsers j (some P')⟩ := by
  refine ⟨hf.next, fun i Q hij hQ => ⟨(update_ne _ _ hij).trans hQ, ?_⟩, fun i Q hij hQ => (update_ne _ _ hij).symm.trans hQ, ?_⟩
  · obtain ⟨_, _, _, hq⟩ := hi.live i Q hQ
    obtain ⟨h1, h2, h3⟩ := hi.apart i j Q P hij hQ hP
    exact ⟨hf.chars _ hq.charsLt h1, hf.patterns _ hq.patternsLt h2, hf.conditions _ hq.conditionsLt h3⟩
  · intro P'' h
    obtain rfl : P' = P'' := Option.some.inj ((update_eq _ _ _).symm.trans h)
    refine ⟨hl, ?_, ?_, ?_⟩
    · rcases hf.charsAt with h | h
      · exact .inr ⟨P, hP, h⟩
      · exact .inl h.1
    · rcases hf.patternsAt with h | h
      · exact .inr ⟨P, hP, h⟩
      · exact .inl h.1
    · rcases hf.conditionsAt with h | h
      · exact .inr ⟨P, hP, h⟩
      · exact .inl h.1

/-- A new parser in variable `j`. -/
theorem keeps_of_fresh {j : Nat} {w : World} (cs : List Char) (ps : List PatternR) (ds : List ConditionR) (hi : WInv w) :
    Keeps j w ⟨⟨update w.heap.chars w.heap.next (some cs), update w.heap.patterns w.heap.next (some ps),
      update w.heap.conditions w.heap.next (some ds), w.heap.next + 1⟩,
      update w.parsers j (some ⟨w.heap.next, w.heap.next, w.heap.next⟩)⟩ := by
  refine ⟨Nat.le_succ _, fun i Q hij hQ => ⟨(update_ne _ _ hij).trans hQ, ?_⟩, fun i Q hij hQ => (update_ne _ _ hij).symm.trans hQ, ?_⟩
  · obtain ⟨_, _, _, hq⟩ := hi.live i Q hQ
    exact ⟨update_ne _ _ (Nat.ne_of_lt hq.charsLt), update_ne _ _ (Nat.ne_of_lt hq.patternsLt),
      update_ne _ _ (Nat.ne_of_lt hq.conditionsLt)⟩
  · intro P'' h
    obtain rfl := Option.some.inj ((update_eq _ _ _).symm.trans h)
    exact ⟨⟨cs, ps, ds, update_eq _ _ _, update_eq _ _ _, update_eq _ _ _, Nat.lt_succ_self _, Nat.lt_succ_self _, Nat.lt_succ_self _⟩,
      .inl (Nat.le_refl _), .inl (Nat.le_refl _), .inl (Nat.le_refl _)⟩

theorem unwoundVec_other {α : Type} {next next' : Nat} {m m' : Nat → Option (List α)} {b b' : Nat}
    (h : UnwoundVec next next' m m' b b') (c : Nat) (hc : c < next) (hne : c ≠ b) : m' c = m c := by
  cases h with
  | inPlace _ _ _ e => rw [e]; exact update_ne _ _ hne
  | moved _ _ hb _ e => rw [e, update_ne _ _ (by omega), update_ne _ _ hne]

theorem unwoundVec_at {α : Type} {next next' : Nat} {m m' : Nat → Option (List α)} {b b' : Nat}
    (h : UnwoundVec next next' m m' b b') : b' = b ∨ (next ≤ b' ∧ b' < next') := by
  cases h with
  | inPlace _ _ e => exact .inl e
  | moved _ _ h1 h2 => exact .inr ⟨h1, h2⟩

theorem unwoundVec_len {α : Type} {next next' : Nat} {m m' : Nat → Option (List α)} {b b' : Nat}
    (h : UnwoundVec next next' m m' b b') : ∃ l l', m b = some l ∧ m' b' = some l' ∧ l.length ≤ l'.length := by
  cases h with
  | inPlace h1 h2 hb e => subst hb; exact ⟨_, _, h1, by rw [e]; exact update_eq _ _ _, h2⟩
  | moved h1 h2 _ _ e => exact ⟨_, _, h1, by rw [e]; exact update_eq _ _ _, h2⟩

theorem unwoundHeap_frame {h h' : Heap} {P P' : FzfParserR} (hu : UnwoundHeap h P h' P') : Frame h P h' P' :=
  ⟨hu.next, unwoundVec_other hu.chars, unwoundVec_other hu.patterns, unwoundVec_other hu.conditions, unwoundVec_at hu.chars,
    unwoundVec_at hu.patterns, unwoundVec_at hu.conditions⟩

theorem unwoundHeap_live {h h' : Heap} {P P' : FzfParserR} {cs : List Char} {ps : List PatternR} {ds : List ConditionR}
    (hu : UnwoundHeap h P h' P') (hl : Live h P cs ps ds) : ∃ cs' ps' ds', Live h' P' cs' ps' ds' ∧ cs.length ≤ cs'.length := by
  have hn := hu.next
  have l1 := hl.charsLt
  have l2 := hl.patternsLt
  have l3 := hl.conditionsLt
  obtain ⟨c, cs', e1, e2, hle⟩ := unwoundVec_len hu.chars
  obtain ⟨_, ps', _, e3, _⟩ := unwoundVec_len hu.patterns
  obtain ⟨_, ds', _, e4, _⟩ := unwoundVec_len hu.conditions
  rw [hl.chars] at e1
  cases e1
  refine ⟨cs', ps', ds', ⟨e2, e3, e4, ?_, ?_, ?_⟩, hle⟩
  · rcases unwoundVec_at hu.chars with h | h <;> omega
  · rcases unwoundVec_at hu.patterns with h | h <;> omega
  · rcases unwoundVec_at hu.conditions with h | h <;> omega

theorem step_keeps {U : Unicode} {j : Nat} {w w' : World} (hs : Step U j w w') (hi : WInv w) : Keeps j w w' := by
  cases hs with
  | new => exact keeps_of_fresh _ _ _ hi
  | clone hn hP hc =>
    unfold FzfParserR.clone at hc
    obtain ⟨_, _, _, hl⟩ := hi.live _ _ hP
    rw [hl.chars, hl.patterns, hl.conditions] at hc
    cases hc
    exact keeps_of_fresh _ _ _ hi
  | @drop P hP =>
    refine ⟨Nat.le_refl _, fun i Q hij hQ => ⟨(update_ne _ _ hij).trans hQ, ?_⟩, fun i Q hij hQ => (update_ne _ _ hij).symm.trans hQ, ?_⟩
    · obtain ⟨h1, h2, h3⟩ := hi.apart i j Q P hij hQ hP
      exact ⟨update_ne _ _ h1, update_ne _ _ h2, update_ne _ _ h3⟩
    · intro P'' h
      cases (update_eq _ _ _).symm.trans h
  | @parse P mv t h' P' q hP hp =>
    obtain ⟨_, _, _, hl⟩ := hi.live _ _ hP
    obtain ⟨h2, P2, q2, e, hf, hl', _⟩ := parserR_parse U mv t hl
    rw [hp] at e
    cases e
    exact keeps_of_frame hi hP hf hl'
  | @parseNotExtended P t h' q hP hp =>
    obtain ⟨cs, _, _, hl⟩ := hi.live _ _ hP
    by_cases ht : t.length ≤ cs.length
    · obtain ⟨h2, q2, e, hf, hl', _⟩ := parserR_parseNotExtended U t hl ht
      rw [hp] at e
      cases e
      have := keeps_of_frame hi hP hf hl'
      rw [update_self hP] at this
      exact this
    · rw [parserR_parseNotExtended_panic U t hl (by omega)] at hp
      cases hp
  | unwound hP hu =>
    obtain ⟨_, _, _, hl⟩ := hi.live _ _ hP
    obtain ⟨cs, ps, ds, hl', _⟩ := unwoundHeap_live hu hl
    exact keeps_of_frame hi hP (unwoundHeap_frame hu) ⟨cs, ps, ds, hl'⟩

theorem reachable_winv {U : Unicode} {w : World} (hw : ReachableWorld U w) : WInv w := by
  induction hw with
  | init => exact ⟨fun _ _ h => (nomatch h), fun _ _ _ _ _ h => (nomatch h)⟩
  | step _ hs ih => exact (step_keeps hs ih).inv ih

/-- Whatever is done with other parsers, a parser and the contents of its allocations stay. -/
theorem steps_agree {U : Unicode} {i : Nat} {w w' : World} {P : FzfParserR} (hs : Steps U i w w') (hi : WInv w)
    (hP : w.parsers i = some P) : WInv w' ∧ w'.parsers i = some P ∧ Agrees P w.heap w'.heap := by
  induction hs with
  | refl => exact ⟨hi, hP, rfl, rfl, rfl⟩
  | step _ hj hs ih =>
    obtain ⟨hi1, hP1, ha1⟩ := ih hi hP
    have hk := step_keeps hs hi1
    obtain ⟨hP2, ha2⟩ := hk.other i P (Ne.symm hj) hP1
    exact ⟨hk.inv hi1, hP2, ha2.chars.trans ha1.chars, ha2.patterns.trans ha1.patterns, ha2.conditions.trans ha1.conditions⟩

end Norm
