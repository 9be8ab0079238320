import Verif.Model.Timed
import Verif.Proofs.Timed
import Verif.Proofs.Steady
import Verif.Proofs.Distance
import Verif.Proofs.Api

/-! The same call with and without ranges: helper lemmas for C85.

`x` is the run that may report ranges, `y` the one that does not. -/

namespace Norm

namespace Timed

/-- If `x` returns, `y` returns something related, in not more steps, and in fewer ones if `x` has changed the ranges, which were `r`;
if `e` holds of what `x` returns, it has not changed them, and `y` takes the same number of steps. -/
def Dearer {α β : Type} (f : α → MatchedRanges) (e : α → Prop) (R : α → β → Prop) (r : MatchedRanges) (x : Timed α) (y : Timed β) :
    Prop :=
  ∀ a, x.res = .ok a → ∃ b, y.res = .ok b ∧ R a b ∧ y.steps ≤ x.steps ∧ (f a = r ∨ y.steps < x.steps) ∧
    (e a → f a = r ∧ x.steps = y.steps)

variable {α β γ δ : Type} {f : α → MatchedRanges} {e : α → Prop} {R : α → β → Prop} {r : MatchedRanges}

theorem dearer_pure {a : α} {b : β} (h : R a b) (hf : f a = r) : Dearer f e R r (pure a) (pure b) := by
  intro a' ha
  cases ha
  exact ⟨b, rfl, h, Nat.le_refl _, .inl hf, fun _ => ⟨hf, rfl⟩⟩

theorem bind_ok_inv {x : Timed γ} {g : γ → Timed α} {a : α} (h : (x >>= g).res = .ok a) :
    ∃ c, x.res = .ok c ∧ (g c).res = .ok a ∧ (x >>= g).steps = x.steps + (g c).steps := by
  rw [res_bind] at h
  rw [steps_bind]
  cases hx : x.res with
  | ok c => rw [hx] at h; exact ⟨c, rfl, h, rfl⟩
  | panic => rw [hx] at h; cases h

theorem bind_ok {x : Timed γ} {g : γ → Timed α} {a : α} {c : γ} (h : x.res = .ok c) (h' : (g c).res = .ok a) :
    (x >>= g).res = .ok a ∧ (x >>= g).steps = x.steps + (g c).steps := by
  rw [res_bind, steps_bind, h]
  exact ⟨h', rfl⟩

/-- Both do the same first. -/
theorem dearer_same {x : Timed γ} {g : γ → Timed α} {g' : γ → Timed β} (h : ∀ c, Dearer f e R r (g c) (g' c)) :
    Dearer f e R r (x >>= g) (x >>= g') := by
  intro a ha
  obtain ⟨c, hc, ha, hs⟩ := bind_ok_inv ha
  obtain ⟨b, hb, h1, h2, h3, h4⟩ := h c a ha
  obtain ⟨hb, hs'⟩ := bind_ok hc hb
  refine ⟨b, hb, h1, by omega, ?_, fun he => ⟨(h4 he).1, by rw [hs, hs', (h4 he).2]⟩⟩
  rcases h3 with h3 | h3
  · exact .inl h3
  · exact .inr (by omega)

/-- Only the run with ranges does something first. -/
theorem dearer_skip {x : Timed γ} {g : γ → Timed α} {y : Timed β} (he : ∀ a, ¬ e a) (h : ∀ c, Dearer f e R r (g c) y) :
    Dearer f e R r (x >>= g) y := by
  intro a ha
  obtain ⟨c, hc, ha, hs⟩ := bind_ok_inv ha
  obtain ⟨b, hb, h1, h2, h3, h4⟩ := h c a ha
  refine ⟨b, hb, h1, by omega, ?_, fun h => (he a h).elim⟩
  rcases h3 with h3 | h3
  · exact .inl h3
  · exact .inr (by omega)

/-- Only the run with ranges does something first; the other one uses `b` instead. -/
theorem dearer_extra {x : Timed γ} {g : γ → Timed α} {b : δ} {g' : δ → Timed β} (he : ∀ a, ¬ e a)
    (h : ∀ c, Dearer f e R r (g c) (g' b)) : Dearer f e R r (x >>= g) (pure b >>= g') := by
  refine dearer_skip he fun c a ha => ?_
  obtain ⟨b', hb, h1, h2, h3, h4⟩ := h c a ha
  obtain ⟨hb, hs'⟩ := bind_ok (x := pure b) rfl hb
  have h0 : (pure b : Timed δ).steps = 0 := rfl
  rw [h0, Nat.zero_add] at hs'
  rw [hs']
  exact ⟨b', hb, h1, h2, h3, h4⟩

theorem dearer_bind {f' : γ → MatchedRanges} {e' : γ → Prop} {R' : γ → δ → Prop} {x : Timed γ} {y : Timed δ} {g : γ → Timed α}
    {g' : δ → Timed β} (h : Dearer f' e' R' r x y) (k : ∀ c d, R' c d → Dearer f e R (f' c) (g c) (g' d))
    (he : ∀ c a, (g c).res = .ok a → e a → e' c) : Dearer f e R r (x >>= g) (y >>= g') := by
  intro a ha
  obtain ⟨c, hc, ha, hs⟩ := bind_ok_inv ha
  obtain ⟨d, hd, h1, h2, h3, h4⟩ := h c hc
  obtain ⟨b, hb, k1, k2, k3, k4⟩ := k c d h1 a ha
  obtain ⟨hb, hs'⟩ := bind_ok hd hb
  refine ⟨b, hb, k1, by omega, ?_, fun hea => ?_⟩
  · rcases h3 with h3 | h3
    · rcases k3 with k3 | k3
      · exact .inl (k3.trans h3)
      · exact .inr (by omega)
    · exact .inr (by omega)
  · obtain ⟨h5, h6⟩ := h4 (he c a ha hea)
    obtain ⟨k5, k6⟩ := k4 hea
    exact ⟨k5.trans h5, by omega⟩

theorem dearer_mono {R' : α → β → Prop} {e' : α → Prop} {x : Timed α} {y : Timed β} (h : Dearer f e R r x y)
    (k : ∀ a b, R a b → R' a b) (he : ∀ a, e' a → e a) : Dearer f e' R' r x y := by
  intro a ha
  obtain ⟨b, hb, h1, h2, h3, h4⟩ := h a ha
  exact ⟨b, hb, k a b h1, h2, h3, fun h => h4 (he a h)⟩

theorem dearer_ite {p : Prop} [Decidable p] {x x' : Timed α} {y y' : Timed β} (h : p → Dearer f e R r x y)
    (h' : ¬ p → Dearer f e R r x' y') : Dearer f e R r (if p then x else x') (if p then y else y') := by
  by_cases hp : p
  · rw [if_pos hp, if_pos hp]; exact h hp
  · rw [if_neg hp, if_neg hp]; exact h' hp

/-- Inserting a range takes a step. -/
theorem dearer_insert {e : MatchedRanges → Prop} {R : MatchedRanges → β → Prop} (he : ∀ a, ¬ e a) (x : Range) {b : β} (h : ∀ a, R a b) :
    Dearer (fun a => a) e R r (insert r x) (pure b) := by
  intro a _
  have h1 : (pure b : Timed β).steps = 0 := rfl
  have h2 : 0 < (insert r x).steps := by
    show 0 < _ + 1 + _
    omega
  exact ⟨b, rfl, h a, by omega, .inr (by omega), fun h => (he a h).elim⟩

/-! ## `compute_score` and the exact matchers -/

theorem dearer_computeScoreLoop (U : Unicode) (F : Bool) (eq : CharEq) (scheme : Scheme) (b b' : Nat) (r' : MatchedRanges) :
    ∀ (l : List Char) (st : ScoreState) (o : Nat),
    Dearer ScoreState.ranges (fun _ => F = false) (fun x y => x.score = y.score ∧ y.ranges = r') st.ranges
      (computeScoreLoop U F eq scheme b l st) (computeScoreLoop U false eq scheme b' l { st with ranges := r', byteOffset := o }) := by
  intro l
  induction l with
  | nil => exact fun st o => dearer_pure ⟨rfl, rfl⟩ rfl
  | cons c l ih =>
    intro st o
    refine dearer_same fun _ => dearer_ite (fun _ => ?_) fun _ => ?_
    · have fin : ∀ (m : MatchedRanges) (g : Int) (n : Int) (k : Nat),
          Dearer ScoreState.ranges (fun _ => F = false) (fun x y => x.score = y.score ∧ y.ranges = r') m
            (do
              tick 1
              match st.patternChars with
              | nextChar :: patternChars =>
                computeScoreLoop U F eq scheme b l { st with
                  firstBonus := g, score := n, ranges := m, isInGap := false, isFirstPatternChar := false
                  consecutive := k, patternChar := nextChar, patternChars := patternChars, prevClass := charClass U c scheme
                  byteOffset := if F then st.byteOffset + lenUtf8 c else st.byteOffset }
              | [] => pure { st with
                  firstBonus := g, score := n, ranges := m, isInGap := false, isFirstPatternChar := false, consecutive := k })
            (do
              tick 1
              match st.patternChars with
              | nextChar :: patternChars =>
                computeScoreLoop U false eq scheme b' l { st with
                  firstBonus := g, score := n, ranges := r', isInGap := false, isFirstPatternChar := false
                  consecutive := k, patternChar := nextChar, patternChars := patternChars, prevClass := charClass U c scheme
                  byteOffset := o }
              | [] => pure { st with
                  firstBonus := g, score := n, ranges := r', isInGap := false, isFirstPatternChar := false, consecutive := k
                  byteOffset := o }) := by
        intro m g n k
        refine dearer_same fun _ => ?_
        cases st.patternChars with
        | nil => exact dearer_pure ⟨rfl, rfl⟩ rfl
        | cons d ds => exact ih _ o
      cases F with
      | false =>
        exact dearer_bind (f' := fun a => a) (e' := fun _ => True) (R' := fun _ y => y = r') (x := pure st.ranges) (y := pure r')
          (dearer_pure rfl rfl) (fun m _ hm => by subst hm; exact fin _ _ _ _) (fun _ _ _ _ => trivial)
      | true =>
        exact dearer_bind (f' := fun a => a) (e' := fun _ => False) (R' := fun _ y => y = r') (y := pure r')
          (dearer_insert (fun _ h => h) _ fun _ => rfl) (fun m _ hm => by subst hm; exact fin _ _ _ _)
          (fun _ _ _ h => Bool.noConfusion h)
    · cases F with
      | false => exact ih _ o
      | true => exact ih _ o

theorem dearer_computeScore (U : Unicode) (F : Bool) (p : Pattern) (c : Candidate) (x : Range) (eq : CharEq) (scheme : Scheme)
    (r r' : MatchedRanges) :
    Dearer Prod.fst (fun _ => F = false) (fun a b => a.2 = b.2 ∧ b.1 = r') r (computeScore U F p c x eq scheme r)
      (computeScore U false p c x eq scheme r') := by
  cases F with
  | false =>
    refine dearer_same fun n => dearer_ite (fun _ => ?_) fun _ => ?_
    all_goals
      refine dearer_same fun cl => dearer_same fun _ => dearer_same fun ch => dearer_same fun sl => dearer_same fun cs => ?_
      exact dearer_bind (dearer_computeScoreLoop U false eq scheme n n r' cs _ 0) (fun a b h => dearer_pure ⟨h.1, h.2⟩ rfl)
        (fun _ _ _ h => h)
  | true =>
    refine dearer_extra (fun _ h => Bool.noConfusion h) fun n => dearer_ite (fun _ => ?_) fun _ => ?_
    all_goals
      refine dearer_same fun cl => dearer_same fun _ => dearer_same fun ch => dearer_same fun sl => dearer_same fun cs => ?_
      exact dearer_bind (dearer_computeScoreLoop U true eq scheme n 0 r' cs _ 0) (fun a b h => dearer_pure ⟨h.1, h.2⟩ rfl)
        (fun _ _ _ h => h)

/-- What the matchers return. -/
def NoHit (F : Bool) (x : MatchedRanges × Option Score) : Prop := F = false ∨ x.2 = none

/-- A match in both. -/
theorem dearer_some {F : Bool} {x : Timed MatchedRanges} {y : Timed MatchedRanges} {r r' : MatchedRanges} {n k : Score} (h : n = k)
    (hx : Dearer (fun a => a) (fun _ => F = false) (fun _ b => b = r') r x y) :
    Dearer Prod.fst (NoHit F) (fun a b => a.2 = b.2 ∧ b.1 = r') r (x >>= fun a => pure (a, some n)) (y >>= fun b => pure (b, some k)) := by
  subst h
  refine dearer_bind hx (fun a b h => dearer_pure ⟨rfl, h⟩ rfl) fun c a ha he => ?_
  cases ha
  rcases he with he | he
  · exact he
  · cases he

theorem dearer_finishExact (U : Unicode) (F : Bool) (p : Pattern) (c : Candidate) (x : Range) (eq : CharEq) (scheme : Scheme)
    (r r' : MatchedRanges) :
    Dearer Prod.fst (NoHit F) (fun a b => a.2 = b.2 ∧ b.1 = r') r (finishExact U F p c x eq scheme r)
      (finishExact U false p c x eq scheme r') := by
  refine dearer_bind (dearer_computeScore U false p c x eq scheme r r') (fun a b h => ?_) (fun _ _ _ _ => rfl)
  obtain ⟨a1, a2⟩ := a
  obtain ⟨b1, b2⟩ := b
  obtain ⟨h1, h2⟩ := h
  cases F with
  | false => exact dearer_some (y := pure b1) h1 (dearer_pure h2 rfl)
  | true =>
    refine dearer_some (x := toByteRange c x >>= insert a1) (y := pure b1) h1 ?_
    exact dearer_skip (fun _ h => Bool.noConfusion h) fun y => dearer_insert (fun _ h => Bool.noConfusion h) _ fun _ => h2

theorem dearer_exactMatch (U : Unicode) (F : Bool) (p : Pattern) (c : Candidate) (eq : CharEq) (scheme : Scheme) (r r' : MatchedRanges) :
    Dearer Prod.fst (NoHit F) (fun a b => a.2 = b.2 ∧ b.1 = r') r (exactMatch U F p c eq scheme r) (exactMatch U false p c eq scheme r') := by
  refine dearer_ite (fun _ => dearer_pure ⟨rfl, rfl⟩ rfl) fun _ => dearer_same fun st => dearer_ite (fun _ => dearer_pure ⟨rfl, rfl⟩ rfl)
    fun _ => dearer_finishExact U F p c _ eq scheme r r'

theorem dearer_prefixMatch (U : Unicode) (F : Bool) (p : Pattern) (c : Candidate) (eq : CharEq) (scheme : Scheme) (r r' : MatchedRanges) :
    Dearer Prod.fst (NoHit F) (fun a b => a.2 = b.2 ∧ b.1 = r') r (prefixMatch U F p c eq scheme r)
      (prefixMatch U false p c eq scheme r') := by
  refine dearer_ite (fun _ => dearer_pure ⟨rfl, rfl⟩ rfl) fun _ => dearer_same fun i => ?_
  cases i with
  | none => exact dearer_pure ⟨rfl, rfl⟩ rfl
  | some i =>
    refine dearer_same fun cs => dearer_same fun o => ?_
    cases o with
    | none => exact dearer_pure ⟨rfl, rfl⟩ rfl
    | some o =>
      obtain ⟨o1, o2⟩ := o
      cases o1 with
      | cons _ _ => exact dearer_pure ⟨rfl, rfl⟩ rfl
      | nil => exact dearer_finishExact U F p c _ eq scheme r r'

theorem dearer_suffixMatch (U : Unicode) (F : Bool) (p : Pattern) (c : Candidate) (eq : CharEq) (scheme : Scheme) (r r' : MatchedRanges) :
    Dearer Prod.fst (NoHit F) (fun a b => a.2 = b.2 ∧ b.1 = r') r (suffixMatch U F p c eq scheme r)
      (suffixMatch U false p c eq scheme r') := by
  refine dearer_ite (fun _ => dearer_pure ⟨rfl, rfl⟩ rfl) fun _ => dearer_same fun i => ?_
  cases i with
  | none => exact dearer_pure ⟨rfl, rfl⟩ rfl
  | some i =>
    refine dearer_same fun n => dearer_same fun sl => dearer_same fun cs => dearer_same fun o => ?_
    cases o with
    | none => exact dearer_pure ⟨rfl, rfl⟩ rfl
    | some o =>
      obtain ⟨o1, o2⟩ := o
      cases o1 with
      | cons _ _ => exact dearer_pure ⟨rfl, rfl⟩ rfl
      | nil => exact dearer_same fun st => dearer_finishExact U F p c _ eq scheme r r'

theorem dearer_equalMatch (U : Unicode) (F : Bool) (p : Pattern) (c : Candidate) (eq : CharEq) (scheme : Scheme) (r r' : MatchedRanges) :
    Dearer Prod.fst (NoHit F) (fun a b => a.2 = b.2 ∧ b.1 = r') r (equalMatch U F p c eq scheme r)
      (equalMatch U false p c eq scheme r') := by
  refine dearer_ite (fun _ => dearer_pure ⟨rfl, rfl⟩ rfl) fun _ => dearer_same fun i => ?_
  cases i with
  | none => exact dearer_pure ⟨rfl, rfl⟩ rfl
  | some i =>
    refine dearer_ite (fun _ => dearer_pure ⟨rfl, rfl⟩ rfl) fun _ => dearer_same fun j => ?_
    cases j with
    | none => exact dearer_pure ⟨rfl, rfl⟩ rfl
    | some j =>
      refine dearer_same fun stop => dearer_ite (fun _ => dearer_pure ⟨rfl, rfl⟩ rfl) fun _ => ?_
      refine dearer_same fun sl => dearer_same fun cs => dearer_same fun o => ?_
      cases o with
      | none => exact dearer_pure ⟨rfl, rfl⟩ rfl
      | some o =>
        exact dearer_ite (fun _ => dearer_pure ⟨rfl, rfl⟩ rfl) fun _ => dearer_finishExact U F p c _ eq scheme r r'

/-! ## `fuzzy` -/

/-- What a metric's matchers return. -/
def NoHits {σ : Type} (F : Bool) (x : σ × MatchedRanges × Option Score) : Prop := F = false ∨ x.2.2 = none

/-- The same metric and score. -/
def SameBut {σ : Type} (r' : MatchedRanges) (x y : σ × MatchedRanges × Option Score) : Prop :=
  x.1 = y.1 ∧ x.2.2 = y.2.2 ∧ y.2.1 = r'

theorem dearer_v1 (U : Unicode) (F : Bool) (m : FzfV1) (p : Pattern) (c : Candidate) (r r' : MatchedRanges) :
    Dearer (fun x => x.2.1) (NoHits F) (SameBut r') r (V1.fuzzy U F m p c r) (V1.fuzzy U false m p c r') := by
  refine dearer_same fun o => ?_
  cases o with
  | none => exact dearer_pure ⟨rfl, rfl, rfl⟩ rfl
  | some e =>
    refine dearer_same fun st => dearer_bind (dearer_computeScore U F p c _ _ _ r r') (fun a b h => ?_) fun c a ha he => ?_
    · exact dearer_pure ⟨rfl, congrArg some h.1, h.2⟩ rfl
    · cases ha
      rcases he with he | he
      · exact he
      · cases he

theorem dearer_single (U : Unicode) (F : Bool) (ch : Char) (c : Candidate) (opts : CandidateOpts) (scheme : Scheme) (r r' : MatchedRanges) :
    Dearer Prod.fst (NoHit F) (fun a b => a.2 = b.2 ∧ b.1 = r') r (fuzzySingleChar U F ch c opts scheme r)
      (fuzzySingleChar U false ch c opts scheme r') := by
  refine dearer_same fun os => dearer_same fun x => dearer_ite (fun _ => dearer_pure ⟨rfl, rfl⟩ rfl) fun _ => ?_
  cases F with
  | false => exact dearer_some (y := pure r') rfl (dearer_pure rfl rfl)
  | true =>
    refine dearer_some (x := (do
        let start ← toByteOffset c x.2
        let ch ← char c x.2
        insert r ⟨start, start + lenUtf8 ch⟩ : Timed MatchedRanges)) (y := pure r') rfl ?_
    exact dearer_skip (fun _ h => Bool.noConfusion h) fun st => dearer_skip (fun _ h => Bool.noConfusion h) fun ch =>
      dearer_insert (fun _ h => Bool.noConfusion h) _ fun _ => rfl

theorem dearer_jp {p : Prop} [Decidable p] {x x' : Timed γ} {g : γ → Timed α} {y : Timed β} (he : ∀ a, ¬ e a)
    (h : ∀ c, Dearer f e R r (g c) y) : Dearer f e R r (if p then x >>= g else x' >>= g) y := by
  by_cases hp : p
  · rw [if_pos hp]; exact dearer_skip he h
  · rw [if_neg hp]; exact dearer_skip he h

/-- The run with ranges inserts one and goes on. -/
theorem dearer_then {e : MatchedRanges → Prop} {r r' : MatchedRanges} (he : ∀ a, ¬ e a) (x : Range) {g : MatchedRanges → Timed MatchedRanges} :
    Dearer (fun a => a) e (fun _ b => b = r') r (insert r x >>= g) (pure r') := by
  intro a ha
  obtain ⟨c, hc, ha, hs⟩ := bind_ok_inv ha
  have h1 : (pure r' : Timed MatchedRanges).steps = 0 := rfl
  have h2 : 0 < (insert r x).steps := by
    show 0 < _ + 1 + _
    omega
  exact ⟨r', rfl, rfl, by omega, .inr (by omega), fun h => (he a h).elim⟩

theorem dearer_traceback {e : MatchedRanges → Prop} (he : ∀ a, ¬ e a) (H : Matrix Score) (C : Matrix Nat) (c : Candidate) (o : Nat)
    (r' : MatchedRanges) : ∀ (fuel : Nat) (f : Bool) (cell col row : Nat) (r : MatchedRanges),
    Dearer (fun a => a) e (fun _ b => b = r') r (tracebackLoop H C c o fuel f cell col row r) (pure r') := by
  intro fuel
  induction fuel with
  | zero => intro f cell col row r a ha; cases ha
  | succ fuel ih =>
    intro f cell col row r
    refine dearer_jp he fun sl => dearer_jp he fun su => dearer_skip he fun here => dearer_skip he fun _ => dearer_skip he fun sc => ?_
    split
    · exact dearer_skip he fun bo => dearer_skip he fun ch => dearer_then he _
    · split
      · exact dearer_pure rfl rfl
      · exact dearer_skip he fun _ => dearer_skip he fun _ => ih _ _ _ _ _

theorem dearer_v2 (U : Unicode) (F : Bool) (m : FzfV2) (p : Pattern) (c : Candidate) (r r' : MatchedRanges) :
    Dearer (fun x => x.2.1) (NoHits F) (SameBut r') r (V2.fuzzy U F m p c r) (V2.fuzzy U false m p c r') := by
  refine dearer_ite (fun _ => ?_) fun _ => ?_
  · refine dearer_same fun _ => dearer_same fun ch => ?_
    refine dearer_bind (dearer_single U F ch c _ _ r r') (fun a b h => dearer_pure ⟨rfl, h.1, h.2⟩ rfl) fun c a ha he => ?_
    cases ha
    exact he
  · refine dearer_same fun x => ?_
    obtain ⟨x1, x2, x3⟩ := x
    cases x3 with
    | none => exact dearer_pure ⟨rfl, rfl, rfl⟩ rfl
    | some last =>
      refine dearer_same fun fst => ?_
      cases F with
      | false =>
        refine dearer_same fun start => dearer_ite (fun _ => ?_) fun _ => ?_
        all_goals
          refine dearer_same fun cl => dearer_same fun base => dearer_same fun x => dearer_same fun mo => dearer_same fun x => ?_
          exact dearer_bind (f' := fun a => a) (e' := fun _ => True) (R' := fun _ b => b = r') (x := pure r) (y := pure r')
            (dearer_pure rfl rfl) (fun a b h => dearer_pure ⟨rfl, rfl, h⟩ rfl) (fun _ _ _ _ => trivial)
      | true =>
        suffices h : Dearer (fun x => x.2.1) (fun _ => False) (fun x y => SameBut r' x y ∧ x.2.2 ≠ none) r _ _ from
          fun a ha => by
            obtain ⟨b, hb, h1, h2, h3, _⟩ := h a ha
            exact ⟨b, hb, h1.1, h2, h3, fun he => (he.elim (fun h => Bool.noConfusion h) h1.2).elim⟩
        refine dearer_extra (fun _ h => h) fun start => dearer_ite (fun _ => ?_) fun _ => ?_
        all_goals
          refine dearer_same fun cl => dearer_same fun base => dearer_same fun x => dearer_same fun mo => dearer_same fun x => ?_
          refine dearer_bind (f' := fun a => a) (e' := fun _ => False) (R' := fun _ b => b = r') (y := pure r') ?_
            (fun a b h => dearer_pure ⟨⟨rfl, rfl, h⟩, fun h => by cases h⟩ rfl) (fun _ _ _ h => h)
          exact dearer_skip (fun _ h => h) fun _ => dearer_skip (fun _ h => h) fun _ => dearer_traceback (fun _ h => h) _ _ _ _ _ _ _ _ _ _ _

/-! ## The conditions -/

/-- An implementation whose `fuzzy` is as above. -/
def DearerImpl {σ : Type} (I : TimedImpl σ) : Prop := ∀ F m p c r r',
  Dearer (fun x => x.2.1) (NoHits F) (SameBut r') r (I.fuzzy F m p c r) (I.fuzzy false m p c r')

variable {σ : Type} {I : TimedImpl σ}

theorem dearer_score (hI : DearerImpl I) (U : Unicode) (m : σ) (p : Pattern) (c : Candidate) (r r' : MatchedRanges) :
    Dearer (fun x => x.2.1) (fun x => p.isInverse = true ∨ x.2.2 = none) (SameBut r') r (I.score U true m p c r)
      (I.score U false m p c r') := by
  have fin : ∀ (x y : σ × MatchedRanges × Option Score), SameBut r' x y →
      Dearer (fun x => x.2.1) (fun x => p.isInverse = true ∨ x.2.2 = none) (SameBut r') x.2.1 (match x.2.2.isSome, p.isInverse with
        | true, false => (pure (x.1, x.2.1, x.2.2) : Timed _)
        | false, true => pure (x.1, x.2.1, some 0)
        | _, _ => pure (x.1, x.2.1, none)) (match y.2.2.isSome, p.isInverse with
        | true, false => (pure (y.1, y.2.1, y.2.2) : Timed _)
        | false, true => pure (y.1, y.2.1, some 0)
        | _, _ => pure (y.1, y.2.1, none)) := by
    intro x y e
    obtain ⟨x1, x2, x3⟩ := x
    obtain ⟨y1, y2, y3⟩ := y
    obtain ⟨e1, e2, e3⟩ := e
    dsimp only at e1 e2 e3 ⊢
    subst e1 e2
    cases x3 <;> cases p.isInverse <;> exact dearer_pure ⟨rfl, rfl, e3⟩ rfl
  have hno : ∀ (x a : σ × MatchedRanges × Option Score), (match x.2.2.isSome, p.isInverse with
        | true, false => (pure (x.1, x.2.1, x.2.2) : Timed _)
        | false, true => pure (x.1, x.2.1, some 0)
        | _, _ => pure (x.1, x.2.1, none)).res = .ok a → (p.isInverse = true ∨ a.2.2 = none) →
        NoHits (if p.isInverse then false else true) x := by
    intro x a ha he
    obtain ⟨x1, x2, x3⟩ := x
    revert ha he
    cases x3 with
    | none => exact fun _ _ => .inr rfl
    | some n =>
      cases p.isInverse with
      | true => exact fun _ _ => .inl rfl
      | false =>
        intro he ha
        cases ha
        rcases he with he | he <;> cases he
  have key : ∀ {x y : Timed (σ × MatchedRanges × Option Score)},
      Dearer (fun x => x.2.1) (NoHits (if p.isInverse then false else true)) (SameBut r') r x y →
      Dearer (fun x => x.2.1) (fun x => p.isInverse = true ∨ x.2.2 = none) (SameBut r') r
        (x >>= fun x => match x.2.2.isSome, p.isInverse with
        | true, false => (pure (x.1, x.2.1, x.2.2) : Timed _)
        | false, true => pure (x.1, x.2.1, some 0)
        | _, _ => pure (x.1, x.2.1, none)) (y >>= fun y => match y.2.2.isSome, p.isInverse with
        | true, false => (pure (y.1, y.2.1, y.2.2) : Timed _)
        | false, true => pure (y.1, y.2.1, some 0)
        | _, _ => pure (y.1, y.2.1, none)) := fun h => dearer_bind h fin hno
  have hff : (if p.isInverse then false else false) = false := by cases p.isInverse <;> rfl
  have three : ∀ {x y : Timed (MatchedRanges × Option Score)},
      Dearer Prod.fst (NoHit (if p.isInverse then false else true)) (fun a b => a.2 = b.2 ∧ b.1 = r') r x y →
      Dearer (fun x => x.2.1) (fun x => p.isInverse = true ∨ x.2.2 = none) (SameBut r') r
        (x >>= fun a => (pure (m, a.1, a.2) : Timed _) >>= fun x => match x.2.2.isSome, p.isInverse with
        | true, false => (pure (x.1, x.2.1, x.2.2) : Timed _)
        | false, true => pure (x.1, x.2.1, some 0)
        | _, _ => pure (x.1, x.2.1, none)) (y >>= fun b => (pure (m, b.1, b.2) : Timed _) >>= fun y => match y.2.2.isSome, p.isInverse with
        | true, false => (pure (y.1, y.2.1, y.2.2) : Timed _)
        | false, true => pure (y.1, y.2.1, some 0)
        | _, _ => pure (y.1, y.2.1, none)) := by
    intro x y h
    refine dearer_bind h (fun a b h => ?_) fun c a ha he => ?_
    · exact dearer_bind (f' := fun x => x.2.1) (e' := fun _ => True) (R' := SameBut r') (dearer_pure ⟨rfl, h.1, h.2⟩ rfl) fin
        (fun _ _ _ _ => trivial)
    · exact hno (m, c.1, c.2) a (by
        rw [res_bind] at ha
        exact ha) he
  unfold TimedImpl.score
  rw [hff]
  cases p.matchType with
  | fuzzy => exact key (hI _ m p c r r')
  | exact => exact three (dearer_exactMatch U _ p c _ _ r r')
  | prefixExact => exact three (dearer_prefixMatch U _ p c _ _ r r')
  | suffixExact => exact three (dearer_suffixMatch U _ p c _ _ r r')
  | equalExact => exact three (dearer_equalMatch U _ p c _ _ r r')

theorem dearer_weaken {x : Timed α} {y : Timed β} (h : Dearer f e R r x y) : Dearer f (fun _ => False) R r x y :=
  dearer_mono h (fun _ _ h => h) fun _ h => h.elim

theorem dearer_scoreCondition (hI : DearerImpl I) (U : Unicode) (c : Candidate) (r' : MatchedRanges) :
    ∀ (ps : List Pattern) (m : σ) (r : MatchedRanges), Dearer (fun x => x.2.1) (fun _ => False) (SameBut r') r
      (I.scoreCondition U true c ps m r) (I.scoreCondition U false c ps m r') := by
  intro ps
  induction ps with
  | nil => exact fun m r => dearer_pure ⟨rfl, rfl, rfl⟩ rfl
  | cons p ps ih =>
    intro m r
    unfold TimedImpl.scoreCondition
    refine dearer_same fun _ => dearer_bind (dearer_weaken (dearer_score hI U m p c r r')) (fun x y h => ?_) fun _ _ _ h => h
    obtain ⟨x1, x2, x3⟩ := x
    obtain ⟨y1, y2, y3⟩ := y
    obtain ⟨e1, e2, e3⟩ := h
    dsimp only at e1 e2 e3 ⊢
    subst e1 e2 e3
    cases x3 with
    | some n => exact dearer_pure ⟨rfl, rfl, rfl⟩ rfl
    | none => exact ih _ _

theorem dearer_scoreConditions (hI : DearerImpl I) (U : Unicode) (c : Candidate) (r' : MatchedRanges) :
    ∀ (cs : List Condition) (m : σ) (r : MatchedRanges) (t : Score), Dearer (fun x => x.2.1) (fun _ => False) (SameBut r') r
      (I.scoreConditions U true c cs m r t) (I.scoreConditions U false c cs m r' t) := by
  intro cs
  induction cs with
  | nil => exact fun m r t => dearer_pure ⟨rfl, rfl, rfl⟩ rfl
  | cons d cs ih =>
    intro m r t
    unfold TimedImpl.scoreConditions
    refine dearer_same fun _ => dearer_bind (dearer_scoreCondition hI U c r' d m r) (fun x y h => ?_) fun _ _ _ h => h
    obtain ⟨x1, x2, x3⟩ := x
    obtain ⟨y1, y2, y3⟩ := y
    obtain ⟨e1, e2, e3⟩ := h
    dsimp only at e1 e2 e3 ⊢
    subst e1 e2 e3
    cases x3 with
    | none => exact dearer_pure ⟨rfl, rfl, rfl⟩ rfl
    | some n => exact ih _ _ _

/-- A call with ranges, and one without. -/
theorem dearer_distance (hI : DearerImpl I) (U : Unicode) (m : σ) (q : FzfQuery) (s : List Char) (buf : List Range) {x}
    (hx : (I.distance U true m q s buf).res = .ok x) :
    (I.distance U false m q s []).steps ≤ (I.distance U true m q s buf).steps ∧
    (x.2.1 = buf ∨ (I.distance U false m q s []).steps < (I.distance U true m q s buf).steps) := by
  have key : Dearer (fun x : σ × List Range × Option FzfDistance => ⟨x.2.1, buf.length⟩) (fun _ => False)
      (fun _ (_ : σ × List Range × Option FzfDistance) => True) ⟨buf, buf.length⟩
      (I.distance U true m q s buf) (I.distance U false m q s []) := by
    unfold TimedImpl.distance
    refine dearer_ite (fun _ => dearer_pure trivial rfl) fun _ => dearer_same fun _ => ?_
    have fin : ∀ {x y : Timed (σ × MatchedRanges × Option Score)},
        Dearer (fun x => x.2.1) (fun _ => False) (SameBut (.ofVec [])) (.ofVec buf) x y →
        Dearer (fun x : σ × List Range × Option FzfDistance => (⟨x.2.1, buf.length⟩ : MatchedRanges)) (fun _ => False)
          (fun _ (_ : σ × List Range × Option FzfDistance) => True) ⟨buf, buf.length⟩
          (x >>= fun x => pure (x.1, x.2.1.ranges, x.2.2.map FzfDistance.fromScore))
          (y >>= fun y => pure (y.1, y.2.1.ranges, y.2.2.map FzfDistance.fromScore)) := by
      intro x y h a ha
      obtain ⟨c, hc, ha, hs⟩ := bind_ok_inv ha
      cases ha
      obtain ⟨d, hd, h1, h2, h3, -⟩ := h c hc
      obtain ⟨hb, hs'⟩ := bind_ok (g := fun y : σ × MatchedRanges × Option Score =>
        (pure (y.1, y.2.1.ranges, y.2.2.map FzfDistance.fromScore) : Timed _)) hd rfl
      have e0 : ∀ z : σ × List Range × Option FzfDistance, (pure z : Timed _).steps = 0 := fun _ => rfl
      rw [e0] at hs hs'
      refine ⟨_, hb, trivial, by omega, ?_, fun h => h.elim⟩
      rcases h3 with h3 | h3
      · exact .inl (congrArg (fun r : MatchedRanges => (⟨r.ranges, buf.length⟩ : MatchedRanges)) h3)
      · exact .inr (by omega)
    cases q with
    | notExtended p =>
      exact dearer_ite (fun _ => dearer_same fun c => fin (dearer_weaken (hI true c.1 p c.2 _ _))) fun _ => dearer_same fun c =>
        fin (dearer_weaken (hI true c.1 p c.2 _ _))
    | extended cs =>
      exact dearer_ite (fun _ => dearer_same fun c => fin (dearer_scoreConditions hI U c.2 _ cs c.1 _ _)) fun _ =>
        dearer_same fun c => fin (dearer_scoreConditions hI U c.2 _ cs c.1 _ _)
  obtain ⟨b, -, -, h2, h3, -⟩ := key x hx
  refine ⟨h2, h3.imp_left fun h => ?_⟩
  have := congrArg MatchedRanges.ranges h
  exact this

/-! ## Calls that report nothing -/

/-- What follows the same steps. -/
theorem steps_congr {x : Timed γ} {y : Timed δ} {g : γ → Timed α} {g' : δ → Timed β} {c : γ} {d : δ} (hx : x.res = .ok c)
    (hy : y.res = .ok d) (h : x.steps = y.steps) (k : (g c).steps = (g' d).steps) : (x >>= g).steps = (y >>= g').steps := by
  rw [steps_bind, steps_bind, hx, hy]
  dsimp only
  omega

section
open Spec
variable {U : Unicode} {J : FzfImpl σ} {has : σ → Settings → Prop} {pf : PureFuzzy}

theorem steps_score (hI : DearerImpl I) (hA : TimedImpl.Agrees I J) (hR : Refines U J has pf) {st : Settings} {m : σ} (hm : has m st)
    {p : Pattern} (hp : p.text ≠ []) {c : Candidate} (hwf : c.WF) (pre : List Range) (r' : MatchedRanges)
    (he : ∀ h, patHit U pf st c.toChars p = some h → p.isInverse = true ∧ h.1 = []) :
    ∃ m', has m' st ∧ (I.score U true m p c ⟨pre, pre.length⟩).steps = (I.score U false m p c r').steps ∧
      (I.score U true m p c ⟨pre, pre.length⟩).res =
        .ok (m', ⟨pre, pre.length⟩, (patHit U pf st c.toChars p).map (·.2)) ∧
      (I.score U false m p c r').res = .ok (m', r', (patHit U pf st c.toChars p).map (·.2)) := by
  obtain ⟨m1, hm1, h1⟩ := score_eq hR true hm hp hwf pre [] sep_nil
  rw [List.append_nil] at h1
  have h2 := (TimedImpl.res_score hA U true m p c ⟨pre, pre.length⟩).trans h1
  have e1 : hitOut true pre [] (patHit U pf st c.toChars p) = (⟨pre, pre.length⟩, (patHit U pf st c.toChars p).map (·.2)) := by
    cases hh : patHit U pf st c.toChars p with
    | none => simp [hitOut]
    | some h => simp [hitOut, (he h hh).2]
  rw [e1] at h2
  obtain ⟨b, hb, h3, h4, h5, h6⟩ := dearer_score hI U m p c _ r' _ h2
  obtain ⟨h7, h8⟩ := h6 (by
    cases hh : patHit U pf st c.toChars p with
    | none => exact .inr rfl
    | some h => exact .inl (he h hh).1)
  obtain ⟨b1, b2, b3⟩ := b
  obtain ⟨k1, k2, k3⟩ := h3
  dsimp only at k1 k2 k3
  subst k1 k2 k3
  exact ⟨m1, hm1, h8, h2, hb⟩

theorem steps_scoreCondition (hI : DearerImpl I) (hA : TimedImpl.Agrees I J) (hR : Refines U J has pf) {st : Settings}
    {c : Candidate} (hwf : c.WF) (pre : List Range) (r' : MatchedRanges)
    (hn : ∀ p h, p.text ≠ [] → patHit U pf st c.toChars p = some h → h.1 = [] → p.isInverse = true) :
    ∀ (ps : List Pattern) (m : σ), has m st → (∀ p ∈ ps, p.text ≠ []) →
    (∀ h, condHit U pf st c.toChars ps = some h → h.1 = []) →
    ∃ m', has m' st ∧ (I.scoreCondition U true c ps m ⟨pre, pre.length⟩).steps = (I.scoreCondition U false c ps m r').steps ∧
      (I.scoreCondition U true c ps m ⟨pre, pre.length⟩).res =
        .ok (m', ⟨pre, pre.length⟩, (condHit U pf st c.toChars ps).map (·.2)) ∧
      (I.scoreCondition U false c ps m r').res = .ok (m', r', (condHit U pf st c.toChars ps).map (·.2)) := by
  intro ps
  induction ps with
  | nil => exact fun m hm _ _ => ⟨m, hm, rfl, rfl, rfl⟩
  | cons p ps ih =>
    intro m hm hp he
    have hc : condHit U pf st c.toChars (p :: ps) =
        match patHit U pf st c.toChars p with | some h => some h | none => condHit U pf st c.toChars ps := by
      simp only [condHit, List.findSome?_cons]
      cases patHit U pf st c.toChars p <;> rfl
    obtain ⟨m1, hm1, h1, h2, h3⟩ := steps_score hI hA hR hm (hp p (by simp)) hwf pre r' fun h hh => by
      have := he h (by rw [hc, hh])
      exact ⟨hn p h (hp p (by simp)) hh this, this⟩
    unfold TimedImpl.scoreCondition
    cases hh : patHit U pf st c.toChars p with
    | some h =>
      rw [hh] at h2 h3
      refine ⟨m1, hm1, ?_, ?_, ?_⟩
      · exact steps_congr rfl rfl rfl (steps_congr h2 h3 h1 rfl)
      · simp only [res_bind, res_tick, Res.bind_ok, h2, hc, hh]
        rfl
      · simp only [res_bind, res_tick, Res.bind_ok, h3, hc, hh]
        rfl
    | none =>
      rw [hh] at h2 h3
      rw [hh] at hc
      dsimp only at hc
      rw [hc] at he ⊢
      obtain ⟨m2, hm2, k1, k2, k3⟩ := ih m1 hm1 (fun q hq => hp q (by simp [hq])) he
      refine ⟨m2, hm2, ?_, ?_, ?_⟩
      · exact steps_congr rfl rfl rfl (steps_congr h2 h3 h1 k1)
      · simp only [res_bind, res_tick, Res.bind_ok, h2]
        exact k2
      · simp only [res_bind, res_tick, Res.bind_ok, h3]
        exact k3

theorem steps_scoreConditions (hI : DearerImpl I) (hA : TimedImpl.Agrees I J) (hR : Refines U J has pf) {st : Settings}
    {c : Candidate} (hwf : c.WF) (pre : List Range) (r' : MatchedRanges)
    (hn : ∀ p h, p.text ≠ [] → patHit U pf st c.toChars p = some h → h.1 = [] → p.isInverse = true) :
    ∀ (cs : List Condition) (m : σ) (t : Score), has m st → (∀ d ∈ cs, ∀ p ∈ d, p.text ≠ []) →
    (condsHit U pf st c.toChars cs).1 = [] →
    ∃ x y, (I.scoreConditions U true c cs m ⟨pre, pre.length⟩ t).steps = (I.scoreConditions U false c cs m r' t).steps ∧
      (I.scoreConditions U true c cs m ⟨pre, pre.length⟩ t).res = .ok x ∧
      (I.scoreConditions U false c cs m r' t).res = .ok y := by
  intro cs
  induction cs with
  | nil => exact fun m t hm _ _ => ⟨_, _, rfl, rfl, rfl⟩
  | cons d cs ih =>
    intro m t hm hp he
    obtain ⟨m1, hm1, h1, h2, h3⟩ := steps_scoreCondition hI hA hR hwf pre r' hn d m hm (hp d (by simp)) fun h hh => by
      simp only [condsHit, hh, List.append_eq_nil_iff] at he
      exact he.1
    unfold TimedImpl.scoreConditions
    cases hh : condHit U pf st c.toChars d with
    | none =>
      rw [hh] at h2 h3
      refine ⟨(m1, ⟨pre, pre.length⟩, none), (m1, r', none), steps_congr rfl rfl rfl (steps_congr h2 h3 h1 rfl), ?_, ?_⟩
      · simp only [res_bind, res_tick, Res.bind_ok, h2]
        rfl
      · simp only [res_bind, res_tick, Res.bind_ok, h3]
        rfl
    | some h =>
      rw [hh] at h2 h3
      simp only [condsHit, hh, List.append_eq_nil_iff] at he
      obtain ⟨x, y, k1, k2, k3⟩ := ih m1 (t + h.2) hm1 (fun d' hd' => hp d' (by simp [hd'])) he.2
      refine ⟨x, y, steps_congr rfl rfl rfl (steps_congr h2 h3 h1 k1), ?_, ?_⟩
      · simp only [res_bind, res_tick, Res.bind_ok, h2]
        exact k2
      · simp only [res_bind, res_tick, Res.bind_ok, h3]
        exact k3

theorem steps_distance (hI : DearerImpl I) (hA : TimedImpl.Agrees I J) (hR : Refines U J has pf) {st : Settings} {s : List Char}
    (buf : List Range) (hn : ∀ p h, p.text ≠ [] → patHit U pf st s p = some h → h.1 = [] → p.isInverse = true)
    (hf : ∀ (p : Pattern) x, p.text ≠ [] → pf (posBonus U st.scheme s) (st.eqOf p) p.text s = some x → x.1 ≠ []) {m : σ} (hm : has m st)
    (q : FzfQuery) (hq : q.NonEmpty) (he : (queryHit U pf st s q).1 = []) :
    (I.distance U true m q s buf).steps = (I.distance U false m q s []).steps := by
  unfold TimedImpl.distance
  unfold queryHit at he
  by_cases hemp : q.isEmpty
  · rw [if_pos hemp, if_pos hemp]
    rfl
  rw [if_neg hemp] at he ⊢
  rw [if_neg hemp]
  have key : ∀ (m : σ) (c : Candidate), has m st → c.WF → c.toChars = s → ((do
        let ranges := MatchedRanges.ofVec buf
        let (self, ranges, s) ←
          match q with
          | .notExtended pattern => I.fuzzy true m pattern c ranges
          | .extended conditions => I.scoreConditions U true c conditions m ranges 0
        return (self, ranges.ranges, s.map FzfDistance.fromScore)) : Timed (σ × List Range × Option FzfDistance)).steps = ((do
        let ranges := MatchedRanges.ofVec []
        let (self, ranges, s) ←
          match q with
          | .notExtended pattern => I.fuzzy false m pattern c ranges
          | .extended conditions => I.scoreConditions U false c conditions m ranges 0
        return (self, ranges.ranges, s.map FzfDistance.fromScore)) : Timed (σ × List Range × Option FzfDistance)).steps := by
    intro m c hm hwf hc
    subst hc
    cases q with
    | notExtended p =>
      have hp : p.text ≠ [] := by
        intro h; apply hemp; simp [FzfQuery.isEmpty, Pattern.isEmpty, h]
      obtain ⟨m', hm', h1⟩ := hR.fuzzy true m st p c buf [] hm hp hwf sep_nil
      rw [List.append_nil] at h1
      have h2 := (hA.fuzzy true m p c ⟨buf, buf.length⟩).trans h1
      cases hh : pf (posBonus U st.scheme c.toChars) (st.eqOf p) p.text c.toChars with
      | some x =>
        simp only [hh, List.map_eq_nil_iff] at he
        exact absurd he (hf p x hp hh)
      | none =>
        rw [hh] at h2
        obtain ⟨b, hb, -, -, -, h6⟩ := hI true m p c _ (.ofVec []) _ h2
        exact steps_congr h2 hb (h6 (.inr rfl)).2 rfl
    | extended cs =>
      obtain ⟨x, y, h1, h2, h3⟩ := steps_scoreConditions hI hA hR hwf buf (.ofVec []) hn cs m 0 hm hq he
      exact steps_congr h2 h3 h1 rfl
  refine steps_congr (c := ()) (d := ()) rfl rfl rfl ?_
  by_cases ha : strIsAscii s = true
  · obtain ⟨h1, h2⟩ := ascii_candidate ha
    dsimp only
    rw [if_pos ha, if_pos ha]
    refine steps_congr (c := (m, Candidate.ascii (strBytes s))) (d := (m, Candidate.ascii (strBytes s))) rfl rfl rfl ?_
    exact key m _ hm h1 h2
  · dsimp only
    rw [if_neg ha, if_neg ha]
    obtain ⟨m1, halloc, hm1⟩ := hR.alloc m st s hm
    have h1 := (hA.allocChars m s).trans halloc
    have h2 : ((do
        let (self, chars) ← I.allocChars m s
        return (self, Candidate.unicode chars) : Timed (σ × Candidate))).res = .ok (m1, Candidate.unicode s) := by
      rw [res_bind, h1]
      rfl
    refine steps_congr h2 h2 rfl ?_
    exact key m1 (.unicode s) hm1 (by simp [Candidate.WF]) rfl

end

end Timed
end Norm
