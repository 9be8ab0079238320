import Verif.Proofs.Congr
import Verif.Proofs.Conditions

/-!
# Ignoring ASCII case

Replacing the characters of a pattern by others that compare the same does not change the result of a call; doing it to
the candidate does not change the decision; doing it to a query string does it to the patterns of the parsed query. -/

namespace Norm

open Spec

/-! ### Patterns -/

section
variable {eq : CharEq} {f : Char → Char} (hf : ∀ q c, eq (f q) c = eq q c)
include hf

theorem fun_fold (q : Char) : (fun x => eq (f q) x) = fun x => eq q x := funext (hf q)

theorem greedyFrom_fold (s p : List Char) (off : Nat) : greedyFrom eq s (p.map f) off = greedyFrom eq s p off := by
  induction p generalizing off with
  | nil => rfl
  | cons c p ih =>
    rw [List.map_cons, greedyFrom, greedyFrom, fun_fold hf]
    cases findFrom (fun x => eq c x) s off with
    | none => rfl
    | some j => dsimp only; rw [ih]

theorem greedyBack_fold (s p : List Char) (e : Nat) : greedyBack eq s (p.map f) e = greedyBack eq s p e := by
  induction p generalizing e with
  | nil => rfl
  | cons c p ih =>
    rw [List.map_cons, greedyBack, greedyBack, fun_fold hf]
    cases findLastIdx? (fun x => eq c x) (s.take e) with
    | none => rfl
    | some j => dsimp only; rw [ih]

theorem v1Align_fold (s p : List Char) : v1Align eq s (p.map f) = v1Align eq s p := by
  unfold v1Align
  simp only [← List.map_reverse, greedyFrom_fold hf, greedyBack_fold hf]

theorem dpM_fold {w : List Char} {pat pat' : Nat → Char} {fst : Nat → Nat} {r : Nat} (h : pat' r = f (pat r)) :
    dpM eq w pat' fst r = dpM eq w pat fst r := by
  unfold dpM
  rw [h, fun_fold hf]

theorem dp_fold {w : List Char} {pat pat' : Nat → Char} {fst : Nat → Nat} {b : Nat → Int} {r : Nat}
    (h : ∀ i ≤ r, pat' i = f (pat i)) : dp eq w pat' fst b r = dp eq w pat fst b r := by
  induction r with
  | zero => rw [dp, dp, dpM_fold hf (h 0 (by omega))]
  | succ r ih => rw [dp, dp, dpM_fold hf (h _ (by omega)), ih (fun i hi => h i (by omega))]

theorem dpBest_fold {w : List Char} {pat pat' : Nat → Char} {fst : Nat → Nat} {b : Nat → Int} {r : Nat}
    (h : ∀ i ≤ r, pat' i = f (pat i)) : dpBest eq w pat' fst b r = dpBest eq w pat fst b r := by
  induction r with
  | zero => rw [dpBest, dpBest, dp_fold hf h, h 0 (by omega), fun_fold hf]
  | succ r ih =>
    rw [dpBest, dpBest, dp_fold hf h, h (r + 1) (by omega), fun_fold hf, ih (fun i hi => h i (by omega))]

omit hf in
/-- The traceback looks at the rows from the one it starts in down, and at the run lengths of the next row. -/
theorem tb_congr {h n : Nat} {H H' : Nat → Nat → Int} {C C' : Nat → Nat → Nat} :
    ∀ (col : Nat) (prefer : Bool) (row : Nat), row < h → (∀ i < h, H i = H' i) → (∀ i < h, C i = C' i) →
      tb h n H C prefer row col = tb h n H' C' prefer row col := by
  intro col
  induction col with
  | zero => intro prefer row hr hH hC; rw [tb, tb, hH row hr]
  | succ c ih =>
    intro prefer row hr hH hC
    have hp : decide (C row (c + 1) > 1 ∨ (row + 1 < h ∧ c + 2 < n ∧ C (row + 1) (c + 2) > 0)) =
        decide (C' row (c + 1) > 1 ∨ (row + 1 < h ∧ c + 2 < n ∧ C' (row + 1) (c + 2) > 0)) := by
      rw [hC row hr]
      by_cases h1 : row + 1 < h
      · rw [hC _ h1]
      · simp [h1]
    rw [tb, tb, hp, ih _ (row - 1) (by omega) hH hC, ih _ row hr hH hC, hH row hr, hH (row - 1) (by omega)]

theorem v2Window_fold {p : List Char} (hp : p ≠ []) (s : List Char) (g : List Nat) :
    v2Window eq (p.map f) s g = v2Window eq p s g := by
  have hl : (fun x => eq ((p.map f).getLastD 'a') x) = fun x => eq (p.getLastD 'a') x := by
    rw [getLastD_of_ne _ (by simpa using hp), getLastD_of_ne _ hp, List.getLast_map, fun_fold hf]
  unfold v2Window; rw [hl]

theorem v2Chars_fold {p : List Char} (hp : p ≠ []) (s : List Char) (g : List Nat) :
    v2Chars eq (p.map f) s g = v2Chars eq p s g := by
  unfold v2Chars; rw [v2Window_fold hf hp]

theorem v2Fst_fold {p : List Char} (hp : p ≠ []) (s : List Char) (g : List Nat) :
    v2Fst eq (p.map f) s g = v2Fst eq p s g := by
  funext r; unfold v2Fst; rw [v2Window_fold hf hp]

omit hf in
theorem getD_fold {p : List Char} {i : Nat} (hi : i < p.length) (d : Char) : (p.map f).getD i d = f (p.getD i d) := by
  rw [getD_of_lt _ (by simpa using hi), getD_of_lt _ hi, List.getElem_map]

theorem v2Dp_fold (B : Nat → Int) {p : List Char} (hp : p ≠ []) (s : List Char) (g : List Nat) {r : Nat}
    (hr : r < p.length) : v2Dp B eq (p.map f) s g r = v2Dp B eq p s g r := by
  unfold v2Dp; rw [v2Window_fold hf hp, v2Chars_fold hf hp, v2Fst_fold hf hp]
  exact dp_fold hf (fun i hi => getD_fold (by omega) _)

theorem v2Best_fold (B : Nat → Int) {p : List Char} (hp : p ≠ []) (s : List Char) (g : List Nat) {r : Nat}
    (hr : r < p.length) : v2Best B eq (p.map f) s g r = v2Best B eq p s g r := by
  unfold v2Best; rw [v2Window_fold hf hp, v2Chars_fold hf hp, v2Fst_fold hf hp]
  exact dpBest_fold hf (fun i hi => getD_fold (by omega) _)

theorem v2Trace_fold (B : Nat → Int) {p : List Char} (hp : p ≠ []) (s : List Char) (g : List Nat) :
    v2Trace B eq (p.map f) s g = v2Trace B eq p s g := by
  have hlen : 0 < p.length := List.length_pos_iff.mpr hp
  unfold v2Trace
  rw [List.length_map, v2Window_fold hf hp, v2Chars_fold hf hp, v2Best_fold hf B hp s g (by omega)]
  congr 1
  refine tb_congr _ _ _ ?_ (fun i hi => by rw [v2Dp_fold hf B hp s g hi]) (fun i hi => by rw [v2Dp_fold hf B hp s g hi])
  by_cases hn : 0 < (v2Chars eq p s g).length
  · rw [Nat.div_lt_iff_lt_mul hn]
    exact dpBest_cell (by omega) hn
  · rw [Nat.eq_zero_of_not_pos hn, Nat.div_zero]; exact hlen

theorem v2Result_fold (B : Nat → Int) {p : List Char} (hp : p ≠ []) (s : List Char) :
    v2Result B eq (p.map f) s = v2Result B eq p s := by
  have hlen : 0 < p.length := List.length_pos_iff.mpr hp
  have hsum : ∀ g, (v2Trace B eq (p.map f) s g, (v2Best B eq (p.map f) s g (p.length - 1)).1) =
      (v2Trace B eq p s g, (v2Best B eq p s g (p.length - 1)).1) := by
    intro g; rw [v2Trace_fold hf B hp, v2Best_fold hf B hp s g (by omega)]
  unfold v2Result
  by_cases h1 : p.length = 1
  · rw [if_pos (by rw [List.length_map]; exact h1), if_pos h1]
    have hh : (p.map f).headD 'a' = f (p.headD 'a') := by
      cases p with
      | nil => exact absurd rfl hp
      | cons c p => rfl
    rw [hh]
    unfold singleResult
    rw [fun_fold hf]
  · rw [if_neg (by rw [List.length_map]; exact h1), if_neg h1, greedyFrom_fold hf, List.length_map]
    exact congrArg (fun F => (greedyFrom eq s p 0).map F) (funext hsum)

theorem pure_fold (a : Algo) (B : Nat → Int) {p : List Char} (hp : p ≠ []) (s : List Char) :
    pureOf a B eq (p.map f) s = pureOf a B eq p s := by
  cases a
  · show v1Result B eq (p.map f) s = v1Result B eq p s
    unfold v1Result; rw [v1Align_fold hf]
  · exact v2Result_fold hf B hp s

theorem pmatch_fold (p l : List Char) : pmatch eq (p.map f) l = pmatch eq p l := by
  induction p generalizing l with
  | nil => cases l <;> rfl
  | cons q p ih =>
    cases l with
    | nil => rfl
    | cons c l => rw [List.map_cons, pmatch, pmatch, hf, ih]

variable {p p' : Pattern} (ht : p'.text = p.text.map f)
include ht

theorem exactInner_fold {U : Unicode} {sch : Scheme} {off : Nat} (l : List Char)
    (n : Nat) (st : ExactState) : exactInner U p' eq sch off l n st = exactInner U p eq sch off l n st := by
  have hlen : p'.charLen = p.charLen := by simp [Pattern.charLen, ht]
  have hch : ∀ i, p'.char i = (p.char i).mapR f := by
    intro i
    unfold Pattern.char getR
    rw [ht, List.getElem?_map]
    cases p.text[i]? <;> rfl
  induction l generalizing n st with
  | nil => rfl
  | cons c l ih =>
    rw [exactInner, exactInner, hch]
    cases p.char st.patternCharIdx with
    | panic => rfl
    | ok x => simp only [Res.mapR, Res.bind_ok, hf, hlen, ih]

theorem exactPos_fold {U : Unicode} {sch : Scheme} (s : List Char) : exactPos U sch eq p' s = exactPos U sch eq p s := by
  have key : ∀ n st, exactOuter U p' (.unicode s) eq sch n st = exactOuter U p (.unicode s) eq sch n st := by
    intro n
    induction n with
    | zero => intro st; rfl
    | succ n ih =>
      intro st
      rw [exactOuter, exactOuter]
      simp only [exactInner_fold hf ht, ih]
  unfold exactPos
  rw [key]

variable (hl : p'.leadingSpaces = p.leadingSpaces) (hr : p'.trailingSpaces = p.trailingSpaces)
include hl hr

theorem blockPos_fold (s : List Char) :
    prefixPos eq s p' = prefixPos eq s p ∧ suffixPos eq s p' = suffixPos eq s p ∧ equalPos eq s p' = equalPos eq s p := by
  unfold prefixPos suffixPos equalPos
  simp only [ht, hl, hr, pmatch_fold hf, List.length_map, and_self]

end

/-! ### ASCII lower case -/

theorem lower_of_upper {c : Char} (h : isAsciiUpper c = true) : isAsciiLower (lower c) = true ∧ isAsciiUpper (lower c) = false := by
  rw [lower_eq, toAsciiLowercase, if_pos h]
  simp only [isAsciiUpper, Bool.and_eq_true, decide_eq_true_eq] at h
  have hv : (c.toNat + 32).isValidChar := Or.inl (by omega)
  have : (Char.ofNat (c.toNat + 32)).toNat = c.toNat + 32 := by
    simp only [Char.ofNat, hv, dif_pos]; rfl
  simp only [isAsciiLower, isAsciiUpper, this, Bool.and_eq_true, decide_eq_true_eq, Bool.and_eq_false_iff,
    decide_eq_false_iff_not]
  omega

theorem lower_of_not {c : Char} (h : isAsciiUpper c = false) : lower c = c := by
  rw [lower_eq, toAsciiLowercase, if_neg (by simp [h])]

theorem lower_idem (c : Char) : lower (lower c) = lower c := by
  cases h : isAsciiUpper c with
  | true => exact lower_of_not (lower_of_upper h).2
  | false => rw [lower_of_not h, lower_of_not h]

/-- Only a letter has a lower case form other than itself, and that is a letter. -/
theorem lower_eq_iff {c x : Char} (h1 : isAsciiUpper x = false) (h2 : isAsciiLower x = false) : lower c = x ↔ c = x := by
  cases h : isAsciiUpper c with
  | true =>
    constructor
    · rintro rfl; rw [(lower_of_upper h).1] at h2; cases h2
    · rintro rfl; rw [h] at h1; cases h1
  | false => rw [lower_of_not h]

theorem charEq_lower_left (n : Bool) (q c : Char) : charEq false n (lower q) c = charEq false n q c := by
  rw [Bool.eq_iff_iff, charEq_iff, charEq_iff]
  simp only [CharMatches, fold, Bool.false_eq_true, if_false, lower_idem]

theorem charMatches_lower_right (n : Bool) (q c : Char) : CharMatches false n q (lower c) ↔ CharMatches false n q c := by
  cases h : isAsciiUpper c with
  | false => rw [lower_of_not h]
  | true =>
    have hc : isAscii c = true := by
      simp only [isAsciiUpper, Bool.and_eq_true, decide_eq_true_eq] at h
      simp only [isAscii, decide_eq_true_eq]; omega
    have hl : isAscii (lower c) = true := by rw [lower_eq, toAsciiLowercase_isAscii, hc]
    have key : ∀ x : Char, isAscii x = true → (CharMatches false n q x ↔ lower q = lower x) := by
      intro x hx
      simp only [CharMatches, fold, Bool.false_eq_true, if_false]
      constructor
      · rintro (h | ⟨_, t, ht, _⟩)
        · exact h
        · have := ht.range; rw [isNormalized_ascii hx] at this; cases this
      · exact Or.inl
    rw [key _ hc, key _ hl, lower_idem]

/-! ### The candidate -/

section
variable {R R' : Char → Char → Prop} {f : Char → Char} (hR : ∀ q c, R q (f c) ↔ R' q c) (hs : ∀ c, f c = ' ' ↔ c = ' ')

theorem leading_map (hs : ∀ c, f c = ' ' ↔ c = ' ') (s : List Char) : leading (s.map f) = leading s := by
  unfold leading
  induction s with
  | nil => rfl
  | cons c s ih =>
    simp only [List.map_cons, List.takeWhile_cons, hs, decide_eq_true_eq]
    split
    · simp only [List.length_cons, ih]
    · rfl

theorem trailing_map (hs : ∀ c, f c = ' ' ↔ c = ' ') (s : List Char) : trailing (s.map f) = trailing s := by
  unfold trailing
  rw [← List.map_reverse, leading_map hs]

theorem replicate_map (hs : ∀ c, f c = ' ' ↔ c = ' ') {l : List Char} {j : Nat}
    (h : l.map f = List.replicate j ' ') : l = List.replicate j ' ' := by
  rw [List.eq_replicate_iff] at h ⊢
  refine ⟨by simpa using h.1, fun c hc => ?_⟩
  exact (hs c).mp (h.2 (f c) (List.mem_map_of_mem hc))

theorem map_replicate_space (hs : ∀ c, f c = ' ' ↔ c = ' ') (j : Nat) :
    (List.replicate j ' ').map f = List.replicate j ' ' := by
  rw [List.map_replicate, (hs ' ').mpr rfl]

include hR in
theorem forall₂_map_right {t m : List Char} : List.Forall₂ R t (m.map f) ↔ List.Forall₂ R' t m := by
  induction t generalizing m with
  | nil => cases m <;> simp
  | cons q t ih =>
    cases m with
    | nil => simp
    | cons c m => simp only [List.map_cons, List.forall₂_cons, hR, ih]

include hR hs in
/-- Whether a text matches does not change when candidate characters are replaced by others that compare the same. -/
theorem textMatches_map (k : MatchType) (t s : List Char) : TextMatches R k t (s.map f) ↔ TextMatches R' k t s := by
  have hF := fun {t m} => forall₂_map_right hR (t := t) (m := m)
  cases k with
  | fuzzy =>
    constructor
    · rintro ⟨s', h1, h2⟩
      obtain ⟨s'', h3, rfl⟩ := List.sublist_map_iff.mp h1
      exact ⟨s'', h3, hF.mp h2⟩
    · rintro ⟨s', h1, h2⟩
      exact ⟨s'.map f, h1.map f, hF.mpr h2⟩
  | exact =>
    constructor
    · rintro ⟨i, a, m, b, h1, h2, h3⟩
      obtain ⟨x, b', rfl, hx, rfl⟩ := List.map_eq_append_iff.mp h1
      obtain ⟨a', m', rfl, rfl, rfl⟩ := List.map_eq_append_iff.mp hx
      exact ⟨i, a', m', b', rfl, by simpa using h2, hF.mp h3⟩
    · rintro ⟨i, a, m, b, rfl, h2, h3⟩
      exact ⟨i, a.map f, m.map f, b.map f, by simp, by simpa using h2, hF.mpr h3⟩
  | prefixExact =>
    constructor
    · rintro ⟨j, m, y, h1, h2, h3⟩
      obtain ⟨x, b', rfl, hx, rfl⟩ := List.map_eq_append_iff.mp h1
      obtain ⟨a', m', rfl, ha, rfl⟩ := List.map_eq_append_iff.mp hx
      rw [leading_map hs] at h2
      exact ⟨j, m', b', by rw [replicate_map hs ha], h2, hF.mp h3⟩
    · rintro ⟨j, m, y, h1, h2, h3⟩
      refine ⟨j, m.map f, y.map f, ?_, by rw [leading_map hs, h2], hF.mpr h3⟩
      rw [h1]; simp [map_replicate_space hs]
  | suffixExact =>
    constructor
    · rintro ⟨j, m, y, h1, h2, h3⟩
      obtain ⟨x, b', rfl, hx, ha⟩ := List.map_eq_append_iff.mp h1
      obtain ⟨a', m', rfl, rfl, rfl⟩ := List.map_eq_append_iff.mp hx
      rw [trailing_map hs] at h2
      exact ⟨j, m', a', by rw [replicate_map hs ha], h2, hF.mp h3⟩
    · rintro ⟨j, m, y, h1, h2, h3⟩
      refine ⟨j, m.map f, y.map f, ?_, by rw [trailing_map hs, h2], hF.mpr h3⟩
      rw [h1]; simp [map_replicate_space hs]
  | equalExact =>
    constructor
    · rintro ⟨j, k, m, h1, h2, h2', h3⟩
      obtain ⟨x, b', rfl, hx, hb⟩ := List.map_eq_append_iff.mp h1
      obtain ⟨a', m', rfl, ha, rfl⟩ := List.map_eq_append_iff.mp hx
      rw [leading_map hs] at h2
      rw [trailing_map hs] at h2'
      exact ⟨j, k, m', by rw [replicate_map hs ha, replicate_map hs hb], h2, h2', hF.mp h3⟩
    · rintro ⟨j, k, m, h1, h2, h2', h3⟩
      refine ⟨j, k, m.map f, ?_, by rw [leading_map hs, h2], by rw [trailing_map hs, h2'], hF.mpr h3⟩
      rw [h1]; simp [map_replicate_space hs]

end

theorem lower_space (c : Char) : lower c = ' ' ↔ c = ' ' := lower_eq_iff (by decide) (by decide)

/-- Case-insensitively, a query matches a candidate iff it matches its lower case form. -/
theorem queryMatches_lower {U : Unicode} {st : Settings} (h : st.caseSensitivity = .insensitive) (q : FzfQuery)
    (s : List Char) : QueryMatches U st q (s.map lower) ↔ QueryMatches U st q s := by
  have hraw : ∀ p, RawMatches U st p (s.map lower) ↔ RawMatches U st p s := by
    intro p
    unfold RawMatches
    refine textMatches_map (fun q c => ?_) lower_space _ _ _
    unfold Cmp
    rw [h]
    exact charMatches_lower_right _ _ _
  cases q with
  | notExtended p => simp only [QueryMatches, hraw]
  | extended cs => simp only [QueryMatches, PatternMatches, hraw]

/-! ### The query -/

/-- The pattern with its text in lower case. -/
def lowered (p : Pattern) : Pattern := { p with text := p.text.map lower, hasUppercase := false }

/-- The query with its patterns in lower case. -/
def loweredQuery : FzfQuery → FzfQuery
  | .notExtended p => .notExtended (lowered p)
  | .extended cs => .extended (cs.map (List.map lowered))

theorem patHit_lowered {U : Unicode} {a : Algo} {st : Settings} (h : st.caseSensitivity = .insensitive) {p : Pattern}
    (hp : p.text ≠ []) (s : List Char) : patHit U (pureOf a) st s (lowered p) = patHit U (pureOf a) st s p := by
  have he : st.eqOf (lowered p) = st.eqOf p := by unfold Settings.eqOf; rw [h]; rfl
  have hf : ∀ q c, st.eqOf p (lower q) c = st.eqOf p q c := by
    intro q c; unfold Settings.eqOf; rw [h]; exact charEq_lower_left _ _ _
  have ht : (lowered p).text = p.text.map lower := rfl
  have hk : (lowered p).matchType = p.matchType := rfl
  have hi : (lowered p).isInverse = p.isInverse := rfl
  obtain ⟨h1, h2, h3⟩ := blockPos_fold hf (p := p) (p' := lowered p) ht rfl rfl s
  unfold patHit rawHit
  dsimp only
  rw [he, hk, hi, h1, h2, h3, exactPos_fold hf ht, ht, pure_fold hf a _ hp, List.length_map]

theorem result_lowered {U : Unicode} {a : Algo} {st : Settings} (h : st.caseSensitivity = .insensitive) {q : FzfQuery}
    (hq : QueryOk U q) (s : List Char) : result U a st s (loweredQuery q) = result U a st s q := by
  have hf : ∀ p q c, st.eqOf p (lower q) c = st.eqOf p q c := by
    intro p q c; unfold Settings.eqOf; rw [h]; exact charEq_lower_left _ _ _
  unfold result queryHit
  cases q with
  | notExtended p =>
    have he : st.eqOf (lowered p) = st.eqOf p := by unfold Settings.eqOf; rw [h]; rfl
    have hemp : (loweredQuery (.notExtended p)).isEmpty = (FzfQuery.notExtended p).isEmpty := by
      simp only [loweredQuery, FzfQuery.isEmpty, Pattern.isEmpty, lowered]
      cases p.text <;> rfl
    rw [hemp]
    split
    · rfl
    · rename_i hne
      have hp : p.text ≠ [] := by
        intro h0; apply hne; simp [FzfQuery.isEmpty, Pattern.isEmpty, h0]
      dsimp only [loweredQuery]
      rw [he]
      have : (lowered p).text = p.text.map lower := rfl
      rw [this, pure_fold (hf p) a _ hp]
  | extended cs =>
    have hemp : (loweredQuery (.extended cs)).isEmpty = (FzfQuery.extended cs).isEmpty := by
      simp only [loweredQuery, FzfQuery.isEmpty]
      cases cs <;> rfl
    rw [hemp]
    split
    · rfl
    · dsimp only [loweredQuery]
      have key : ∀ cs : List Condition, (∀ c ∈ cs, ∀ p ∈ c, p.text ≠ []) →
          condsHit U (pureOf a) st s (cs.map (List.map lowered)) = condsHit U (pureOf a) st s cs := by
        intro cs
        induction cs with
        | nil => intro _; rfl
        | cons c cs ih =>
          intro hn
          have hc : condHit U (pureOf a) st s (c.map lowered) = condHit U (pureOf a) st s c := by
            have hc := hn c (by simp)
            clear hn ih
            unfold condHit
            induction c with
            | nil => rfl
            | cons p c ihc =>
              rw [List.map_cons, List.findSome?_cons, List.findSome?_cons, patHit_lowered h (hc p (by simp)),
                ihc (fun p hp => hc p (by simp [hp]))]
          rw [List.map_cons, condsHit, condsHit, hc, ih (fun c hc => hn c (by simp [hc]))]
      exact key cs (fun c hc p hp => ((hq c hc).2 p hp).1)

theorem pieces_lower (t : List Char) : pieces (t.map lower) = (pieces t).map (List.map lower) := by
  have hc : ∀ (c : Char) (ps : List (List Char)), consHead (lower c) (ps.map (List.map lower)) =
      (consHead c ps).map (List.map lower) := by
    intro c ps; cases ps <;> rfl
  fun_induction pieces t with
  | case1 => rfl
  | case2 t ih =>
    have h1 : lower '\\' = '\\' := by decide
    have h2 : lower ' ' = ' ' := by decide
    rw [List.map_cons, List.map_cons, h1, h2, pieces, ih, ← hc, h2]
  | case3 t ih =>
    have h2 : lower ' ' = ' ' := by decide
    rw [List.map_cons, h2, pieces, ih]
    rfl
  | case4 c t h1 h2 ih =>
    rw [List.map_cons, pieces_cons_of (c := lower c), ih, hc]
    · intro h; exact h2 ((lower_space c).mp h)
    · rintro ⟨h3, h4⟩
      have h3 := (lower_eq_iff (by decide) (by decide)).mp h3
      cases t with
      | nil => simp at h4
      | cons d t =>
        simp only [List.map_cons, List.head?_cons, Option.some.injEq] at h4
        exact h1 t h3 (by rw [(lower_space d).mp h4])

theorem words_lower (t : List Char) : words (t.map lower) = (words t).map (List.map lower) := by
  unfold words
  rw [pieces_lower, List.filter_map]
  congr 1
  congr 1
  funext w
  cases w <;> rfl

theorem Spec.Decorates.lower {w text : List Char} {i d : Bool} {sg : Sigil} (h : Decorates w i sg d text) :
    Decorates (w.map lower) i sg d (text.map lower) := by
  have hsg : sg.chars.map Spec.lower = sg.chars := by cases sg <;> decide
  have hd : Spec.lower '$' = '$' := by decide
  have hb : Spec.lower '!' = '!' := by decide
  have e1 : ∀ c, Spec.lower c = '!' ↔ c = '!' := fun c => lower_eq_iff (by decide) (by decide)
  have e2 : ∀ c, Spec.lower c = '$' ↔ c = '$' := fun c => lower_eq_iff (by decide) (by decide)
  have e3 : ∀ c, Spec.lower c = '\'' ↔ c = '\'' := fun c => lower_eq_iff (by decide) (by decide)
  have e4 : ∀ c, Spec.lower c = '^' ↔ c = '^' := fun c => lower_eq_iff (by decide) (by decide)
  have hcore : sg.chars ++ text.map Spec.lower = (sg.chars ++ text).map Spec.lower := by
    rw [List.map_append, hsg]
  refine ⟨?_, ?_, ?_, ?_, ?_⟩
  · rw [h.word]
    cases i <;> cases d <;> simp [hsg, hd, hb]
  · intro hi
    have := h.bang hi
    cases w with
    | nil => simp
    | cons c w => simpa [e1] using this
  · intro hd; rw [hcore]; simpa using h.dollar_pos hd
  · intro hd hl
    rw [hcore] at hl ⊢
    have := h.dollar_max hd
    rw [List.getLast?_map] at hl
    obtain ⟨c, hc, hc'⟩ := Option.map_eq_some_iff.mp hl
    rw [e2] at hc'
    subst hc'
    rw [this hc]; rfl
  · intro hs
    have := h.sigil_max hs
    cases text with
    | nil => simp
    | cons c w => simpa [e3, e4] using this

theorem lowered_mkPattern (U : Unicode) (i : Bool) (k : MatchType) (t : List Char) :
    lowered (mkPattern U i k (t.map lower)) = lowered (mkPattern U i k t) := by
  have h1 := leading_map lower_space t
  have h2 := trailing_map lower_space t
  unfold trailing at h2
  unfold leading at h1 h2
  unfold lowered mkPattern
  simp only [List.map_map, h1, h2, Pattern.mk.injEq, and_self, and_true]
  congr 1
  funext c
  exact lower_idem c

theorem wordPattern_lower (U : Unicode) (w : List Char) :
    (wordPattern U (w.map lower)).map lowered = (wordPattern U w).map lowered := by
  have h := decorates_exists w
  rw [wordPattern_of_decorates h, wordPattern_of_decorates h.lower]
  simp only [List.map_eq_nil_iff]
  split
  · rfl
  · rw [Option.map_some, Option.map_some, lowered_mkPattern]

/-- Tokens with their patterns changed. -/
def mapTok (f : Pattern → Pattern) : Token → Token
  | .bar => .bar
  | .pat p => .pat (f p)

theorem groups_map (f : Pattern → Pattern) (ts : List Token) : groups (ts.map (mapTok f)) = (groups ts).map (List.map f) := by
  induction ts with
  | nil => rfl
  | cons t ts ih =>
    cases t with
    | bar => exact ih
    | pat p =>
      have hh : (ts.map (mapTok f)).head? = ts.head?.map (mapTok f) := List.head?_map
      rw [List.map_cons, mapTok, groups, groups, ih, hh]
      cases ts.head? with
      | none => rfl
      | some t =>
        cases t with
        | pat _ => rfl
        | bar => cases groups ts <;> rfl

theorem tokens_lower (U : Unicode) (ws : List (List Char)) :
    (tokens U (ws.map (List.map lower))).map (mapTok lowered) = (tokens U ws).map (mapTok lowered) := by
  induction ws with
  | nil => rfl
  | cons w ws ih =>
    unfold tokens at ih ⊢
    rw [List.map_cons, List.filterMap_cons, List.filterMap_cons]
    have hb : w.map lower = ['|'] ↔ w = ['|'] := by
      constructor
      · intro h
        cases w with
        | nil => cases h
        | cons c w =>
          rw [List.map_cons, List.cons.injEq, List.map_eq_nil_iff] at h
          rw [h.2, (lower_eq_iff (by decide) (by decide)).mp h.1]
      · rintro rfl; decide
    by_cases hw : w = ['|']
    · rw [if_pos hw, if_pos (hb.mpr hw)]
      simp only [List.map_cons, ih]
    · have hw' : ¬ w.map lower = ['|'] := fun h => hw (hb.mp h)
      rw [if_neg hw, if_neg hw']
      have := wordPattern_lower U w
      cases h1 : wordPattern U w with
      | none =>
        cases h2 : wordPattern U (w.map lower) with
        | none => exact ih
        | some p => rw [h1, h2] at this; cases this
      | some p =>
        cases h2 : wordPattern U (w.map lower) with
        | none => rw [h1, h2] at this; cases this
        | some p' =>
          rw [h1, h2] at this
          simp only [Option.map_some, Option.some.injEq] at this
          simp only [Option.map_some, List.map_cons, mapTok, this, ih]

theorem loweredQuery_collapse (cs : List (List Pattern)) :
    loweredQuery (collapse cs) = collapse (cs.map (List.map lowered)) := by
  cases cs with
  | nil => rfl
  | cons c cs =>
    cases cs with
    | cons c' cs => cases c with
      | nil => rfl
      | cons p c => cases c <;> rfl
    | nil =>
      cases c with
      | nil => rfl
      | cons p c =>
        cases c with
        | cons p' c => rfl
        | nil =>
          have hk : (lowered p).matchType = p.matchType := rfl
          simp only [List.map_cons, List.map_nil, collapse, hk]
          split <;> rfl

/-- Parsing the lower case form of a string gives the same query, up to case. -/
theorem query_lower (U : Unicode) (t : List Char) : loweredQuery (query U (t.map lower)) = loweredQuery (query U t) := by
  unfold query
  rw [loweredQuery_collapse, loweredQuery_collapse, ← groups_map, ← groups_map, words_lower, tokens_lower]

theorem rawQuery_lower (U : Unicode) (t : List Char) :
    loweredQuery (rawQuery U (t.map lower)) = loweredQuery (rawQuery U t) :=
  congrArg FzfQuery.notExtended (lowered_mkPattern U false .fuzzy t)

end Norm
