import Verif.Proofs.UsizeRanges
import Verif.Proofs.Checked

/-! The functions of `fzf.rs` and `fzf_v1.rs`, as in `Proofs/UsizeBase`. -/

namespace Norm.Usize

variable {B : Build} {P : Prop} {U : Unicode}

theorem lenUtf8_pos (c : Char) : 0 < lenUtf8 c := utf8Size_pos c

/-! ### `compute_score` -/

theorem computeScoreLoop_agree {pre : List Range} {K : Nat} (R : Bool) (hb : RBd B P R pre K) (eq : CharEq) (scheme : Scheme)
    (start : Nat) : ∀ (cs : List Char) (st : ScoreState), (R = true → start + st.byteOffset + strLen cs ≤ K) →
    RInv B pre K st.ranges →
    Agree P (fun st' => RInv B pre K st'.ranges) (computeScoreLoop B U R eq scheme start cs st)
      (Norm.computeScoreLoop U R eq scheme start cs st) := by
  have hlt := hb.lt
  intro cs
  induction cs with
  | nil => intro st _ h; exact Agree.ok h
  | cons c cs ih =>
    intro st hK h
    unfold computeScoreLoop Norm.computeScoreLoop
    have hc := lenUtf8_pos c
    have hcc : strLen (c :: cs) = lenUtf8 c + strLen cs := strLen_cons c cs
    cases R with
    | false =>
      simp only [Bool.false_eq_true, if_false]
      refine Agree.ite (fun _ => ?_) fun _ => ?_
      · simp only [Res.pure_def, Res.bind_ok]
        cases st.patternChars with
        | nil => exact Agree.ok h
        | cons p ps => exact ih _ (by simp) h
      · simp only [Res.pure_def, Res.bind_ok]
        exact ih _ (by simp) h
    | true =>
      have hK := hK rfl
      simp only [if_true]
      refine Agree.ite (fun _ => ?_) fun _ => ?_
      · simp only [Res.bind_assoc]
        refine Agree.skip (usize_ok (by omega)) ?_
        refine Agree.skip (usize_ok (by omega)) ?_
        refine Agree.bind (insert_agree hb h (by simp only; omega) (by simp only; omega)) fun rs hrs _ => ?_
        cases st.patternChars with
        | nil => exact Agree.ok hrs
        | cons p ps =>
          refine Agree.skip (usize_ok (by omega)) ?_
          exact ih _ (by intro _; simp only; omega) hrs
      · refine Agree.skip (usize_ok (by omega)) ?_
        exact ih _ (by intro _; simp only; omega) h

theorem strLen_window {s : List Char} {a e : Nat} (ha : a ≤ e) :
    strLen (s.take a) + strLen ((s.take e).drop a) = strLen (s.take e) := by
  conv_rhs => rw [← List.take_append_drop a (s.take e), strLen_append, List.take_take, Nat.min_eq_left ha]

theorem computeScore_agree {pre : List Range} {K : Nat} (R : Bool) (hb : RBd B P R pre K) (p : Pattern) {c : Candidate}
    (hwf : c.WF) (hK : strLen c.toChars ≤ K) (r : Range) (eq : CharEq) (scheme : Scheme) {m : MatchedRanges}
    (hm : RInv B pre K m) :
    Agree P (fun x => RInv B pre K x.1 ∧ r.start ≤ r.stop ∧ r.stop ≤ c.toChars.length)
      (computeScore B U R p c r eq scheme m) (Norm.computeScore U R p c r eq scheme m) := by
  have hlt := hb.lt
  unfold computeScore Norm.computeScore
  have key : ∀ (start : Nat), (R = true → r.start ≤ c.toChars.length → start = strLen (c.toChars.take r.start)) →
      Agree P (fun (x : MatchedRanges × Score) => RInv B pre K x.1 ∧ r.start ≤ r.stop ∧ r.stop ≤ c.toChars.length)
        (do
          let prevClass ←
            if r.start == 0 then pure scheme.initialCharClass
            else (do return charClass U (← c.char (r.start - 1)) scheme : Res CharClass)
          let patternChar ← Res.unwrap p.text.head?
          let chars ← (← c.slice r).chars
          let st ← computeScoreLoop B U R eq scheme start chars {
            isInGap := false, isFirstPatternChar := true, firstBonus := 0, consecutive := 0
            byteOffset := 0, prevClass := prevClass, patternChars := p.text.tail
            patternChar := patternChar, score := 0, ranges := m }
          return (st.ranges, st.score))
        (do
          let prevClass ←
            if r.start == 0 then pure scheme.initialCharClass
            else (do return charClass U (← c.char (r.start - 1)) scheme : Res CharClass)
          let patternChar ← Res.unwrap p.text.head?
          let chars ← (← c.slice r).chars
          let st ← Norm.computeScoreLoop U R eq scheme start chars {
            isInGap := false, isFirstPatternChar := true, firstBonus := 0, consecutive := 0
            byteOffset := 0, prevClass := prevClass, patternChars := p.text.tail
            patternChar := patternChar, score := 0, ranges := m }
          return (st.ranges, st.score)) := by
    intro start hs
    rw [← res_ite_bind, ← res_ite_bind]
    refine Agree.same fun cls _ => ?_
    refine Agree.same fun pc _ => ?_
    refine Agree.same fun c' hc' => ?_
    obtain ⟨h1, h2, h3, h4⟩ := of_slice hwf hc'
    rw [Candidate.chars_eq]
    simp only [Res.bind_ok]
    refine Agree.bind (computeScoreLoop_agree R hb eq scheme start _ _ ?_ hm) fun st hst _ => Agree.ok ⟨hst, h1, h2⟩
    intro hR
    have h5 := strLen_window (s := c.toChars) h1
    have h6 := strLen_take_le c.toChars r.stop
    simp only [h4, hs hR (by omega)]
    omega
  cases R with
  | false => exact key 0 (by simp)
  | true =>
    simp only [if_true]
    refine Agree.bind (toByteOffset_agree hwf (by omega) _) fun start hs _ => ?_
    exact key start fun _ => hs

/-! ### `exact_match` -/

/-- The best occurrence so far is a non-empty part of the candidate. -/
def BestOk (N : Nat) (st : ExactState) : Prop :=
  (st.matched = true ∧ st.bestBonusCharStart < st.bestBonusCharEnd ∧ st.bestBonusCharEnd ≤ N) ∨
  (st.matched = false ∧ st.bestBonus = -1)

theorem exactInner_agree {scheme : Scheme} (hS : ∀ x y, 0 ≤ computeBonus x y scheme) {N : Nat} (hN : N < 2 ^ B.bits)
    (p : Pattern) (hp : p.text.length < 2 ^ B.bits) (eq : CharEq) (cso : Nat) : ∀ (cs : List Char) (off : Nat)
    (st : ExactState), cso + off + cs.length ≤ N → (st.patternCharIdx = 0 → st.startOffset = cso) →
    st.startOffset ≤ N → st.bonusStart ≤ cso + off → 0 ≤ st.currentBonus → BestOk N st →
    Agree P (fun x => BestOk N x.2) (exactInner B U p eq scheme cso cs off st)
      (Norm.exactInner U p eq scheme cso cs off st) := by
  intro cs
  induction cs with
  | nil => intro off st _ _ _ _ _ h; exact Agree.ok h
  | cons c cs ih =>
    intro off st hoff h0 hs hbs hcb hbest
    rw [List.length_cons] at hoff
    unfold exactInner Norm.exactInner
    refine Agree.same fun pch hpch => ?_
    have hidx : st.patternCharIdx < p.text.length := of_getR hpch
    refine Agree.ite (fun _ => ?_) fun _ => ?_
    · have key : ∀ st : ExactState, st.patternCharIdx < p.text.length → st.startOffset ≤ N → st.bonusStart ≤ cso + off →
          0 ≤ st.currentBonus → BestOk N st →
          Agree P (fun x => BestOk N x.2)
            (do
              let patternCharIdx ← B.usize (st.patternCharIdx + 1)
              let st := { st with patternCharIdx := patternCharIdx }
              if st.patternCharIdx == p.charLen then
                let st := { st with matched := true }
                let st ←
                  if st.currentBonus > st.bestBonus then (do
                    let stop ← B.usize ((← B.usize (cso + off)) + 1)
                    return { st with
                      bestBonus := st.currentBonus
                      bestBonusCharStart := st.bonusStart
                      bestBonusCharEnd := stop } : Res ExactState)
                  else pure st
                if st.currentBonus ≥ Bonus.boundary then
                  return (.breakOuter, st)
                else
                  return (.done cs, st)
              else
                exactInner B U p eq scheme cso cs (off + 1) { st with prevClass := charClass U c scheme })
            (do
              let st := { st with patternCharIdx := st.patternCharIdx + 1 }
              if st.patternCharIdx == p.charLen then
                let st := { st with matched := true }
                let st :=
                  if st.currentBonus > st.bestBonus then
                    { st with
                      bestBonus := st.currentBonus
                      bestBonusCharStart := st.bonusStart
                      bestBonusCharEnd := cso + off + 1 }
                  else st
                if st.currentBonus ≥ Bonus.boundary then
                  return (.breakOuter, st)
                else
                  return (.done cs, st)
              else
                Norm.exactInner U p eq scheme cso cs (off + 1) { st with prevClass := charClass U c scheme }) := by
        intro st hidx hs hbs hcb hbest
        refine Agree.skip (usize_ok (by omega)) ?_
        refine Agree.ite (fun _ => ?_) fun _ => ?_
        · by_cases hgt : st.currentBonus > st.bestBonus
          · simp only [if_pos hgt]
            simp only [Res.bind_assoc]
            refine Agree.skip (usize_ok (by omega)) ?_
            refine Agree.skip (usize_ok (by omega)) ?_
            have : BestOk N { st with
                patternCharIdx := st.patternCharIdx + 1, matched := true, bestBonus := st.currentBonus
                bestBonusCharStart := st.bonusStart, bestBonusCharEnd := cso + off + 1 } :=
              Or.inl ⟨rfl, by simp only; omega, by simp only; omega⟩
            exact Agree.ite (fun _ => Agree.ok this) fun _ => Agree.ok this
          · simp only [if_neg hgt]
            simp only [Res.pure_def, Res.bind_ok]
            have : BestOk N { st with patternCharIdx := st.patternCharIdx + 1, matched := true } := by
              rcases hbest with ⟨_, h⟩ | ⟨_, h⟩
              · exact Or.inl ⟨rfl, h⟩
              · exfalso; rw [h] at hgt; somega
            exact Agree.ite (fun _ => Agree.ok this) fun _ => Agree.ok this
        · exact ih (off + 1) _ (by omega) (by simp) hs (by simp only; omega) hcb hbest
      by_cases hz : (st.patternCharIdx == 0) = true
      · have hz' : st.patternCharIdx = 0 := by simpa using hz
        have := h0 hz'
        simp only [if_pos hz]
        refine Agree.skip ?_ (key { st with
          bonusStart := cso + off, startOffset := st.startOffset + (off + 1)
          currentBonus := computeBonus st.prevClass (charClass U c scheme) scheme } hidx (by simp only; omega)
          (Nat.le_refl _) (hS _ _) hbest)
        rw [usize_ok (show cso + off < _ by omega), usize_ok (show off + 1 < _ by omega)]
        simp only [Res.bind_ok]
        rw [usize_ok (by omega)]
        rfl
      · simp only [if_neg hz]
        exact key st hidx hs hbs hcb hbest
    · refine Agree.ite (fun _ => Agree.ok hbest) fun _ => ?_
      exact ih (off + 1) _ (by omega) h0 hs (by simp only; omega) hcb hbest

theorem exactOuter_agree {scheme : Scheme} (hS : ∀ x y, 0 ≤ computeBonus x y scheme) {c : Candidate}
    (hN : c.toChars.length < 2 ^ B.bits) (p : Pattern) (hp : p.text.length < 2 ^ B.bits) (eq : CharEq) :
    ∀ (fuel : Nat) (st : ExactState), BestOk c.toChars.length st →
    Agree P (BestOk c.toChars.length) (exactOuter B U p c eq scheme fuel st) (Norm.exactOuter U p c eq scheme fuel st) := by
  intro fuel
  induction fuel with
  | zero => intro st _; exact Agree.right
  | succ fuel ih =>
    intro st h
    unfold exactOuter Norm.exactOuter
    dsimp only
    refine Agree.same fun chars hch => ?_
    rw [Candidate.charsFrom_eq] at hch
    obtain ⟨h1, rfl⟩ := of_sliceFromR hch
    refine Agree.bind (exactInner_agree hS hN p hp eq _ _ 0 _ ?_ ?_ h1 (Nat.zero_le _) (Int.le_refl _) h) fun x hx _ => ?_
    · rw [List.length_drop]; omega
    · intro _; rfl
    obtain ⟨exit, st'⟩ := x
    cases exit with
    | breakOuter => exact Agree.ok hx
    | done rest =>
      cases rest with
      | nil => exact Agree.ok hx
      | cons => exact ih st' hx

/-! ### The four exact matchers -/

section Exact
variable {pre : List Range} {K : Nat} (R : Bool) (hb : RBd B P R pre K) (p : Pattern) {c : Candidate} (hwf : c.WF)
  (hK : strLen c.toChars ≤ K) (eq : CharEq) (scheme : Scheme) {m : MatchedRanges} (hm : RInv B pre K m)

include hb hwf hK hm

theorem finishExact_agree {r : Range} (hr : r.start < r.stop) :
    Agree P (fun x => RInv B pre K x.1) (finishExact B U R p c r eq scheme m) (Norm.finishExact U R p c r eq scheme m) := by
  have hlt := hb.lt
  unfold finishExact Norm.finishExact
  refine Agree.bind (computeScore_agree false (hb.of nofun) p hwf hK r eq scheme hm) fun x hx _ => ?_
  obtain ⟨m', sc⟩ := x
  obtain ⟨h1, h2, h3⟩ := hx
  cases R with
  | false => exact Agree.ok h1
  | true =>
    simp only [if_true, Res.bind_assoc]
    refine Agree.bind (toByteRange_agree hwf (by omega) h2 h3) fun r' hr' _ => ?_
    subst hr'
    have h4 := strLen_window (s := c.toChars) h2
    have h5 := strLen_take_le c.toChars r.stop
    have h6 := length_le_strLen ((c.toChars.take r.stop).drop r.start)
    rw [List.length_drop, List.length_take] at h6
    refine Agree.bind (insert_agree hb h1 (by simp only; omega) (by simp only; omega)) fun m'' hm'' _ => Agree.ok hm''

theorem exactMatch_agree (hS : ∀ x y, 0 ≤ computeBonus x y scheme) (hp : p.text.length < 2 ^ B.bits) :
    Agree P (fun x => RInv B pre K x.1) (exactMatch B U R p c eq scheme m) (Norm.exactMatch U R p c eq scheme m) := by
  have hlt := hb.lt
  have hlen := length_le_strLen c.toChars
  unfold exactMatch Norm.exactMatch
  refine Agree.ite (fun _ => Agree.ok hm) fun _ => ?_
  refine Agree.bind (exactOuter_agree hS (by omega) p hp eq _ _ (Or.inr ⟨rfl, rfl⟩)) fun st hst _ => ?_
  by_cases hmt : st.matched = true
  · simp only [hmt, Bool.not_true, Bool.false_eq_true, if_false]
    rcases hst with ⟨_, h1, _⟩ | ⟨h1, _⟩
    · exact finishExact_agree R hb p hwf hK eq scheme hm h1
    · rw [hmt] at h1; cases h1
  · have : st.matched = false := by simpa using hmt
    simp only [this, Bool.not_false, if_true]
    exact Agree.ok hm

theorem prefixMatch_agree (hp : p.text.length < 2 ^ (B.bits - 1)) (hK' : K < 2 ^ (B.bits - 1))
    (hM : 2 * 2 ^ (B.bits - 1) = 2 ^ B.bits) :
    Agree P (fun x => RInv B pre K x.1) (prefixMatch B U R p c eq scheme m) (Norm.prefixMatch U R p c eq scheme m) := by
  have hlen := length_le_strLen c.toChars
  unfold prefixMatch Norm.prefixMatch
  refine Agree.ite (fun _ => Agree.ok hm) fun hne => ?_
  have hpos : 0 < p.text.length := by
    have : p.text ≠ [] := by simpa [Pattern.isEmpty] using hne
    exact List.length_pos_iff.mpr this
  have hcl : p.charLen = p.text.length := rfl
  refine Agree.bind (Q := fun _ => True) ?_ fun o _ _ => ?_
  · unfold ignoredCandidateLeadingSpaces Norm.ignoredCandidateLeadingSpaces
    dsimp only
    refine Agree.ite (fun _ => Agree.ok trivial) fun _ => ?_
    refine Agree.bind (sub_agree _ _) fun _ _ _ => Agree.ok trivial
  cases o with
  | none => exact Agree.ok hm
  | some ign =>
    refine Agree.same fun chars hch => ?_
    rw [Candidate.charsFrom_eq] at hch
    obtain ⟨h1, _⟩ := of_sliceFromR hch
    cases zipLoop eq false p.text chars with
    | none => exact Agree.ok hm
    | some x =>
      obtain ⟨l, l'⟩ := x
      cases l with
      | cons => exact Agree.ok hm
      | nil =>
        refine Agree.skip (usize_ok (by omega)) ?_
        exact finishExact_agree R hb p hwf hK eq scheme hm (by simp only; omega)

theorem suffixMatch_agree :
    Agree P (fun x => RInv B pre K x.1) (suffixMatch B U R p c eq scheme m) (Norm.suffixMatch U R p c eq scheme m) := by
  unfold suffixMatch Norm.suffixMatch
  refine Agree.ite (fun _ => Agree.ok hm) fun hne => ?_
  have hpos : 0 < p.text.length := by
    have : p.text ≠ [] := by simpa [Pattern.isEmpty] using hne
    exact List.length_pos_iff.mpr this
  have hcl : p.charLen = p.text.length := rfl
  refine Agree.bind (Q := fun _ => True) ?_ fun o _ _ => ?_
  · unfold ignoredCandidateTrailingSpaces Norm.ignoredCandidateTrailingSpaces
    dsimp only
    refine Agree.ite (fun _ => Agree.ok trivial) fun _ => ?_
    refine Agree.bind (sub_agree _ _) fun _ _ _ => Agree.ok trivial
  cases o with
  | none => exact Agree.ok hm
  | some ign =>
    refine Agree.bind (sub_agree _ _) fun up _ _ => ?_
    refine Agree.same fun c' _ => ?_
    refine Agree.same fun chars _ => ?_
    cases zipLoop eq false p.text.reverse chars.reverse with
    | none => exact Agree.ok hm
    | some x =>
      obtain ⟨l, l'⟩ := x
      cases l with
      | cons => exact Agree.ok hm
      | nil =>
        refine Agree.bind (sub_agree _ _) fun start hst _ => ?_
        exact finishExact_agree R hb p hwf hK eq scheme hm (by simp only; omega)

theorem equalMatch_agree :
    Agree P (fun x => RInv B pre K x.1) (equalMatch B U R p c eq scheme m) (Norm.equalMatch U R p c eq scheme m) := by
  unfold equalMatch Norm.equalMatch
  refine Agree.ite (fun _ => Agree.ok hm) fun hne => ?_
  have hpos : 0 < p.text.length := by
    have : p.text ≠ [] := by simpa [Pattern.isEmpty] using hne
    exact List.length_pos_iff.mpr this
  have hcl : p.charLen = p.text.length := rfl
  refine Agree.bind (Q := fun _ => True) ?_ fun o _ _ => ?_
  · unfold ignoredCandidateLeadingSpaces Norm.ignoredCandidateLeadingSpaces
    dsimp only
    refine Agree.ite (fun _ => Agree.ok trivial) fun _ => ?_
    refine Agree.bind (sub_agree _ _) fun _ _ _ => Agree.ok trivial
  cases o with
  | none => exact Agree.ok hm
  | some ign =>
    refine Agree.ite (fun _ => Agree.ok hm) fun _ => ?_
    refine Agree.bind (Q := fun _ => True) ?_ fun o _ _ => ?_
    · unfold ignoredCandidateTrailingSpaces Norm.ignoredCandidateTrailingSpaces
      dsimp only
      refine Agree.ite (fun _ => Agree.ok trivial) fun _ => ?_
      refine Agree.bind (sub_agree _ _) fun _ _ _ => Agree.ok trivial
    cases o with
    | none => exact Agree.ok hm
    | some ign' =>
      refine Agree.bind (sub_agree _ _) fun stop _ _ => ?_
      refine Agree.ite (fun _ => Agree.ok hm) fun hlen => ?_
      refine Agree.same fun c' _ => ?_
      refine Agree.same fun chars _ => ?_
      cases zipLoop eq true p.text chars with
      | none => exact Agree.ok hm
      | some x =>
        obtain ⟨l, l'⟩ := x
        refine Agree.ite (fun _ => Agree.ok hm) fun _ => ?_
        refine finishExact_agree R hb p hwf hK eq scheme hm ?_
        simp only [Range.len] at hlen ⊢
        omega

end Exact

/-! ### `Fzf::score` and `Fzf::distance` -/

/-- What the comparison needs of an algorithm: `Inv` holds of its values, `fits eq p s` says that its vectors can get long
enough for the fuzzy pattern `p` on the candidate `s`, if characters are compared by `eq`. -/
structure ImplAgree {σ : Type} (B : Build) (P : Prop) (I J : FzfImpl σ) (Inv : σ → Prop)
    (fits : CharEq → Pattern → List Char → Prop) : Prop where
  charEq : I.charEq = J.charEq
  scheme : I.scheme = J.scheme
  bonus : ∀ {self}, Inv self → ∀ x y, 0 ≤ computeBonus x y (J.scheme self)
  alloc : ∀ {self s}, Inv self → strLen s < 2 ^ (B.bits - 1) → P ∨ strLen s ≤ B.limit .char →
    Agree P (fun r => Inv r.1 ∧ r.2 = s) (I.allocChars self s) (J.allocChars self s)
  fuzzy : ∀ {self p c m pre K}, Inv self → p.text.length < 2 ^ (B.bits - 1) → c.WF → strLen c.toChars ≤ K →
    K < 2 ^ (B.bits - 1) → ∀ R, RBd B P R pre K → RInv B pre K m → P ∨ fits (J.charEq self p) p c.toChars →
    Agree P (fun x => (Inv x.1 ∧ RInv B pre K x.2.1) ∧ fits (J.charEq self p) p c.toChars) (I.fuzzy R self p c m)
      (J.fuzzy R self p c m)

/-- The alternatives of a condition that are tried, if `M` are the patterns that match. -/
def TriedC (M : Pattern → Prop) (ps : List Pattern) (p : Pattern) : Prop :=
  ∃ l l', ps = l ++ p :: l' ∧ ∀ x ∈ l, ¬ M x

/-- The patterns that are tried, if `M` are those that match. -/
def TriedQ (M : Pattern → Prop) (cs : List Condition) (p : Pattern) : Prop :=
  ∃ ds d ds', cs = ds ++ d :: ds' ∧ (∀ e ∈ ds, ∃ x ∈ e, M x) ∧ TriedC M d p

theorem triedC_cons {M : Pattern → Prop} {p : Pattern} {ps : List Pattern} {x : Pattern} :
    TriedC M (p :: ps) x ↔ x = p ∨ (¬ M p ∧ TriedC M ps x) := by
  constructor
  · rintro ⟨l, l', h, hl⟩
    cases l with
    | nil => simp only [List.nil_append, List.cons.injEq] at h; exact Or.inl h.1.symm
    | cons y l =>
      simp only [List.cons_append, List.cons.injEq] at h
      obtain ⟨rfl, rfl⟩ := h
      exact Or.inr ⟨hl p (by simp), l, l', rfl, fun z hz => hl z (by simp [hz])⟩
  · rintro (rfl | ⟨h1, l, l', rfl, hl⟩)
    · exact ⟨[], ps, rfl, by simp⟩
    · refine ⟨p :: l, l', rfl, fun z hz => ?_⟩
      rcases List.mem_cons.mp hz with rfl | hz
      · exact h1
      · exact hl z hz

theorem triedQ_cons {M : Pattern → Prop} {d : Condition} {cs : List Condition} {x : Pattern} :
    TriedQ M (d :: cs) x ↔ TriedC M d x ∨ ((∃ y ∈ d, M y) ∧ TriedQ M cs x) := by
  constructor
  · rintro ⟨ds, e, ds', h, hl, hx⟩
    cases ds with
    | nil => simp only [List.nil_append, List.cons.injEq] at h; exact Or.inl (h.1 ▸ hx)
    | cons y l =>
      simp only [List.cons_append, List.cons.injEq] at h
      obtain ⟨rfl, rfl⟩ := h
      exact Or.inr ⟨hl d (by simp), l, e, ds', rfl, fun z hz => hl z (by simp [hz]), hx⟩
  · rintro (h | ⟨h1, l, e, l', rfl, hl, hx⟩)
    · exact ⟨[], d, cs, rfl, by simp, h⟩
    · refine ⟨d :: l, e, l', rfl, fun z hz => ?_, hx⟩
      rcases List.mem_cons.mp hz with rfl | hz
      · exact h1
      · exact hl z hz

/-- A pattern of an extended query. -/
def PatLen (B : Build) (p : Pattern) : Prop := p.text.length < 2 ^ (B.bits - 1) ∧ p.text ≠ []

section Generic
variable {σ : Type} {I J : FzfImpl σ} {Inv : σ → Prop} {fits : CharEq → Pattern → List Char → Prop}
  (hI : ImplAgree B P I J Inv fits) (hM : 2 * 2 ^ (B.bits - 1) = 2 ^ B.bits)
  {pre : List Range} {K : Nat} (R : Bool) (hb : RBd B P R pre K) (hK' : K < 2 ^ (B.bits - 1)) {c : Candidate}
  (hwf : c.WF) (hK : strLen c.toChars ≤ K)
include hI hM hb hK' hwf hK

theorem score_agree {self : σ} (hs : Inv self) {p : Pattern} (hp : PatLen B p)
    (hf : p.matchType = .fuzzy → P ∨ fits (J.charEq self p) p c.toChars) {m : MatchedRanges} (hm : RInv B pre K m) :
    Agree P (fun x => (Inv x.1 ∧ RInv B pre K x.2.1) ∧ (p.matchType = .fuzzy → fits (J.charEq self p) p c.toChars))
      (score B U I R self p c m) (J.score U R self p c m) := by
  obtain ⟨F, hF⟩ : ∃ F, F = (p.matchType = .fuzzy → fits (J.charEq self p) p c.toChars) := ⟨_, rfl⟩
  rw [← hF]
  unfold score FzfImpl.score
  dsimp only
  have hR : (if p.isInverse = true then false else R) = true → R = true := by split <;> simp
  generalize (if p.isInverse = true then false else R) = R' at hR
  have hx : ∀ (x : Res (MatchedRanges × Option Score)) (y : Res (MatchedRanges × Option Score)),
      Agree P (fun x => RInv B pre K x.1) x y →
      F →
      Agree P (fun (x : σ × MatchedRanges × Option Score) =>
          (Inv x.1 ∧ RInv B pre K x.2.1) ∧ F)
        (x >>= fun z => pure (self, z.1, z.2)) (y >>= fun z => pure (self, z.1, z.2)) :=
    fun x y h hk => Agree.bind h fun z hz _ => Agree.ok ⟨⟨hs, hz⟩, hk⟩
  have key : ∀ (x y : Res (σ × MatchedRanges × Option Score)),
      Agree P (fun x => (Inv x.1 ∧ RInv B pre K x.2.1) ∧ F) x y →
      Agree P (fun x => (Inv x.1 ∧ RInv B pre K x.2.1) ∧ F)
        (x >>= fun z => match z.2.2.isSome, p.isInverse with
          | true, false => (pure (z.1, z.2.1, z.2.2) : Res (σ × MatchedRanges × Option Score))
          | false, true => pure (z.1, z.2.1, some 0)
          | _, _ => pure (z.1, z.2.1, none))
        (y >>= fun z => match z.2.2.isSome, p.isInverse with
          | true, false => (pure (z.1, z.2.1, z.2.2) : Res (σ × MatchedRanges × Option Score))
          | false, true => pure (z.1, z.2.1, some 0)
          | _, _ => pure (z.1, z.2.1, none)) := by
    intro x y h
    refine Agree.bind h fun z hz _ => ?_
    cases z.2.2.isSome <;> cases p.isInverse <;> exact Agree.ok hz
  rw [hI.charEq, hI.scheme]
  cases hmt : p.matchType with
  | fuzzy => exact key _ _ ((hI.fuzzy hs hp.1 hwf hK hK' R' (hb.of hR) hm (hf hmt)).mono fun _ _ h => ⟨h.1, by rw [hF]; exact fun _ => h.2⟩)
  | exact =>
    have := key _ _ (hx _ _ (exactMatch_agree (U := U) R' (hb.of hR) p hwf hK (J.charEq self p) (J.scheme self) hm (hI.bonus hs)
      (show p.text.length < 2 ^ B.bits by have := hp.1; omega)) (by rw [hF, hmt]; nofun))
    simp only [Res.bind_assoc, Res.pure_def, Res.bind_ok] at this ⊢
    exact this
  | prefixExact =>
    have := key _ _ (hx _ _ (prefixMatch_agree (U := U) R' (hb.of hR) p hwf hK (J.charEq self p) (J.scheme self) hm hp.1 hK' hM) (by rw [hF, hmt]; nofun))
    simp only [Res.bind_assoc, Res.pure_def, Res.bind_ok] at this ⊢
    exact this
  | suffixExact =>
    have := key _ _ (hx _ _ (suffixMatch_agree (U := U) R' (hb.of hR) p hwf hK (J.charEq self p) (J.scheme self) hm) (by rw [hF, hmt]; nofun))
    simp only [Res.bind_assoc, Res.pure_def, Res.bind_ok] at this ⊢
    exact this
  | equalExact =>
    have := key _ _ (hx _ _ (equalMatch_agree (U := U) R' (hb.of hR) p hwf hK (J.charEq self p) (J.scheme self) hm) (by rw [hF, hmt]; nofun))
    simp only [Res.bind_assoc, Res.pure_def, Res.bind_ok] at this ⊢
    exact this

variable {has : σ → Settings → Prop} {pf : PureFuzzy} (hr : Refines U J has pf) {st : Settings}
include hr

theorem scoreCondition_agree : ∀ (ps : List Pattern) (self : σ) (m : MatchedRanges), Inv self → has self st → RInv B pre K m →
    (∀ p ∈ ps, PatLen B p) →
    (∀ p, TriedC (fun p => (patHit U pf st c.toChars p).isSome = true) ps p → p.matchType = .fuzzy →
      P ∨ fits (st.eqOf p) p c.toChars) →
    Agree P (fun x => (Inv x.1 ∧ RInv B pre K x.2.1) ∧
        ∀ p, TriedC (fun p => (patHit U pf st c.toChars p).isSome = true) ps p → p.matchType = .fuzzy →
          fits (st.eqOf p) p c.toChars)
      (scoreCondition B U I R c ps self m) (J.scoreCondition U R c ps self m) := by
  intro ps
  induction ps with
  | nil =>
    intro self m hs _ hm _ _
    refine Agree.ok ⟨⟨hs, hm⟩, ?_⟩
    rintro p ⟨l, l', h, _⟩
    simp at h
  | cons p ps ih =>
    intro self m hs hh hm hp hf
    unfold scoreCondition FzfImpl.scoreCondition
    refine Agree.bind (score_agree hI hM R hb hK' hwf hK hs (hp p (by simp)) (fun hk => ?_) hm) fun x hx hxe => ?_
    · rw [hr.eq self st p hh]
      exact hf p (triedC_cons.mpr (Or.inl rfl)) hk
    rw [hr.eq self st p hh] at hx
    obtain ⟨⟨this, rfl, hsep, _⟩, _⟩ := id hm
    obtain ⟨self1, hh1, h1⟩ := score_eq hr R hh (hp p (by simp)).2 hwf pre this hsep
    rw [h1] at hxe
    obtain rfl := Res.ok.inj hxe
    cases hhit : patHit U pf st c.toChars p with
    | some y =>
      rw [hhit] at hx
      refine Agree.ok ⟨hx.1, fun z hz => ?_⟩
      rcases triedC_cons.mp hz with rfl | ⟨hn, _⟩
      · exact hx.2
      · rw [hhit] at hn; exact absurd rfl hn
    | none =>
      rw [hhit] at hx
      have hn : ¬ (patHit U pf st c.toChars p).isSome = true := by rw [hhit]; simp
      refine (ih self1 _ hx.1.1 hh1 hx.1.2 (fun p hp' => hp p (by simp [hp']))
        (fun z hz => hf z (triedC_cons.mpr (Or.inr ⟨hn, hz⟩)))).mono fun w _ hw => ⟨hw.1, fun z hz => ?_⟩
      rcases triedC_cons.mp hz with rfl | ⟨_, hz⟩
      · exact hx.2
      · exact hw.2 z hz

theorem scoreConditions_agree : ∀ (cs : List Condition) (self : σ) (m : MatchedRanges) (total : Score), Inv self →
    has self st → RInv B pre K m → (∀ d ∈ cs, ∀ p ∈ d, PatLen B p) →
    (∀ p, TriedQ (fun p => (patHit U pf st c.toChars p).isSome = true) cs p → p.matchType = .fuzzy →
      P ∨ fits (st.eqOf p) p c.toChars) →
    Agree P (fun x => (Inv x.1 ∧ RInv B pre K x.2.1) ∧
        ∀ p, TriedQ (fun p => (patHit U pf st c.toChars p).isSome = true) cs p → p.matchType = .fuzzy →
          fits (st.eqOf p) p c.toChars)
      (scoreConditions B U I R c cs self m total) (J.scoreConditions U R c cs self m total) := by
  intro cs
  induction cs with
  | nil =>
    intro self m total hs _ hm _ _
    refine Agree.ok ⟨⟨hs, hm⟩, ?_⟩
    rintro p ⟨l, d, l', h, _⟩
    simp at h
  | cons d cs ih =>
    intro self m total hs hh hm hp hf
    unfold scoreConditions FzfImpl.scoreConditions
    refine Agree.bind (scoreCondition_agree hI hM R hb hK' hwf hK hr d self m hs hh hm (hp d (by simp))
      fun p hp => hf p (triedQ_cons.mpr (Or.inl hp))) fun x hx hxe => ?_
    obtain ⟨⟨this, rfl, hsep, _⟩, _⟩ := id hm
    obtain ⟨self1, hh1, h1⟩ := scoreCondition_eq hr R hwf pre this hsep d self hh fun p hp' => (hp d (by simp) p hp').2
    rw [h1] at hxe
    obtain rfl := Res.ok.inj hxe
    have hany : (condHit U pf st c.toChars d).isSome = true ↔ ∃ y ∈ d, (patHit U pf st c.toChars y).isSome = true := by
      unfold condHit
      rw [List.findSome?_isSome_iff]
    cases hhit : condHit U pf st c.toChars d with
    | none =>
      rw [hhit] at hx
      refine Agree.ok ⟨hx.1, fun z hz => ?_⟩
      rcases triedQ_cons.mp hz with hz | ⟨hn, _⟩
      · exact hx.2 z hz
      · rw [← hany, hhit] at hn; cases hn
    | some y =>
      rw [hhit] at hx hany
      have hn := hany.mp rfl
      refine (ih self1 _ _ hx.1.1 hh1 hx.1.2 (fun d hd => hp d (by simp [hd]))
        (fun z hz => hf z (triedQ_cons.mpr (Or.inr ⟨hn, hz⟩)))).mono fun w _ hw => ⟨hw.1, fun z hz => ?_⟩
      rcases triedQ_cons.mp hz with hz | ⟨_, hz⟩
      · exact hx.2 z hz
      · exact hw.2 z hz

end Generic

/-- The patterns of a query that are tried, if `M` are those that match. -/
def QueryTried (M : Pattern → Prop) : FzfQuery → Pattern → Prop
  | .notExtended p', p => p = p'
  | .extended cs, p => TriedQ M cs p

theorem distance_agree {σ : Type} {I J : FzfImpl σ} {Inv : σ → Prop} {fits : CharEq → Pattern → List Char → Prop}
    (hI : ImplAgree B P I J Inv fits) (hM : 2 * 2 ^ (B.bits - 1) = 2 ^ B.bits) {has : σ → Settings → Prop} {pf : PureFuzzy}
    (hr : Refines U J has pf) {st : Settings} (R : Bool) {self : σ} (hs : Inv self) (hh : has self st)
    {q : FzfQuery} (hok : Spec.QueryOk U q) (hlen : ∀ p ∈ Spec.patterns q, p.text.length < 2 ^ (B.bits - 1)) {s : List Char}
    (hf : q.isEmpty = false → ∀ p, QueryTried (fun p => (patHit U pf st s p).isSome = true) q p → p.matchType = .fuzzy →
      P ∨ fits (st.eqOf p) p s) (hmem : strLen s < 2 ^ (B.bits - 1))
    (hgc : strIsAscii s = false → P ∨ strLen s ≤ B.limit .char) {buf : List Range} (hb : RBd B P R buf (strLen s)) :
    Agree P (fun x => (Inv x.1 ∧ x.2.1.length ≤ B.limit .range) ∧ (q.isEmpty = false → ∀ p, QueryTried (fun p => (patHit U pf st s p).isSome = true) q p →
      p.matchType = .fuzzy → fits (st.eqOf p) p s)) (distance B U I R self q s buf) (J.distance U R self q s buf) := by
  unfold distance FzfImpl.distance
  refine Agree.ite (fun he => Agree.ok ⟨⟨hs, hb.init⟩, fun h => by rw [he] at h; cases h⟩) fun hne => ?_
  replace hne : q.isEmpty = false := by simpa using hne
  replace hf := hf hne
  have key : ∀ (self : σ) (c : Candidate), Inv self → has self st → c.WF → c.toChars = s →
      Agree P (fun (x : σ × List Range × Option FzfDistance) => (Inv x.1 ∧ x.2.1.length ≤ B.limit .range) ∧ (q.isEmpty = false → ∀ p,
          QueryTried (fun p => (patHit U pf st s p).isSome = true) q p → p.matchType = .fuzzy → fits (st.eqOf p) p s))
        (do
          let ranges := MatchedRanges.ofVec buf
          let (self, ranges, s) ←
            match q with
            | .notExtended pattern => I.fuzzy R self pattern c ranges
            | .extended conditions => scoreConditions B U I R c conditions self ranges 0
          return (self, ranges.ranges, s.map FzfDistance.fromScore))
        (do
          let ranges := MatchedRanges.ofVec buf
          let (self, ranges, s) ←
            match q with
            | .notExtended pattern => J.fuzzy R self pattern c ranges
            | .extended conditions => J.scoreConditions U R c conditions self ranges 0
          return (self, ranges.ranges, s.map FzfDistance.fromScore)) := by
    intro self c hs hh hwf hc
    subst hc
    cases q with
    | notExtended p =>
      have hk : p.matchType = .fuzzy := by
        have h : p = Spec.mkPattern U p.isInverse .fuzzy p.text := hok
        rw [h]
        rfl
      have hl := hlen p (by simp [Spec.patterns])
      have hff := hf p rfl hk
      rw [← hr.eq self st p hh] at hff
      refine Agree.bind (hI.fuzzy hs hl hwf (Nat.le_refl _) hmem R hb (RInv.ofVec _ hb.init) hff) fun x hx _ => ?_
      refine Agree.ok ⟨⟨hx.1.1, hx.1.2.2⟩, fun _ z hz _ => ?_⟩
      obtain rfl : z = p := hz
      rw [← hr.eq self st z hh]
      exact hx.2
    | extended cs =>
      have hp : ∀ d ∈ cs, ∀ p ∈ d, PatLen B p := fun d hd p hp =>
        ⟨hlen p (List.mem_flatten.mpr ⟨d, hd, hp⟩), ((hok d hd).2 p hp).1⟩
      refine Agree.bind (scoreConditions_agree hI hM R hb hmem hwf (Nat.le_refl _) hr cs self _ 0 hs hh (RInv.ofVec _ hb.init) hp
        hf) fun x hx _ => ?_
      exact Agree.ok ⟨⟨hx.1.1, hx.1.2.2⟩, fun _ => hx.2⟩
  by_cases ha : strIsAscii s = true
  · simp only [if_pos ha]
    obtain ⟨h1, h2⟩ := ascii_candidate ha
    exact key self _ hs hh h1 h2
  · simp only [if_neg ha, Res.bind_assoc]
    refine Agree.bind (hI.alloc hs hmem (hgc (by simpa using ha))) fun x hx hxe => ?_
    obtain ⟨self', h1, h2⟩ := hr.alloc self st s hh
    rw [h1] at hxe
    obtain rfl := Res.ok.inj hxe
    exact key self' (.unicode s) hx.1 h2 trivial rfl

/-! ### `fzf_v1.rs` -/

theorem forwardLoop_agree {c : Candidate} (hn : c.toChars.length < 2 ^ B.bits) (opts : CandidateOpts) :
    ∀ (rest : List Char) (pc : Char) (off : Nat),
    Agree P (fun _ => True) (forwardLoop B c opts rest pc off) (Norm.forwardLoop c opts rest pc off) := by
  intro rest
  induction rest with
  | nil =>
    intro pc off
    unfold forwardLoop Norm.forwardLoop
    refine Agree.bind (findFirstFrom_agree hn _ _ _ _) fun o ho _ => ?_
    cases o with
    | none => exact Agree.ok trivial
    | some i =>
      have := ho i rfl
      refine Agree.skip (usize_ok (by omega)) ?_
      exact Agree.ok trivial
  | cons next rest ih =>
    intro pc off
    unfold forwardLoop Norm.forwardLoop
    refine Agree.bind (findFirstFrom_agree hn _ _ _ _) fun o ho _ => ?_
    cases o with
    | none => exact Agree.ok trivial
    | some i =>
      have := ho i rfl
      refine Agree.skip (usize_ok (by omega)) ?_
      exact ih next (i + 1)

/-- What holds of every `FzfV1` in a build. -/
def InvV1 (B : Build) (m : FzfV1) : Prop :=
  m.candidateSlab.length ≤ B.limit .char ∧ ∃ S : FzfScheme, m.scoringScheme = S.intoInner

theorem implV1_agree (hB : Spec.BuildOk B) (hM : 2 * 2 ^ (B.bits - 1) = 2 ^ B.bits) :
    ImplAgree B P (implV1 B U) (FzfV1.impl U) (InvV1 B) (fun _ _ _ => True) where
  charEq := rfl
  scheme := rfl
  bonus := by
    intro self h x y
    obtain ⟨_, S, hS⟩ := h
    simp only [FzfV1.impl, hS]
    exact computeBonus_nonneg S x y
  alloc := by
    intro self s h hs hg
    have := hB.hi .char
    refine Agree.bind (candidateAlloc_agree (by omega) h.1 hg) fun x hx _ => ?_
    obtain ⟨slab, chars⟩ := x
    exact Agree.ok ⟨⟨hx.1, h.2⟩, hx.2⟩
  fuzzy := by
    intro self p c m pre K h hp hwf hK hK' R hb hm _
    have hlen := length_le_strLen c.toChars
    show Agree P _ (fuzzyV1 B U R self p c m) (FzfV1.fuzzy U R self p c m)
    unfold fuzzyV1 FzfV1.fuzzy
    dsimp only
    refine Agree.bind (Q := fun _ => True) ?_ fun o _ _ => ?_
    · unfold forwardPass Norm.forwardPass
      cases p.text with
      | nil => exact Agree.ok trivial
      | cons pc rest => exact forwardLoop_agree (by omega) _ rest pc 0
    cases o with
    | none => exact Agree.ok ⟨⟨h, hm⟩, trivial⟩
    | some e =>
      refine Agree.same fun a _ => ?_
      refine Agree.bind (computeScore_agree R hb p hwf hK _ _ _ hm) fun x hx _ => ?_
      obtain ⟨m', sc⟩ := x
      exact Agree.ok ⟨⟨h, hx.1⟩, trivial⟩

end Norm.Usize
