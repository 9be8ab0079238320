import Verif.Proofs.StepsCalls

/-!
# Helper lemmas: an exact pattern can take as many steps as the product of the lengths

The pattern `a…ab` with `k` letters `a`, and a candidate consisting of `a`s only. -/

namespace Norm

open Spec Timed

theorem le_steps_bind {α β : Type} (x : Timed α) (f : α → Timed β) : x.steps ≤ (x >>= f).steps := by
  cases h : x.res with
  | ok a => rw [steps_bind_ok h]; exact Nat.le_add_right _ _
  | panic => rw [steps_bind_panic h]; exact Nat.le_refl _

theorem le_steps_bind_ok {α β : Type} {x : Timed α} {f : α → Timed β} {a : α} {n : Nat} (h : x.res = .ok a) (hn : n ≤ (f a).steps) :
    n ≤ (x >>= f).steps := by
  rw [steps_bind_ok h]; omega

theorem tick_bind_eq {β : Type} (n : Nat) (f : Unit → Timed β) : (tick n >>= f) = ⟨(f ()).res, n + (f ()).steps⟩ := rfl

theorem free_bind_eq {α β : Type} (a : α) (f : α → Timed β) : (free (.ok a) >>= f) = f a := by
  show Timed.mk _ _ = _
  simp only [Timed.free, Nat.zero_add]

variable {U : Unicode} {p : Pattern} {eq : CharEq} {S : Scheme} {k : Nat}

theorem exactInner_lower_pos (hp : p.text = List.replicate k 'a' ++ ['b']) (ha : eq 'a' 'a' = true) (hb : eq 'b' 'a' = false)
    (cur : Nat) : ∀ (i l off : Nat) (st : ExactState), 0 < st.patternCharIdx → st.patternCharIdx + i = k →
    ∃ st', Timed.exactInner U p eq S cur (List.replicate (i + 1 + l) 'a') off st = ⟨.ok (.done (List.replicate l 'a'), st'), 2 * (i + 1)⟩ ∧
      st'.startOffset = st.startOffset := by
  intro i
  induction i with
  | zero =>
    intro l off st hpos hk
    have hch : p.char st.patternCharIdx = .ok 'b' := by
      unfold Pattern.char
      rw [hp]
      simp [getR, show st.patternCharIdx = k by omega]
    refine ⟨st, ?_, rfl⟩
    rw [show 0 + 1 + l = l + 1 by omega, List.replicate_succ, Timed.exactInner, hch]
    rw [tick_bind_eq, free_bind_eq, if_neg (by simp [hb]), if_pos hpos]
    rfl
  | succ i ih =>
    intro l off st hpos hk
    have hch : p.char st.patternCharIdx = .ok 'a' := by
      unfold Pattern.char
      rw [hp]
      simp [getR, List.getElem?_append, show st.patternCharIdx < k by omega]
    have hne : (st.patternCharIdx == 0) = false := by simp; omega
    have hne' : (st.patternCharIdx + 1 == p.charLen) = false := by
      simp [Pattern.charLen, hp]; omega
    obtain ⟨st', h1, h2⟩ := ih l (off + 1) { st with patternCharIdx := st.patternCharIdx + 1, prevClass := charClass U 'a' S }
      (by dsimp only; omega) (by dsimp only; omega)
    refine ⟨st', ?_, h2⟩
    rw [show i + 1 + 1 + l = (i + 1 + l) + 1 by omega, List.replicate_succ, Timed.exactInner, hch]
    rw [tick_bind_eq, free_bind_eq, if_pos ha]
    simp only [hne, hne', Bool.false_eq_true, if_false, h1]
    congr 1
    omega

theorem exactInner_lower (hp : p.text = List.replicate k 'a' ++ ['b']) (hk : 0 < k) (ha : eq 'a' 'a' = true) (hb : eq 'b' 'a' = false)
    (cur l : Nat) (st : ExactState) (hst : st.patternCharIdx = 0) :
    ∃ st', Timed.exactInner U p eq S cur (List.replicate (k + 1 + l) 'a') 0 st = ⟨.ok (.done (List.replicate l 'a'), st'), 2 * (k + 1)⟩ ∧
      st'.startOffset = st.startOffset + 1 := by
  have hch : p.char st.patternCharIdx = .ok 'a' := by
    unfold Pattern.char
    rw [hp, hst]
    simp [getR, hk]
  have hne' : (0 + 1 == p.charLen) = false := by
    simp [Pattern.charLen, hp]; omega
  obtain ⟨st', h1, h2⟩ := exactInner_lower_pos (U := U) (S := S) hp ha hb cur (k - 1) l 1
    { st with
      bonusStart := cur + 0
      startOffset := st.startOffset + (0 + 1)
      currentBonus := computeBonus st.prevClass (charClass U 'a' S) S
      patternCharIdx := 0 + 1, prevClass := charClass U 'a' S }
    (by dsimp only; omega) (by dsimp only; omega)
  refine ⟨st', ?_, h2⟩
  rw [show k - 1 + 1 + l = k + l by omega] at h1
  rw [show k + 1 + l = (k + l) + 1 by omega, List.replicate_succ, Timed.exactInner, hch]
  rw [tick_bind_eq, free_bind_eq, if_pos ha]
  simp only [hst, hne', Bool.false_eq_true, if_false, beq_self_eq_true, if_true, h1]
  congr 1
  omega

theorem exactOuter_lower (hp : p.text = List.replicate k 'a' ++ ['b']) (hk : 0 < k) (ha : eq 'a' 'a' = true) (hb : eq 'b' 'a' = false)
    {c : Candidate} {N : Nat} (hc : ∀ off ≤ N, c.charsFrom off = .ok (List.replicate (N - off) 'a')) : ∀ (l fuel : Nat) (st : ExactState),
    l < fuel → st.startOffset + (k + 1 + l) = N →
    2 * (k + 1) * l ≤ (Timed.exactOuter U p c eq S fuel st).steps := by
  intro l
  induction l with
  | zero => intro fuel st _ _; rw [Nat.mul_zero]; exact Nat.zero_le _
  | succ l ih =>
    intro fuel st hf hN
    cases fuel with
    | zero => omega
    | succ fuel =>
      unfold Timed.exactOuter
      dsimp only
      have hcf := hc st.startOffset (by omega)
      rw [show N - st.startOffset = k + 1 + (l + 1) by omega] at hcf
      obtain ⟨st', h1, h2⟩ := exactInner_lower (U := U) (S := S) hp hk ha hb st.startOffset (l + 1)
        { st with bonusStart := 0, currentBonus := 0, patternCharIdx := 0 } rfl
      dsimp only at h2
      have := ih fuel st' (by omega) (by omega)
      refine le_steps_bind_ok (a := List.replicate (k + 1 + (l + 1)) 'a') (by rw [res_free]; exact hcf) ?_
      rw [h1, steps_bind_ok (a := (ExactExit.done (List.replicate (l + 1) 'a'), st')) rfl]
      rw [List.replicate_succ]
      dsimp only
      rw [Nat.mul_add]
      omega

theorem exactMatch_lower (R : Bool) (hp : p.text = List.replicate k 'a' ++ ['b']) (hk : 0 < k) (ha : eq 'a' 'a' = true)
    (hb : eq 'b' 'a' = false) {c : Candidate} {l : Nat} (hl : c.charLen = k + 1 + l)
    (hc : ∀ off ≤ k + 1 + l, c.charsFrom off = .ok (List.replicate (k + 1 + l - off) 'a')) (ranges : MatchedRanges) :
    2 * (k + 1) * l ≤ (Timed.exactMatch U R p c eq S ranges).steps := by
  unfold Timed.exactMatch
  rw [if_neg (by simp [Pattern.isEmpty, hp])]
  exact Nat.le_trans (exactOuter_lower hp hk ha hb hc l _ _ (by omega) (by simp)) (le_steps_bind _ _)

theorem replicate_ascii (n : Nat) : strIsAscii (List.replicate n 'a') = true :=
  (strIsAscii_iff _).mpr fun c hc => by rw [List.eq_of_mem_replicate hc]; rfl

theorem replicate_strLen (n : Nat) : strLen (List.replicate n 'a') = n := by
  unfold strLen
  rw [strBytes_ascii ((strIsAscii_iff _).mp (replicate_ascii n))]
  simp

theorem charEq_aa (b n : Bool) : charEq b n 'a' 'a' = true ∧ charEq b n 'b' 'a' = false := by
  cases b <;> cases n <;> decide +kernel

/-- A call with the query `'a…ab`. -/
theorem distance_lower {σ : Type} (T : TimedImpl σ) (R : Bool) (m : σ) (hp : p.text = List.replicate k 'a' ++ ['b']) (hk : 0 < k)
    (hmt : p.matchType = .exact) (hT : ∃ b n, T.charEq m p = charEq b n) (l : Nat) (buf : List Range) :
    2 * (k + 1) * l ≤ (T.distance U R m (single p) (List.replicate (k + 1 + l) 'a') buf).steps := by
  obtain ⟨b, n, hT⟩ := hT
  unfold TimedImpl.distance
  rw [if_neg (by simp [single, FzfQuery.isEmpty]), steps_tick_bind]
  refine Nat.le_trans ?_ (Nat.le_add_left _ _)
  rw [if_pos (replicate_ascii _), steps_pure_bind]
  obtain ⟨h1, h2⟩ := ascii_candidate (replicate_ascii (k + 1 + l))
  have h3 : (Candidate.ascii (strBytes (List.replicate (k + 1 + l) 'a'))).charLen = k + 1 + l := replicate_strLen _
  generalize Candidate.ascii (strBytes (List.replicate (k + 1 + l) 'a')) = c at h1 h2 h3
  dsimp only
  refine Nat.le_trans ?_ (le_steps_bind _ _)
  unfold TimedImpl.scoreConditions
  rw [steps_tick_bind]
  refine Nat.le_trans ?_ (Nat.le_add_left _ _)
  refine Nat.le_trans ?_ (le_steps_bind _ _)
  unfold TimedImpl.scoreCondition
  rw [steps_tick_bind]
  refine Nat.le_trans ?_ (Nat.le_add_left _ _)
  refine Nat.le_trans ?_ (le_steps_bind _ _)
  unfold TimedImpl.score
  rw [hmt]
  dsimp only
  refine Nat.le_trans ?_ (le_steps_bind _ _)
  rw [hT]
  refine exactMatch_lower _ hp hk (charEq_aa b n).1 (charEq_aa b n).2 h3 ?_ _
  intro off hoff
  rw [Candidate.charsFrom_eq, h2]
  unfold sliceFromR
  rw [List.length_replicate, if_pos hoff, List.drop_replicate]

end Norm
