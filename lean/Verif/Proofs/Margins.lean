import Verif.Proofs.V2Facts

/-! How much FzfV2's score can fall short of simplified and documented scores. -/

namespace Norm
open Spec

variable {B : Nat → Int} {eq : CharEq} {p s : List Char}

/-- The first position of an alignment can be moved right until no match of its character is skipped before the second. -/
theorem exists_tight {R : Char → Char → Prop} {q : Char} {j : Nat} : ∀ (n i : Nat), j - i = n → i < j → At R s q i →
    ∃ i', i ≤ i' ∧ i' < j ∧ At R s q i' ∧ ∀ k c, i' < k → k < j → s[k]? = some c → ¬ R q c := by
  intro n
  induction n using Nat.strongRecOn with
  | ind n ih =>
    intro i hn hij hi
    by_cases h : ∃ k c, i < k ∧ k < j ∧ s[k]? = some c ∧ R q c
    · obtain ⟨k, c, h1, h2, h3, h4⟩ := h
      obtain ⟨i', h5, h6⟩ := ih (j - k) (by omega) k rfl h2 ⟨c, h3, h4⟩
      exact ⟨i', by omega, h6⟩
    · refine ⟨i, Nat.le_refl _, hij, hi, ?_⟩
      intro k c h1 h2 h3 h4
      exact h ⟨k, c, h1, h2, h3, h4⟩

/-- C48, up to 17, for every alignment. -/
theorem v2Result_ge_margin (hB : ∀ i, 0 ≤ B i) (hB' : ∀ i, B i ≤ 10) (hp : p ≠ []) {ps : List Nat}
    (ha : Alignment (rel eq) p s ps) {x : List Nat × Int} (h : v2Result B eq p s = some x) :
    plainScore gapLinear B ps ≤ x.2 + 17 := by
  cases p with
  | nil => exact absurd rfl hp
  | cons q p =>
    obtain ⟨i, ps, rfl⟩ := alignment_cons_left ha
    cases ps with
    | nil =>
      have := v2Result_ge_linear hp ha (by intro i j q _ h2; simp at h2) h
      omega
    | cons j ps =>
      obtain ⟨h1, h2, h3⟩ := alignment_cons.mp ha
      obtain ⟨i', h4, h5, h6, h7⟩ := exists_tight (j - i) i rfl (h2 j (by simp)) h1
      have ha' : Alignment (rel eq) (q :: p) s (i' :: j :: ps) := by
        rw [alignment_cons]
        refine ⟨h6, ?_, h3⟩
        intro k hk
        rcases List.mem_cons.mp hk with rfl | hk
        · exact h5
        · have := (List.pairwise_cons.mp h3.increasing).1 k hk
          omega
      have h8 := v2Result_ge_linear hp ha' (by
        intro a b q' ha hb hq
        simp at ha hb hq
        subst ha hb hq
        exact h7) h
      simp only [plainScore, plainRest, gapLinear] at h8 ⊢
      by_cases hii : i' = i
      · subst hii; omega
      · have h9 := hB i'
        have h10 := hB' i
        omega

/-- The documented score against the simplified one: at most 10 more per further character, and 2 per skipped one. -/
theorem runScore_le_plain (hB : ∀ i, 0 ≤ B i) (hB' : ∀ i, B i ≤ 10) : ∀ (ps : List Nat) (prev : Nat) (run : Int),
    run ≤ 10 → (prev :: ps).Pairwise (· < ·) →
    runScore B prev run ps ≤ plainRest gapLinear B prev ps + 10 * ps.length +
      2 * (((ps.getLastD prev : Nat) : Int) - prev - ps.length) := by
  intro ps
  induction ps with
  | nil => intro prev run _ _; simp [runScore, plainRest]
  | cons i ps ih =>
    intro prev run hrun hps
    rw [List.pairwise_cons] at hps
    have hlt := hps.1 i (by simp)
    have h0 := hB i
    have h1 := hB' i
    simp only [runScore, plainRest, gapLinear, List.getLastD_cons, List.length_cons]
    split
    · have := ih i (if B i ≥ 8 ∧ B i > run then B i else run) (by split <;> omega) hps.2
      push_cast
      have h2 : max (max (B i) (if B i ≥ 8 ∧ B i > run then B i else run)) 4 ≤ 10 := by split <;> omega
      omega
    · have := ih i (B i) h1 hps.2
      push_cast
      omega

theorem getLastD_mem : ∀ (l : List Nat) (a : Nat), l.getLastD a ∈ a :: l := by
  intro l
  induction l with
  | nil => intro a; simp
  | cons b l ih => intro a; rw [List.getLastD_cons]; exact List.mem_cons_of_mem _ (ih b)

/-- The documented score of an alignment is at most the simplified one plus 10 for every character but the first and
2 for every skipped character. -/
theorem alignScore_le_plain (hB : ∀ i, 0 ≤ B i) (hB' : ∀ i, B i ≤ 10) (hp : p ≠ []) {R : Char → Char → Prop}
    {ps : List Nat} (ha : Alignment R p s ps) :
    alignScore B ps ≤ plainScore gapLinear B ps + 10 * ((p.length : Int) - 1) + 2 * ((s.length : Int) - p.length) := by
  have hl := ha.length_eq
  cases ps with
  | nil => exact absurd (List.length_eq_zero_iff.mp hl.symm) hp
  | cons i ps =>
    have h1 := runScore_le_plain hB hB' ps i (B i) (hB' i) ha.increasing
    have h2 : ps.getLastD i < s.length := ha.lt_length _ (getLastD_mem ps i)
    simp only [alignScore, plainScore]
    simp only [List.length_cons] at hl
    omega

end Norm
