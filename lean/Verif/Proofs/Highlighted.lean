import Verif.Proofs.V2Facts
import Verif.Proofs.V2Spec
import Verif.Proofs.Highlights
import Verif.Proofs.Api

/-! Something is highlighted: helper lemmas for C18 and C86. -/

namespace Norm
open Spec

section
variable {eq : CharEq} {w : List Char} {pat : Nat → Char} {fst : Nat → Nat} {b : Nat → Int}

/-- A score in the table is at most zero, or at most that of a matching column at or before it. -/
theorem dp_le_match {m : Nat} (hf : FirstOk eq w pat fst m) {r : Nat} (hr : r < m) :
    ∀ c, (dp eq w pat fst b r).1 c ≤ 0 ∨ ∃ c' ≤ c, dpM eq w pat fst r c' = true ∧ (dp eq w pat fst b r).1 c ≤ (dp eq w pat fst b r).1 c' := by
  intro c
  induction c with
  | zero =>
    cases r with
    | zero =>
      have := hf.hit 0 hr
      rw [hf.zero] at this
      exact .inr ⟨0, Nat.le_refl _, this, Int.le_refl _⟩
    | succ r => exact .inl (Int.le_refl _)
  | succ c ih =>
    by_cases hM : dpM eq w pat fst r (c + 1) = true
    · exact .inr ⟨c + 1, Nat.le_refl _, hM, Int.le_refl _⟩
    · have key : (dp eq w pat fst b r).1 (c + 1) ≤ 0 ∨ (dp eq w pat fst b r).1 (c + 1) ≤ (dp eq w pat fst b r).1 c := by
        cases r with
        | zero =>
          have := penGap_bounds w.length (dpM eq w pat fst 0) 0 (c + 1)
          right
          simp only [dp]
          conv_lhs => unfold rowH0
          rw [if_neg hM]
          omega
        | succ r =>
          have := penGap_bounds w.length (dpM eq w pat fst (r + 1)) (fst (r + 1)) (c + 1)
          simp only [dp]
          by_cases hc : c + 1 < fst (r + 1)
          · left
            unfold rowH
            rw [if_pos hc]
            exact Int.le_refl _
          · right
            conv_lhs => unfold rowH
            rw [if_neg hc, if_neg hM]
            omega
      rcases key with key | key
      · exact .inl key
      · rcases ih with ih | ⟨c', h1, h2, h3⟩
        · exact .inl (by omega)
        · exact .inr ⟨c', by omega, h2, by omega⟩

/-- The best cell is highlighted. -/
theorem tb_best {m : Nat} (hf : FirstOk eq w pat fst m) {r c : Nat} (hr : r < m) {h n : Nat} {C : Nat → Nat → Nat} {prefer : Bool}
    (h0 : 0 < (dp eq w pat fst b r).1 c)
    (hbest : ∀ r' c', r' ≤ r → dpM eq w pat fst r' c' = true → r' < r ∨ (r' = r ∧ c' < c) →
        (dp eq w pat fst b r').1 c' < (dp eq w pat fst b r).1 c) :
    ∃ l, tb h n (fun r => (dp eq w pat fst b r).1) C prefer r c = c :: l := by
  cases c with
  | zero =>
    unfold tb
    rw [if_pos h0]
    exact ⟨[], rfl⟩
  | succ c =>
    unfold tb
    rw [if_pos]
    · exact ⟨_, rfl⟩
    constructor
    · by_cases h1 : r = 0
      · rw [if_pos h1]; exact h0
      · rw [if_neg h1]
        rcases dp_le_match (b := b) hf (r := r - 1) (by omega) c with h2 | ⟨c', _, h2, h3⟩
        · omega
        · have := hbest (r - 1) c' (by omega) h2 (.inl (by omega))
          omega
    · left
      rcases dp_le_match (b := b) hf hr c with h2 | ⟨c', h1, h2, h3⟩
      · omega
      · have := hbest r c' (by omega) h2 (.inr ⟨rfl, by omega⟩)
        omega

theorem tb_length {h n : Nat} {H : Nat → Nat → Int} {C : Nat → Nat → Nat} : ∀ (col row : Nat) (prefer : Bool),
    (tb h n H C prefer row col).length ≤ row + 1 := by
  intro col
  induction col with
  | zero =>
    intro row prefer
    unfold tb
    split
    · simp
    · simp
  | succ c ih =>
    intro row prefer
    unfold tb
    by_cases hc : H row (c + 1) > (if row = 0 then 0 else H (row - 1) c) ∧
        (H row (c + 1) > H row c ∨ (H row (c + 1) = H row c ∧ prefer = true))
    · rw [if_pos hc]
      by_cases h0 : row = 0
      · rw [if_pos h0]
        simp
      · rw [if_neg h0]
        have := ih (row - 1) (decide (C row (c + 1) > 1 ∨ (row + 1 < h ∧ c + 2 < n ∧ C (row + 1) (c + 2) > 0)))
        rw [List.length_cons]
        omega
    · rw [if_neg hc]
      exact ih _ _

theorem tb_sorted {h n : Nat} {H : Nat → Nat → Int} {C : Nat → Nat → Nat} : ∀ (col row : Nat) (prefer : Bool),
    (tb h n H C prefer row col).Pairwise (· > ·) := by
  intro col
  induction col with
  | zero =>
    intro row prefer
    unfold tb
    split
    · simp
    · simp
  | succ c ih =>
    intro row prefer
    unfold tb
    by_cases hc : H row (c + 1) > (if row = 0 then 0 else H (row - 1) c) ∧
        (H row (c + 1) > H row c ∨ (H row (c + 1) = H row c ∧ prefer = true))
    · rw [if_pos hc]
      refine List.pairwise_cons.mpr ⟨fun i hi => ?_, ?_⟩
      · split at hi
        · cases hi
        · have := tb_le i hi
          omega
      · split
        · simp
        · exact ih _ _
    · rw [if_neg hc]
      exact ih _ _

end

section
variable {B : Nat → Int} {eq : CharEq} {p s : List Char}

/-- What FzfV2 highlights, without any restriction: the last character highlighted is the last one of the best cell. -/
theorem v2Result_last (hB : ∀ i, 0 ≤ B i) (hp : p ≠ []) {x : List Nat × Int} (h : v2Result B eq p s = some x) :
    ∃ k i l c, k < p.length ∧ x.1 = i :: l ∧ s[i]? = some c ∧ eq (p.getD k 'a') c = true ∧ x.1.Pairwise (· > ·) ∧ x.1.length ≤ k + 1 := by
  have hpl := List.length_pos_iff.mpr hp
  unfold v2Result at h
  split at h
  · rename_i h1
    obtain ⟨i, c, rfl, hc, hq, _⟩ := singleResult_some h
    obtain ⟨q, rfl⟩ := List.length_eq_one_iff.mp h1
    exact ⟨0, i, [], c, by simp, rfl, hc, hq, by simp, by simp⟩
  · cases hg : greedyFrom eq s p 0 with
    | none => rw [hg] at h; simp at h
    | some g =>
      rw [hg] at h
      obtain rfl := Option.some.inj h
      have hf := v2_firstOk hp hg
      obtain ⟨hW, _⟩ := windowOk hp hg
      have hge := v2Best_ge hB hp hg (p.length - 1)
      obtain ⟨r, c, hr, hM, he, hfirst⟩ := dpBest_first (eq := eq) (w := v2Chars eq p s g) (pat := fun r => p.getD r 'a')
        (fst := v2Fst eq p s g) (b := fun i => B ((v2Window eq p s g).1 + i)) (p.length - 1) (by
          intro h
          unfold v2Best at hge
          rw [h] at hge
          simp only at hge
          omega)
      obtain ⟨hc1, hc2⟩ := dpM_lt hM
      have h0 : 0 < (dp eq (v2Chars eq p s g) (fun r => p.getD r 'a') (v2Fst eq p s g)
          (fun i => B ((v2Window eq p s g).1 + i)) r).1 c := by
        unfold v2Best at hge
        rw [he] at hge
        simp only at hge
        omega
      obtain ⟨l, hl⟩ := tb_best hf (r := r) (c := c) (by omega) (h := p.length) (n := (v2Chars eq p s g).length)
        (C := fun i => (v2Dp B eq p s g i).2) (prefer := true) h0 fun r' c' h1 h2 h3 => hfirst r' c' (by omega) h2 h3
      have ht : v2Trace B eq p s g = (tb p.length (v2Chars eq p s g).length (fun i => (v2Dp B eq p s g i).1)
          (fun i => (v2Dp B eq p s g i).2) true r c).map ((v2Window eq p s g).1 + ·) := by
        unfold v2Trace v2Best
        rw [he]
        simp only
        rw [Nat.mul_comm, Nat.mul_add_div (by omega), Nat.mul_add_mod, Nat.mod_eq_of_lt hc2, Nat.div_eq_of_lt hc2, Nat.add_zero]
      obtain ⟨_, y, hy, hm⟩ := matchAt_iff.mp hM
      have hl' : tb p.length (v2Chars eq p s g).length (fun i => (v2Dp B eq p s g i).1) (fun i => (v2Dp B eq p s g i).2) true r c =
        c :: l := hl
      refine ⟨r, (v2Window eq p s g).1 + c, l.map ((v2Window eq p s g).1 + ·), y, by omega, ?_, ?_, hm, ?_, ?_⟩
      · show v2Trace B eq p s g = _
        rw [ht, hl']
        rfl
      · rw [← hW.getw _ hc2]; exact hy
      · show (v2Trace B eq p s g).Pairwise _
        rw [ht, List.pairwise_map]
        exact (tb_sorted _ _ _).imp fun h => by omega
      · show (v2Trace B eq p s g).length ≤ _
        rw [ht, List.length_map]
        exact tb_length _ _ _

end

section
variable {U : Unicode} {a : Algo} {st : Settings} {s : List Char} {p : Pattern}

/-- A fuzzy match highlights something. -/
theorem pureOf_ne {B : Nat → Int} {eq : CharEq} {p s : List Char} (hB : ∀ i, 0 ≤ B i) (hp : p ≠ []) {x : List Nat × Int}
    (h : pureOf a B eq p s = some x) : x.1 ≠ [] := by
  cases a with
  | v1 =>
    simp only [pureOf, v1Result, Option.map_eq_some_iff] at h
    obtain ⟨g, hg, rfl⟩ := h
    obtain ⟨a, _, _, h1, _⟩ := v1Align_some hp hg
    rintro rfl
    cases h1
  | v2 =>
    obtain ⟨_, i, l, _, _, h1, _⟩ := v2Result_last hB hp h
    rw [h1]
    exact List.cons_ne_nil _ _

/-- A pattern's match highlights something, unless it is negated. -/
theorem patHit_empty (hp : p.text ≠ []) {h : List Range × Int} (hh : patHit U (pureOf a) st s p = some h) :
    h.1 = [] ↔ p.isInverse = true := by
  rcases patHit_shape hp hh with ⟨h1, h2⟩ | ⟨h1, hk, -⟩ | ⟨h1, _, r, -, h2⟩
  · exact ⟨fun _ => h1, fun _ => h2⟩
  · rw [h1]
    refine ⟨fun he => ?_, fun he => Bool.noConfusion he⟩
    unfold patHit rawHit at hh
    simp only [h1, hk, Bool.false_eq_true, if_false, Option.map_eq_some_iff] at hh
    obtain ⟨x, hx, rfl⟩ := hh
    exact absurd (List.map_eq_nil_iff.mp he) (pureOf_ne (posBonus_nonneg U st.scheme s) hp hx)
  · rw [h1, h2]
    exact ⟨fun h => absurd h (List.cons_ne_nil _ _), fun h => Bool.noConfusion h⟩

theorem glueAfter_ne (o : Option Range) (l : List Range) (r : Range) : glueAfter o l r ≠ [] := by
  unfold glueAfter
  repeat' split
  all_goals simp

theorem pinsert_ne (l : List Range) (r : Range) : pinsert l r ≠ [] := by
  cases l with
  | nil => simp [pinsert]
  | cons x l =>
    unfold pinsert
    split
    · exact glueAfter_ne _ _ _
    · split
      · unfold glueFound
        repeat' split
        all_goals simp
      · split
        · exact glueAfter_ne _ _ _
        · split
          · exact glueAfter_ne _ _ _
          · simp

theorem insertAll_ne {rs : List Range} : ∀ {l : List Range}, l ≠ [] → insertAll l rs ≠ [] := by
  induction rs with
  | nil => exact fun h => h
  | cons r rs ih => exact fun _ => ih (pinsert_ne _ _)

theorem insertAll_empty {rs : List Range} : insertAll [] rs = [] ↔ rs = [] := by
  cases rs with
  | nil => simp
  | cons r rs => exact ⟨fun h => absurd h (insertAll_ne (rs := rs) (pinsert_ne [] r)),
    fun h => absurd h (List.cons_ne_nil _ _)⟩

end

end Norm
