import Verif.Proofs.Exact
import Verif.SpecExact

/-! The classes that the search for an exact pattern sees. -/

namespace Norm
open Spec

variable {U : Unicode} {sch : Scheme} {eq : CharEq}

theorem matchLen_le {R : Char → Char → Prop} {p s : List Char} {i l : Nat} (h : MatchLen R p s i l) : l ≤ p.length := by
  by_contra hcon
  obtain ⟨q, c, hq, _⟩ := h.1 p.length (by omega)
  simp at hq

theorem restClass_eq : ∀ (p l : List Char) (k : Nat) (pc : CharClass), MatchLen (rel eq) p l 0 k →
    (min k (p.length - 1) = 0 → restClass U sch eq p l pc = pc) ∧
    ∀ c, 0 < min k (p.length - 1) → l[min k (p.length - 1) - 1]? = some c →
      restClass U sch eq p l pc = charClass U c sch := by
  intro p
  induction p with
  | nil => intro l k pc _; exact ⟨fun _ => rfl, fun c h => by simp at h⟩
  | cons q p ih =>
    intro l k pc hk
    have hle := matchLen_le hk
    cases l with
    | nil =>
      refine ⟨fun _ => rfl, fun c _ h => by simp at h⟩
    | cons c l =>
      by_cases hp : p = []
      · subst hp
        refine ⟨fun _ => by simp [restClass], fun c h => by simp at h⟩
      · have hpl := List.length_pos_iff.mpr hp
        simp only [restClass, if_neg hp, List.length_cons, Nat.add_sub_cancel]
        cases k with
        | zero =>
          have : ¬ eq q c = true := hk.2 q c (by simp) (by simp)
          rw [if_neg this]
          exact ⟨fun _ => rfl, fun c h => by omega⟩
        | succ k =>
          have h0 : eq q c = true := by
            obtain ⟨q', c', h1, h2, h3⟩ := hk.1 0 (by omega)
            simp at h1 h2
            subst h1 h2
            exact h3
          rw [if_pos h0]
          have hk' : MatchLen (rel eq) p l 0 k := by
            refine ⟨?_, ?_⟩
            · intro j hj
              have := hk.1 (j + 1) (by omega)
              simpa using this
            · have := hk.2
              simpa using this
          obtain ⟨h1, h2⟩ := ih l k (charClass U c sch) hk'
          refine ⟨fun h => by omega, ?_⟩
          intro d _ hd
          by_cases hz : min k (p.length - 1) = 0
          · rw [h1 hz]
            have : min (k + 1) p.length = 1 := by omega
            rw [this] at hd
            simp at hd
            rw [hd]
          · refine h2 d (by omega) ?_
            rw [show min (k + 1) p.length - 1 = (min k (p.length - 1) - 1) + 1 by omega, List.getElem?_cons_succ] at hd
            exact hd

theorem exists_matchLen {R : Char → Char → Prop} (p s : List Char) (i : Nat) : ∃ l, MatchLen R p s i l := by
  classical
  by_contra hcon
  have key : ∀ l, ∀ k < l, ∃ q c, p[k]? = some q ∧ s[i + k]? = some c ∧ R q c := by
    intro l
    induction l with
    | zero => intro k hk; omega
    | succ l ih =>
      intro k hk
      by_cases hkl : k < l
      · exact ih k hkl
      · obtain rfl : k = l := by omega
        by_contra h
        exact hcon ⟨k, ih, fun q c hq hc hR => h ⟨q, c, hq, hc, hR⟩⟩
  obtain ⟨q, _, hq, _⟩ := key (p.length + 1) p.length (by omega)
  simp at hq

theorem matchLen_drop {R : Char → Char → Prop} {p s : List Char} {i l : Nat} :
    MatchLen R p s i l ↔ MatchLen R p (s.drop i) 0 l := by
  simp only [MatchLen, List.getElem?_drop, Nat.zero_add]

theorem matchLen_zero {q : Char} {qs s : List Char} {i : Nat} {c : Char} (hc : s[i]? = some c) :
    MatchLen (rel eq) (q :: qs) s i 0 ↔ ¬ eq q c = true := by
  simp [MatchLen, hc, rel]

theorem matchLen_head {q : Char} {qs s : List Char} {i l : Nat} {c : Char} (hc : s[i]? = some c)
    (h : MatchLen (rel eq) (q :: qs) s i l) (hl : 1 ≤ l) : eq q c = true := by
  obtain ⟨q', c', h1, h2, h3⟩ := h.1 0 (by omega)
  simp [hc] at h1 h2
  subst h1 h2
  exact h3

/-- The classes are determined by their specification. -/
theorem seenCls_unique {S : FzfScheme} {q : Char} {qs s : List Char} {seen : Nat → CharClass}
    (h : SeenBy U S (rel eq) (q :: qs) s seen) : ∀ i, i ≤ s.length → seen i = seenCls U S.intoInner eq q qs s i := by
  intro i
  induction i with
  | zero => intro _; rw [h.start, seenCls, initialCharClass_eq]
  | succ i ih =>
    intro hi
    have hc : s[i]? = some s[i] := List.getElem?_eq_getElem (by omega)
    obtain ⟨l, hl⟩ := exists_matchLen (R := rel eq) (q :: qs) s i
    simp only [seenCls, hc]
    by_cases h0 : l = 0
    · subst h0
      rw [if_neg ((matchLen_zero hc).mp hl), h.skip i _ hc hl, charClass_eq]
    · rw [if_pos (matchLen_head hc hl (by omega))]
      obtain ⟨h1, h2⟩ := restClass_eq (U := U) (sch := S.intoInner) _ _ _ (seenCls U S.intoInner eq q qs s i)
        (matchLen_drop.mp hl)
      have hle := matchLen_le hl
      by_cases hq : qs = []
      · subst hq
        simp only [List.length_cons, List.length_nil] at hle h1
        obtain rfl : l = 1 := by omega
        rw [h.one i _ hc hl rfl, h1 (by omega), ih (by omega)]
      · have hql := List.length_pos_iff.mpr hq
        have hlt : min l ((q :: qs).length - 1) - 1 < l := by
          simp only [List.length_cons]; omega
        obtain ⟨_, d, _, hd, _⟩ := hl.1 _ hlt
        have hpos : 0 < min l ((q :: qs).length - 1) := by simp only [List.length_cons]; omega
        rw [h2 d hpos (by rw [List.getElem?_drop]; exact hd), charClass_eq]
        refine h.more i l d hl (by omega) (by simp only [List.length_cons]; omega) ?_
        rw [← hd]
        congr 1
        omega

/-- The classes that the search sees. -/
theorem seenCls_ok (S : FzfScheme) (q : Char) (qs s : List Char) :
    SeenBy U S (rel eq) (q :: qs) s (seenCls U S.intoInner eq q qs s) where
  start := by rw [seenCls, initialCharClass_eq]
  skip := by
    intro i c hc h
    simp only [seenCls, hc]
    rw [if_neg ((matchLen_zero hc).mp h), charClass_eq]
  one := by
    intro i c hc h hl
    simp only [seenCls, hc]
    rw [if_pos (matchLen_head hc h (by omega))]
    exact (restClass_eq _ _ _ _ (matchLen_drop.mp h)).1 (by omega)
  more := by
    intro i l d hl h1 h2 hd
    obtain ⟨_, c, _, hc, _⟩ := hl.1 0 (by omega)
    rw [Nat.add_zero] at hc
    simp only [seenCls, hc]
    rw [if_pos (matchLen_head hc hl h1), ← charClass_eq]
    have hpos : 0 < min l ((q :: qs).length - 1) := by omega
    refine (restClass_eq _ _ _ _ (matchLen_drop.mp hl)).2 d hpos ?_
    rw [List.getElem?_drop, ← hd]
    congr 1
    omega

theorem seenBonusOf_eq {S : FzfScheme} {q : Char} {qs s : List Char} {seen : Nat → CharClass}
    (h : SeenBy U S (rel eq) (q :: qs) s seen) :
    seenBonusOf U S.intoInner eq q qs s = seenBonus U S s seen := by
  funext i
  unfold seenBonusOf seenBonus
  cases hc : s[i]? with
  | none => rfl
  | some c =>
    have := (List.getElem?_eq_some_iff.mp hc).1
    simp only [computeBonus_eq, charClass_eq, seenCls_unique h i (by omega)]

/-- `BestPlaced` only depends on the bonuses of occurrences. -/
theorem bestPlaced_congr {B B' : Nat → Int} {R : Char → Char → Prop} {p s : List Char}
    (h : ∀ i, OccursAt R p s i → B i = B' i) {i : Nat} (hb : BestPlaced B R p s i) : BestPlaced B' R p s i := by
  obtain ⟨h1, h2⟩ := hb
  refine ⟨h1, ?_⟩
  rcases h2 with ⟨h2, h3⟩ | h2
  · refine .inl ⟨by rw [← h i h1]; exact h2, ?_⟩
    intro j hj ho
    rw [← h j ho]
    exact h3 j hj ho
  · refine .inr ?_
    intro j ho
    rw [← h j ho, ← h i h1]
    exact h2 j ho

/-- What is seen is right where the preceding character was skipped, and for two-character patterns. -/
theorem seenBonus_right {S : FzfScheme} {R : Char → Char → Prop} {q : Char} {qs s : List Char} {seen : Nat → CharClass}
    (h : SeenBy U S R (q :: qs) s seen) {i : Nat} (hi : i ≤ s.length)
    (hr : qs.length = 1 ∨ ∀ c, i ≠ 0 → s[i - 1]? = some c → ¬ R q c) :
    seenBonus U S s seen i = posBonus U S s i := by
  have hc : seen i = classBefore U S s i := by
    cases i with
    | zero => rw [h.start]; simp [classBefore]
    | succ i =>
      have hc : s[i]? = some s[i] := List.getElem?_eq_getElem (by omega)
      have hb : classBefore U S s (i + 1) = classOf U S s[i] := by
        rw [← clsBefore_eq, clsBefore_succ hc, charClass_eq]
      rw [hb]
      obtain ⟨l, hl⟩ := exists_matchLen (R := R) (q :: qs) s i
      by_cases h0 : l = 0
      · subst h0; exact h.skip i _ hc hl
      · rcases hr with hr | hr
        · refine h.more i l _ hl (by omega) (by simp [hr]) ?_
          rw [← hc]
          congr 1
          simp only [List.length_cons, hr]
          omega
        · exfalso
          obtain ⟨q', c', h1, h2, h3⟩ := hl.1 0 (by omega)
          simp at h1 h2
          subst h1
          exact hr c' (by omega) (by simpa using h2) h3
  unfold seenBonus posBonus
  rw [hc]
  cases s[i]? <;> rfl

end Norm
