import Verif.Proofs.Padding

/-!
# Text around the occurrences of an exact pattern: helper lemmas
-/

namespace Norm

open Spec

variable {U : Unicode} {a : Algo} {st : Settings} {p : Pattern} {s w z : List Char}

theorem seen_later {R : Char → Char → Prop} {t : List Char} {S : FzfScheme} {seen seen' : Nat → CharClass} (ht : t ≠ [])
    (h0 : ∀ c ∈ s.take 1, ∀ f, t.head? = some f → ¬ R f c)
    (h : SeenBy U S R t s seen) (h' : SeenBy U S R t (w ++ s ++ z) seen') :
    ∀ i, i + 1 + t.length ≤ s.length → seen' (w.length + (i + 1)) = seen (i + 1) := by
  have hpos := List.length_pos_of_ne_nil ht
  intro i
  induction i with
  | zero =>
    intro hi
    have hc : s[0]? = some s[0] := by simp
    have hm : MatchLen R t s 0 0 := by
      refine ⟨fun k hk => by omega, fun q c hq hc => ?_⟩
      rw [Nat.add_zero] at hc
      refine h0 c ?_ q (by rw [List.head?_eq_getElem?]; exact hq)
      rw [← List.head?_eq_getElem?] at hc
      obtain ⟨x, rfl⟩ := List.head?_eq_some_iff.mp hc
      simp
    rw [h.skip 0 _ hc hm]
    exact h'.skip (w.length + 0) s[0] (by rw [getElem?_mid (by omega), hc]) (matchLen_mid hm (by omega))
  | succ i ih =>
    intro hi
    exact seen_step h h' hpos (ih (by omega)) hi

theorem seen_start {R : Char → Char → Prop} {t : List Char} {S : FzfScheme} {seen seen' : Nat → CharClass} (ht : t ≠ [])
    (hw : w = [] ∨ ∀ c ∈ s.take 1, ∀ f, t.head? = some f → ¬ R f c)
    (h : SeenBy U S R t s seen) (h' : SeenBy U S R t (w ++ s ++ z) seen') {i : Nat} (ho : OccursAt R t s i) :
    seen' (w.length + i) = seen i := by
  have hle := occursAt_lt ho
  rcases hw with rfl | hw
  · exact seen_mid ht (by simp) (by simp) h h' i hle
  · cases i with
    | succ i => exact seen_later ht hw h h' i hle
    | zero =>
      obtain ⟨q, qs, rfl⟩ := List.exists_cons_of_ne_nil ht
      obtain ⟨c, hc, hr⟩ := occursAt_get ho 0 q rfl
      rw [Nat.add_zero, ← List.head?_eq_getElem?] at hc
      obtain ⟨x, rfl⟩ := List.head?_eq_some_iff.mp hc
      exact absurd hr (hw c (by simp) q rfl)

theorem rawHit_mid (hk : p.matchType = .exact) (hp : PatternOk U p)
    (hw : ∀ c ∈ w, ∀ f, p.text.head? = some f → ¬ Cmp U st p.text f c)
    (h0 : w = [] ∨ ∀ c ∈ s.take 1, ∀ f, p.text.head? = some f → ¬ Cmp U st p.text f c)
    (hz : ∀ c ∈ z, ∀ l, p.text.getLast? = some l → ¬ Cmp U st p.text l c) :
    rawHit U (pureOf a) st (w ++ s ++ z) p = (rawHit U (pureOf a) st s p).map (hitFurther (byteLen w)) := by
  have hne : p.matchType ≠ .fuzzy := by rw [hk]; decide
  have hpos := List.length_pos_of_ne_nil hp.1
  have hB : ∀ i, OccursAt (Cmp U st p.text) p.text s i → ∀ j, i ≤ j → j < s.length →
      posBonus U st.scheme (w ++ s ++ z) (w.length + j) = posBonus U st.scheme s j := by
    intro i ho j hij hj
    rw [posBonus_append U st.scheme (w ++ s) z (by rw [List.length_append]; omega)]
    rcases Nat.eq_zero_or_pos j with rfl | hj0
    · rcases h0 with rfl | h0
      · simp
      · obtain rfl : i = 0 := by omega
        obtain ⟨q, qs, hq⟩ := List.exists_cons_of_ne_nil hp.1
        obtain ⟨c, hc, hr⟩ := occursAt_get ho 0 q (by rw [hq]; rfl)
        rw [Nat.add_zero, ← List.head?_eq_getElem?] at hc
        obtain ⟨x, rfl⟩ := List.head?_eq_some_iff.mp hc
        exact absurd hr (h0 c (by simp) q (by rw [hq]; rfl))
    · exact posBonus_before U st.scheme w s hj hj0
  cases h1 : rawHit U (pureOf a) st (w ++ s ++ z) p with
  | none =>
    cases h2 : rawHit U (pureOf a) st s p with
    | none => rfl
    | some y =>
      obtain ⟨i, hb, _⟩ := rawHit_block hne hp h2
      rw [hk] at hb
      obtain ⟨_, _, hb⟩ := hb
      have hm : RawMatches U st p (w ++ s ++ z) := by
        unfold RawMatches
        rw [hk]
        exact ⟨_, (occursAt_mid hp.1 hw hz).mpr ⟨i, rfl, hb.1⟩⟩
      have := (rawHit_isSome (accepts a) hp).mpr hm
      rw [h1] at this
      cases this
  | some x =>
    obtain ⟨j, hj, _, rfl⟩ := rawHit_block hne hp h1
    rw [hk] at hj
    obtain ⟨seen', hs', hb⟩ := hj
    obtain ⟨i, rfl, ho⟩ := (occursAt_mid hp.1 hw hz).mp hb.1
    have hle := occursAt_lt ho
    obtain ⟨q, qs, hq⟩ := List.exists_cons_of_ne_nil hp.1
    have hs := seenCls_ok (U := U) (eq := st.eqOf p) st.scheme q qs s
    rw [← hq, rel_eqOf st hp.upper] at hs
    have hbs : BlockAt U st.scheme (Cmp U st p.text) p.text s p.matchType i := by
      rw [hk]
      refine ⟨_, hs, bestPlaced_mid hp.1 hw hz (fun i ho => ?_) hb⟩
      have hle := occursAt_lt ho
      unfold seenBonus
      rw [getElem?_mid (by omega), seen_start hp.1 h0 hs hs' ho]
    cases h2 : rawHit U (pureOf a) st s p with
    | none =>
      have := (rawHit_isSome (accepts a) hp).mpr (blockAt_matches hbs)
      rw [h2] at this
      cases this
    | some y =>
      obtain ⟨i', hb', hle, rfl⟩ := rawHit_block hne hp h2
      obtain rfl := blockAt_unique hp hbs hb'
      simp only [Option.map_some, hitFurther, List.map_cons, List.map_nil]
      rw [Nat.add_assoc, byteRange_pad (by omega) hle, ← List.map_add_range', alignScore_shift]
      intro j hj
      rw [List.mem_range'_1] at hj
      exact hB i ho j (by omega) (by omega)

theorem result_mid (hk : p.matchType = .exact) (hp : PatternOk U p)
    (hw : ∀ c ∈ w, ∀ f, p.text.head? = some f → ¬ Cmp U st p.text f c)
    (h0 : w = [] ∨ ∀ c ∈ s.take 1, ∀ f, p.text.head? = some f → ¬ Cmp U st p.text f c)
    (hz : ∀ c ∈ z, ∀ l, p.text.getLast? = some l → ¬ Cmp U st p.text l c) :
    result U a st (w ++ s ++ z) (single p) =
      ((result U a st s (single p)).1.map (further (byteLen w)), (result U a st s (single p)).2) := by
  rw [result_single, result_single]
  unfold patHit
  rw [rawHit_mid hk hp hw h0 hz]
  cases p.isInverse <;> cases rawHit U (pureOf a) st s p <;> rfl

end Norm
