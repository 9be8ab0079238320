import Verif.Proofs.Calls

/-!
# How the match relation depends on the comparison, the text and the candidate -/

set_option linter.unusedSimpArgs false

namespace Norm

open Spec

variable {R R' : Char → Char → Prop} {t s : List Char}

theorem Subseq.imp (h : ∀ q c, R q c → R' q c) : Subseq R t s → Subseq R' t s := by
  rintro ⟨s', h1, h2⟩; exact ⟨s', h1, h2.imp h⟩

theorem Substring.imp (h : ∀ q c, R q c → R' q c) : Substring R t s → Substring R' t s := by
  rintro ⟨i, a, m, b, h1, h2, h3⟩; exact ⟨i, a, m, b, h1, h2, h3.imp h⟩

theorem TextMatches.imp (h : ∀ q c, R q c → R' q c) {k : MatchType} : TextMatches R k t s → TextMatches R' k t s := by
  cases k with
  | fuzzy => exact Subseq.imp h
  | exact => exact Substring.imp h
  | prefixExact => rintro ⟨j, m, y, h1, h2, h3⟩; exact ⟨j, m, y, h1, h2, h3.imp h⟩
  | suffixExact => rintro ⟨j, m, y, h1, h2, h3⟩; exact ⟨j, m, y, h1, h2, h3.imp h⟩
  | equalExact => rintro ⟨j, k, m, h1, h2, h3, h4⟩; exact ⟨j, k, m, h1, h2, h3, h4.imp h⟩

theorem forall₂_imp_mem {t m : List Char} (h : ∀ q ∈ t, ∀ c, R q c → R' q c) (hm : List.Forall₂ R t m) :
    List.Forall₂ R' t m := by
  induction hm with
  | nil => exact .nil
  | cons hc _ ih =>
    exact .cons (h _ List.mem_cons_self _ hc) (ih fun q hq => h q (List.mem_cons_of_mem _ hq))

/-- Only the comparisons with characters of the text matter. -/
theorem TextMatches.imp_mem (h : ∀ q ∈ t, ∀ c, R q c → R' q c) {k : MatchType} :
    TextMatches R k t s → TextMatches R' k t s := by
  cases k with
  | fuzzy => rintro ⟨s', h1, h2⟩; exact ⟨s', h1, forall₂_imp_mem h h2⟩
  | exact => rintro ⟨i, a, m, b, h1, h2, h3⟩; exact ⟨i, a, m, b, h1, h2, forall₂_imp_mem h h3⟩
  | prefixExact => rintro ⟨j, m, y, h1, h2, h3⟩; exact ⟨j, m, y, h1, h2, forall₂_imp_mem h h3⟩
  | suffixExact => rintro ⟨j, m, y, h1, h2, h3⟩; exact ⟨j, m, y, h1, h2, forall₂_imp_mem h h3⟩
  | equalExact => rintro ⟨j, k, m, h1, h2, h3, h4⟩; exact ⟨j, k, m, h1, h2, h3, forall₂_imp_mem h h4⟩

theorem TextMatches.congr_mem (h : ∀ q ∈ t, ∀ c, R q c ↔ R' q c) {k : MatchType} :
    TextMatches R k t s ↔ TextMatches R' k t s :=
  ⟨TextMatches.imp_mem fun q hq c => (h q hq c).mp, TextMatches.imp_mem fun q hq c => (h q hq c).mpr⟩

theorem Subseq.extend (x y : List Char) : Subseq R t s → Subseq R t (x ++ s ++ y) := by
  rintro ⟨s', h1, h2⟩
  exact ⟨s', (h1.trans (List.sublist_append_right x s)).trans (List.sublist_append_left _ y), h2⟩

theorem Substring.extend (x y : List Char) : Substring R t s → Substring R t (x ++ s ++ y) := by
  rintro ⟨i, a, m, b, rfl, h2, h3⟩
  exact ⟨(x ++ a).length, x ++ a, m, b ++ y, by simp, rfl, h3⟩

theorem Subseq.sublist {t' : List Char} (ht : t'.Sublist t) : Subseq R t s → Subseq R t' s := by
  rintro ⟨s', h1, h2⟩
  induction ht generalizing s' s with
  | slnil => cases h2; exact ⟨[], List.nil_sublist _, .nil⟩
  | cons c _ ih =>
    cases h2 with
    | cons hc h2 => exact ih _ ((List.sublist_cons_self _ _).trans h1) h2
  | @cons_cons t' t c hs ih =>
    cases h2 with
    | @cons _ d _ s'' hc h2 =>
      -- the rest of the alignment
      have key : ∀ {t t' : List Char}, t'.Sublist t → ∀ {u : List Char}, List.Forall₂ R t u →
          ∃ u', u'.Sublist u ∧ List.Forall₂ R t' u' := by
        intro t t' hs
        induction hs with
        | slnil => intro u hu; exact ⟨[], List.nil_sublist _, .nil⟩
        | cons c _ ih =>
          intro u hu
          cases hu with
          | cons hc hu => obtain ⟨u', h1, h2⟩ := ih hu; exact ⟨u', h1.cons _, h2⟩
        | cons_cons c _ ih =>
          intro u hu
          cases hu with
          | cons hc hu => obtain ⟨u', h1, h2⟩ := ih hu; exact ⟨_ :: u', h1.cons_cons _, .cons hc h2⟩
      obtain ⟨u', h3, h4⟩ := key hs h2
      exact ⟨d :: u', (h3.cons_cons d).trans h1, .cons hc h4⟩

theorem EqualMatch.toPrefix : EqualMatch R t s → PrefixMatch R t s := by
  rintro ⟨j, k, m, h1, h2, _, h4⟩; exact ⟨j, m, _, h1, h2, h4⟩

theorem EqualMatch.toSuffix : EqualMatch R t s → SuffixMatch R t s := by
  rintro ⟨j, k, m, h1, _, h3, h4⟩; exact ⟨k, m, _, h1, h3, h4⟩

theorem PrefixMatch.toSubstring : PrefixMatch R t s → Substring R t s := by
  rintro ⟨j, m, y, h1, _, h4⟩; exact ⟨_, _, m, y, h1, rfl, h4⟩

theorem SuffixMatch.toSubstring : SuffixMatch R t s → Substring R t s := by
  rintro ⟨j, m, y, h1, _, h4⟩; exact ⟨_, y, m, _, h1, rfl, h4⟩

theorem Substring.toSubseq : Substring R t s → Subseq R t s := by
  rintro ⟨i, a, m, b, rfl, _, h⟩
  exact ⟨m, (List.sublist_append_right a m).trans (List.sublist_append_left _ b), h⟩

theorem CharMatches.insensitive {n : Bool} {q c : Char} (b : Bool) (h : CharMatches true n q c) : CharMatches b n q c := by
  have key : ∀ x y : Char, fold true x = fold true y → fold b x = fold b y := by
    intro x y h; simp only [fold_true] at h; rw [h]
  rcases h with h | ⟨hn, u, hl, h⟩
  · exact Or.inl (key _ _ h)
  · exact Or.inr ⟨hn, u, hl, key _ _ h⟩

theorem CharMatches.normalized {b : Bool} {q c : Char} (n : Bool) (h : CharMatches b false q c) : CharMatches b n q c := by
  rcases h with h | ⟨hn, _⟩
  · exact Or.inl h
  · cases hn

/-! ### Queries -/

variable {U : Unicode} {st st' : Settings}

theorem queryMatches_imp {q : FzfQuery}
    (hi : ∀ cs, q = .extended cs → ∀ c ∈ cs, ∀ p ∈ c, p.isInverse = false)
    (h : ∀ p ∈ patterns q, ∀ x c, Cmp U st p.text x c → Cmp U st' p.text x c) :
    QueryMatches U st q s → QueryMatches U st' q s := by
  cases q with
  | notExtended p =>
    rintro (h1 | h1)
    · exact Or.inl h1
    · exact Or.inr (TextMatches.imp (h p (by simp [patterns])) h1)
  | extended cs =>
    intro h1 c hc
    obtain ⟨p, hp, h2⟩ := h1 c hc
    refine ⟨p, hp, ?_⟩
    have hinv := hi cs rfl c hc p hp
    simp only [PatternMatches, hinv] at h2 ⊢
    exact TextMatches.imp (h p (by simp only [patterns, List.mem_flatten]; exact ⟨c, hc, hp⟩)) h2

theorem condHit_congr {pf pf' : PureFuzzy} {c : Condition}
    (h : ∀ p ∈ c, patHit U pf st s p = patHit U pf' st' s p) : condHit U pf st s c = condHit U pf' st' s c := by
  unfold condHit
  induction c with
  | nil => rfl
  | cons p ps ih =>
    rw [List.findSome?_cons, List.findSome?_cons, h p (by simp), ih (fun p hp => h p (by simp [hp]))]

theorem condsHit_congr {pf pf' : PureFuzzy} {cs : List Condition}
    (h : ∀ c ∈ cs, ∀ p ∈ c, patHit U pf st s p = patHit U pf' st' s p) :
    condsHit U pf st s cs = condsHit U pf' st' s cs := by
  induction cs with
  | nil => rfl
  | cons c cs ih =>
    rw [condsHit, condsHit, condHit_congr (h c (by simp)), ih (fun c hc => h c (by simp [hc]))]

/-- The result depends on the settings through the comparisons and the scheme. -/
theorem result_congr {a : Algo} {q : FzfQuery} (hS : st.scheme = st'.scheme)
    (h : ∀ p ∈ patterns q, st.eqOf p = st'.eqOf p) : result U a st s q = result U a st' s q := by
  have hraw : ∀ p ∈ patterns q, rawHit U (pureOf a) st s p = rawHit U (pureOf a) st' s p := by
    intro p hp
    unfold rawHit
    rw [h p hp, hS]
  unfold result queryHit
  split
  · rfl
  · cases q with
    | notExtended p =>
      dsimp only
      rw [h p (by simp [patterns]), hS]
    | extended cs =>
      dsimp only
      refine condsHit_congr fun c hc p hp => ?_
      unfold patHit
      rw [hraw p (by simp only [patterns, List.mem_flatten]; exact ⟨c, hc, hp⟩)]

end Norm
