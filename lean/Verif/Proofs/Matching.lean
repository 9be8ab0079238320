import Verif.SpecQuery
import Verif.Proofs.V2Facts

/-!
# The match decision

`queryHit` has a score exactly when the query matches in the sense of `Spec.QueryMatches`. -/

set_option linter.unusedSimpArgs false

namespace Norm

open Spec

/-! ### Surplus spaces -/

theorem split_leading {s : List Char} {j : Nat} (h : j ≤ leading s) : s = List.replicate j ' ' ++ s.drop j := by
  induction j generalizing s with
  | zero => simp
  | succ j ih =>
    cases s with
    | nil => simp [leading] at h
    | cons c s =>
      by_cases hc : c = ' '
      · subst hc
        have : j ≤ leading s := by simp [leading] at h ⊢; exact h
        rw [List.replicate_succ, List.cons_append, List.drop_succ_cons, ← ih this]
      · simp [leading, hc] at h

theorem leading_le (s : List Char) : leading s ≤ s.length := (List.takeWhile_sublist _).length_le

theorem trailing_le (s : List Char) : trailing s ≤ s.length := by
  have := leading_le s.reverse; simpa [trailing] using this

theorem split_trailing {s : List Char} {k : Nat} (h : k ≤ trailing s) :
    s = s.take (s.length - k) ++ List.replicate k ' ' := by
  have h1 := split_leading (s := s.reverse) (j := k) h
  have h2 := congrArg List.reverse h1
  rw [List.reverse_reverse, List.reverse_append, List.reverse_replicate, List.drop_reverse, List.reverse_reverse] at h2
  exact h2

theorem takeWhile_beq_leading (s : List Char) : (s.takeWhile (· == ' ')).length = leading s := rfl

theorem takeWhile_beq_trailing (s : List Char) : (s.reverse.takeWhile (· == ' ')).length = trailing s := rfl

variable {eq : CharEq} {s : List Char} {p : Pattern}

theorem prefixPos_iff (hl : p.leadingSpaces = leading p.text) :
    (prefixPos eq s p).isSome = true ↔ PrefixMatch (rel eq) p.text s := by
  unfold prefixPos PrefixMatch
  simp only [takeWhile_beq_leading, hl]
  constructor
  · intro h
    split at h
    · rename_i h1
      obtain ⟨h1, h2⟩ := h1
      obtain ⟨m, y, h3, h4⟩ := pmatch_iff.mp h2
      refine ⟨leading s - leading p.text, m, y, ?_, by omega, h4⟩
      rw [List.append_assoc, ← h3]
      exact split_leading (by omega)
    · simp at h
  · rintro ⟨j, m, y, h1, h2, h3⟩
    have hj : leading s - leading p.text = j := by omega
    have hm : pmatch eq p.text (s.drop (leading s - leading p.text)) = true := by
      rw [pmatch_iff]
      refine ⟨m, y, ?_, h3⟩
      rw [hj]
      conv_lhs => rw [h1]
      rw [List.append_assoc, List.drop_left' (by simp)]
    rw [if_pos ⟨by omega, hm⟩]
    rfl

theorem suffixPos_iff (ht : p.trailingSpaces = trailing p.text) :
    (suffixPos eq s p).isSome = true ↔ SuffixMatch (rel eq) p.text s := by
  unfold suffixPos SuffixMatch
  simp only [takeWhile_beq_trailing, ht]
  have htl := trailing_le s
  constructor
  · intro h
    split at h
    · rename_i h1
      obtain ⟨h1, h2, h3⟩ := h1
      generalize he : s.length - (trailing s - trailing p.text) = e at *
      obtain ⟨m, y, h4, h5⟩ := pmatch_iff.mp h3
      have h6 := h5.length_eq
      have h7 := congrArg List.length h4
      simp at h7
      have hy : y = [] := by rw [← List.length_eq_zero_iff]; omega
      subst hy
      refine ⟨trailing s - trailing p.text, m, (s.take e).take (e - p.text.length), ?_, by omega, h5⟩
      simp only [List.append_nil] at h4
      rw [← h4, List.take_append_drop, ← he]
      exact split_trailing (by omega)
    · simp at h
  · rintro ⟨k, m, x, h1, h2, h3⟩
    have hk : trailing s - trailing p.text = k := by omega
    have hlen := h3.length_eq
    have hsl : s.length = x.length + m.length + k := by rw [h1]; simp; omega
    have hse : s.take (s.length - k) = x ++ m := by
      rw [hsl]
      conv_lhs => rw [h1]
      rw [List.take_left' (by simp)]
    rw [if_pos]
    · rfl
    · rw [hk, hse]
      refine ⟨by omega, by omega, ?_⟩
      rw [pmatch_iff]
      refine ⟨m, [], ?_, h3⟩
      rw [List.drop_left' (by omega), List.append_nil]

theorem equalPos_iff (hl : p.leadingSpaces = leading p.text) (ht : p.trailingSpaces = trailing p.text) :
    (equalPos eq s p).isSome = true ↔ EqualMatch (rel eq) p.text s := by
  unfold equalPos EqualMatch
  have htr : ∀ l : List Char, leading l.reverse = trailing l := fun _ => rfl
  simp only [takeWhile_beq_leading, htr, ht, hl]
  have htl := trailing_le s
  constructor
  · intro h
    split at h
    · rename_i h1
      obtain ⟨h1, h2, h3, h4⟩ := h1
      obtain ⟨m, y, h5, h6⟩ := pmatch_iff.mp h4
      have h7 := h6.length_eq
      have hs := split_leading (s := s) (j := leading s - leading p.text) (by omega)
      have ht := split_trailing (s := s) (k := trailing s - trailing p.text) (by omega)
      rw [h5, ← List.append_assoc] at hs
      have hx : List.replicate (leading s - leading p.text) ' ' ++ m ++ y =
          s.take (s.length - (trailing s - trailing p.text)) ++ List.replicate (trailing s - trailing p.text) ' ' := by
        rw [← hs, ← ht]
      have hinj := List.append_inj hx (by simp; omega)
      refine ⟨leading s - leading p.text, trailing s - trailing p.text, m, ?_, by omega, by omega, h6⟩
      rw [← hinj.2, ← hs]
    · simp at h
  · rintro ⟨j, k, m, h1, h2, h3, h4⟩
    have hj : leading s - leading p.text = j := by omega
    have hk : trailing s - trailing p.text = k := by omega
    have hsl : s.length = j + m.length + k := by rw [h1]; simp; omega
    have hlen := h4.length_eq
    rw [if_pos]
    · rfl
    · rw [hj, hk]
      refine ⟨by omega, by omega, by omega, ?_⟩
      rw [pmatch_iff]
      refine ⟨m, List.replicate k ' ', ?_, h4⟩
      conv_lhs => rw [h1]
      rw [List.append_assoc, List.drop_left' (by simp)]

theorem exactPos_iff {U : Unicode} {S : FzfScheme} (hp : p.text ≠ []) :
    (exactPos U S.intoInner eq p s).isSome = true ↔ Substring (rel eq) p.text s := by
  have h := exactMatch_eq U S.intoInner false (c := .unicode s) (by simp [Candidate.WF]) p eq hp
    (computeBonus_nonneg S) [] [] sep_nil
  have hs : (Candidate.unicode s).toChars = s := rfl
  rw [hs] at h
  cases he : exactPos U S.intoInner eq p s with
  | none => simpa using h.2.1 he
  | some a => simpa using ⟨a, (h.2.2 a he).1⟩

/-! ### Patterns -/

theorem sensitive_eq {U : Unicode} (cs : CaseSensitivity) (h : p.hasUppercase = p.text.any U.isUppercase) :
    isSensitive cs p = sensitive U cs p.text := by
  cases cs <;> simp [isSensitive, sensitive, h]

theorem rel_eqOf {U : Unicode} (st : Settings) (h : p.hasUppercase = p.text.any U.isUppercase) :
    rel (st.eqOf p) = Cmp U st p.text := by
  funext q c
  unfold rel Settings.eqOf Cmp
  rw [sensitive_eq (U := U) _ h]
  exact propext (charEq_iff _ _ q c)

theorem Spec.PatternOk.upper {U : Unicode} (h : PatternOk U p) : p.hasUppercase = p.text.any U.isUppercase := by
  rw [h.2]; rfl

theorem Spec.PatternOk.lead {U : Unicode} (h : PatternOk U p) : p.leadingSpaces = leading p.text := by
  rw [h.2]; rfl

theorem Spec.PatternOk.trail {U : Unicode} (h : PatternOk U p) : p.trailingSpaces = trailing p.text := by
  rw [h.2]; rfl

theorem mkPattern_ok (U : Unicode) (inv : Bool) (k : MatchType) {t : List Char} (h : t ≠ []) :
    PatternOk U (mkPattern U inv k t) := ⟨h, rfl⟩

/-- A pure fuzzy matcher that accepts exactly the subsequences. -/
def Accepts (pf : PureFuzzy) : Prop :=
  ∀ (B : Nat → Int) (eq : CharEq) (p s : List Char), (∀ i, 0 ≤ B i) → p ≠ [] →
    ((pf B eq p s).isSome = true ↔ Subseq (rel eq) p s)

theorem isSome_iff_of_none {α} {o : Option α} {P : Prop} (h : o = none ↔ ¬ P) : o.isSome = true ↔ P := by
  cases o with
  | none => simpa using h
  | some a => simpa using h

theorem accepts_v1 : Accepts v1Result := fun _ _ _ _ _ hp => isSome_iff_of_none (v1Result_none hp)

theorem accepts_v2 : Accepts v2Result := fun _ _ _ _ hB _ => isSome_iff_of_none (v2Result_none hB)

variable {U : Unicode} {pf : PureFuzzy} {st : Settings}

theorem rawHit_isSome (hpf : Accepts pf) (h : PatternOk U p) :
    (rawHit U pf st s p).isSome = true ↔ RawMatches U st p s := by
  unfold rawHit RawMatches
  rw [← rel_eqOf st h.upper]
  dsimp only
  cases p.matchType <;> simp only [Option.isSome_map, TextMatches]
  · exact hpf _ _ _ _ (posBonus_nonneg U st.scheme s) h.1
  · exact exactPos_iff h.1
  · exact prefixPos_iff h.lead
  · exact suffixPos_iff h.trail
  · exact equalPos_iff h.lead h.trail

theorem patHit_isSome (hpf : Accepts pf) (h : PatternOk U p) :
    (patHit U pf st s p).isSome = true ↔ PatternMatches U st p s := by
  have := rawHit_isSome (st := st) (s := s) hpf h
  unfold patHit PatternMatches
  cases p.isInverse with
  | false => simpa using this
  | true =>
    simp only [if_true]
    cases hr : rawHit U pf st s p <;> simp [hr] at this ⊢ <;> tauto

theorem condHit_isSome (hpf : Accepts pf) {c : Condition} (h : ∀ p ∈ c, PatternOk U p) :
    (condHit U pf st s c).isSome = true ↔ ∃ p ∈ c, PatternMatches U st p s := by
  unfold condHit
  rw [List.findSome?_isSome_iff]
  constructor
  · rintro ⟨p, hp, h1⟩; exact ⟨p, hp, (patHit_isSome hpf (h p hp)).mp h1⟩
  · rintro ⟨p, hp, h1⟩; exact ⟨p, hp, (patHit_isSome hpf (h p hp)).mpr h1⟩

theorem condsHit_isSome (hpf : Accepts pf) : ∀ {cs : List Condition}, (∀ c ∈ cs, ∀ p ∈ c, PatternOk U p) →
    ((condsHit U pf st s cs).2.isSome = true ↔ ∀ c ∈ cs, ∃ p ∈ c, PatternMatches U st p s) := by
  intro cs
  induction cs with
  | nil => intro _; simp [condsHit]
  | cons c cs ih =>
    intro h
    have h1 := condHit_isSome (st := st) (s := s) hpf (h c (by simp))
    have h2 := ih (fun c hc => h c (by simp [hc]))
    simp only [condsHit]
    cases hc : condHit U pf st s c with
    | none =>
      rw [hc] at h1
      simp only [Option.isSome_none, Bool.false_eq_true, false_iff] at h1 ⊢
      intro hall; exact h1 (hall c (by simp))
    | some x =>
      rw [hc] at h1
      simp only [Option.isSome_some, true_iff] at h1
      simp only [Option.isSome_map, h2, List.mem_cons, forall_eq_or_imp]
      exact ⟨fun h => ⟨h1, h⟩, fun h => h.2⟩

theorem queryOk_upper {p : Pattern} (h : QueryOk U (.notExtended p)) :
    p.hasUppercase = p.text.any U.isUppercase ∧ p.matchType = .fuzzy := by
  have h' : p = mkPattern U p.isInverse .fuzzy p.text := h
  rw [h']; exact ⟨rfl, rfl⟩

theorem queryOk_nonEmpty {q : FzfQuery} (h : QueryOk U q) : q.NonEmpty := by
  cases q with
  | notExtended p => trivial
  | extended cs => exact fun c hc p hp => ((h c hc).2 p hp).1

theorem queryHit_isSome (hpf : Accepts pf) {q : FzfQuery} (h : QueryOk U q) :
    (queryHit U pf st s q).2.isSome = true ↔ QueryMatches U st q s := by
  unfold queryHit
  cases q with
  | notExtended p =>
    obtain ⟨hu, hk⟩ := queryOk_upper h
    by_cases ht : p.text = []
    · rw [if_pos (by simp [FzfQuery.isEmpty, Pattern.isEmpty, ht])]
      simp [QueryMatches, ht]
    · rw [if_neg (by simp [FzfQuery.isEmpty, Pattern.isEmpty, ht])]
      have := hpf (posBonus U st.scheme s) (st.eqOf p) p.text s (posBonus_nonneg U st.scheme s) ht
      rw [rel_eqOf st hu] at this
      dsimp only
      simp only [QueryMatches, RawMatches, hk, TextMatches, ht, false_or, ← this]
      cases pf (posBonus U st.scheme s) (st.eqOf p) p.text s <;> simp
  | extended cs =>
    by_cases hc : cs = []
    · subst hc; simp [FzfQuery.isEmpty, QueryMatches]
    · rw [if_neg (by simp [FzfQuery.isEmpty, hc])]
      exact condsHit_isSome hpf (fun c hc => (h c hc).2)

end Norm
