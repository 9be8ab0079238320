import Verif.Proofs.Rename
import Verif.Props.Outcome

/-!
# When the case sensitivity and the normalization matter

Property C95: two metrics with the same scoring scheme give different results only if their settings differ on some pair of a query
character and a candidate character. -/

namespace Norm.Props

open Spec

variable {U : Unicode} {a : Algo} {m m' : Metric} {st st' : Settings} {q : FzfQuery} {s : List Char} {p : Pattern}
  {buf b b' : List Range} {d : Option FzfDistance}

/-- **C95.** If two settings with the same scheme compare all characters of a query and of a candidate alike, they give the same distance. -/
theorem C95_distance (h : Reachable U a m st) (h' : Reachable U a m' st') (hq : QueryOk U q) (hS : st'.scheme = st.scheme)
    (hc : ∀ p ∈ patterns q, ∀ x ∈ p.text, ∀ c ∈ s, Cmp U st p.text x c ↔ Cmp U st' p.text x c) :
    Returns U m' q s d ↔ Returns U m q s d := by
  rw [returns_iff h hq, returns_iff h' hq, result_settings hq hS hc]

/-- **C95**, for the ranges. -/
theorem C95_ranges (h : Reachable U a m st) (h' : Reachable U a m' st') (hq : QueryOk U q) (hS : st'.scheme = st.scheme)
    (hc : ∀ p ∈ patterns q, ∀ x ∈ p.text, ∀ c ∈ s, Cmp U st p.text x c ↔ Cmp U st' p.text x c) :
    ReturnsRanges U m' q s buf b d ↔ ReturnsRanges U m q s buf b d := by
  rw [returnsRanges_iff h hq, returnsRanges_iff h' hq, result_settings hq hS hc]

/-- **C95**, for the case sensitivity: it does not matter if no letter of the query stands in the candidate, or among the replacements of
its characters, in the other case. -/
theorem C95_case {n : Bool} {S : FzfScheme} {cs cs' : CaseSensitivity} (h : Reachable U a m ⟨cs, n, S⟩) (h' : Reachable U a m' ⟨cs', n, S⟩)
    (hq : QueryOk U q) (hc : ∀ p ∈ patterns q, ∀ x ∈ p.text, ∀ c ∈ s, ∀ l, l = c ∨ n = true ∧ Listed c l → lower x = lower l → x = l) :
    (Returns U m' q s d ↔ Returns U m q s d) ∧ (ReturnsRanges U m' q s buf b d ↔ ReturnsRanges U m q s buf b d) := by
  have key : ∀ p ∈ patterns q, ∀ x ∈ p.text, ∀ c ∈ s, Cmp U ⟨cs, n, S⟩ p.text x c ↔ Cmp U ⟨cs', n, S⟩ p.text x c := by
    intro p hp x hx c hm
    have h1 : ∀ sn, CharMatches sn n x c ↔ x = c ∨ n = true ∧ ∃ l, Listed c l ∧ x = l := by
      intro sn
      unfold CharMatches fold
      cases sn with
      | true => rfl
      | false =>
        simp only [Bool.false_eq_true, if_false]
        refine or_congr ⟨hc p hp x hx c hm c (.inl rfl), fun e => by rw [e]⟩
          (and_congr_right fun hn => exists_congr fun l => and_congr_right fun hl => ?_)
        exact ⟨hc p hp x hx c hm l (.inr ⟨hn, hl⟩), fun e => by rw [e]⟩
    exact (h1 _).trans (h1 _).symm
  exact ⟨C95_distance h h' hq rfl key, C95_ranges h h' hq rfl key⟩

/-- **C95**, for the normalization: it does not matter for candidates without characters that it replaces. -/
theorem C95_normalization {n n' : Bool} {S : FzfScheme} {cs : CaseSensitivity} (h : Reachable U a m ⟨cs, n, S⟩)
    (h' : Reachable U a m' ⟨cs, n', S⟩) (hq : QueryOk U q) (hs : ∀ c ∈ s, ∀ l, ¬ Listed c l) :
    (Returns U m' q s d ↔ Returns U m q s d) ∧ (ReturnsRanges U m' q s buf b d ↔ ReturnsRanges U m q s buf b d) := by
  have key : ∀ p ∈ patterns q, ∀ x ∈ p.text, ∀ c ∈ s, Cmp U ⟨cs, n, S⟩ p.text x c ↔ Cmp U ⟨cs, n', S⟩ p.text x c := by
    intro p hp x hx c hm
    unfold Cmp CharMatches
    exact or_congr Iff.rfl ⟨fun ⟨_, l, hl, _⟩ => absurd hl (hs c hm l), fun ⟨_, l, hl, _⟩ => absurd hl (hs c hm l)⟩
  exact ⟨C95_distance h h' hq rfl key, C95_ranges h h' hq rfl key⟩

/-- **C95**, for a prefix, a suffix or an equality pattern: the settings decide whether it matches; if it does with both, distance and
ranges are the same. -/
theorem C95_blocks (h : Reachable U a m st) (h' : Reachable U a m' st') (hS : st'.scheme = st.scheme) (hp : PatternOk U p)
    (hk : p.matchType = .prefixExact ∨ p.matchType = .suffixExact ∨ p.matchType = .equalExact) {x y : FzfDistance}
    (hx : ReturnsRanges U m (single p) s buf b (some x)) (hy : ReturnsRanges U m' (single p) s buf b' (some y)) : b' = b ∧ y = x := by
  have hq : QueryOk U (single p) := queryOk_single hp
  have hf : p.matchType ≠ .fuzzy := by rcases hk with e | e | e <;> rw [e] <;> decide
  rw [returnsRanges_iff h hq, result_single] at hx
  rw [returnsRanges_iff h' hq, result_single] at hy
  have key : patHit U (pureOf a) st' s p = patHit U (pureOf a) st s p := by
    cases h1 : patHit U (pureOf a) st s p with
    | none => rw [h1] at hx; cases hx.2
    | some u =>
      cases h2 : patHit U (pureOf a) st' s p with
      | none => rw [h2] at hy; cases hy.2
      | some v =>
        unfold patHit at h1 h2
        split at h1
        · cases h3 : rawHit U (pureOf a) st s p with
          | some _ => rw [h3] at h1; cases h1
          | none =>
            cases h4 : rawHit U (pureOf a) st' s p with
            | some _ => rw [h4] at h2; simp_all
            | none => rw [h3] at h1; simp_all
        · rename_i hi
          rw [if_neg hi] at h2
          obtain ⟨i, hb1, hl1, rfl⟩ := rawHit_block hf hp h1
          obtain ⟨j, hb2, hl2, rfl⟩ := rawHit_block hf hp h2
          have : i = j := by
            rcases hk with e | e | e <;> rw [e] at hb1 hb2 <;> simp only [BlockAt] at hb1 hb2 <;> omega
          rw [this, hS]
  rw [key] at hy
  obtain ⟨h1, h2⟩ := hx
  obtain ⟨h3, h4⟩ := hy
  refine ⟨h3.trans h1.symm, ?_⟩
  have := h4.trans h2.symm
  cases this
  rfl

/-- `foo 'ba` in `foo/bar`: the case sensitivity does not matter. -/
example : (∀ p ∈ patterns (Concrete.parse "foo 'ba"), ∀ x ∈ p.text, ∀ c ∈ "foo/bar".toList, ∀ l,
      l = c ∨ false = true ∧ Listed c l → lower x = lower l → x = l) ∧
    ReturnsRanges Concrete.U (Concrete.metric .v2 .sensitive) (Concrete.parse "foo 'ba") "foo/bar".toList [] [⟨0, 3⟩, ⟨4, 6⟩] (some ⟨147⟩) ∧
    ReturnsRanges Concrete.U (Concrete.metric .v2 .insensitive) (Concrete.parse "foo 'ba") "foo/bar".toList [] [⟨0, 3⟩, ⟨4, 6⟩] (some ⟨147⟩) := by
  have key : ∀ p ∈ patterns (Concrete.parse "foo 'ba"), ∀ x ∈ p.text, ∀ c ∈ "foo/bar".toList, lower x = lower c → x = c := by
    decide +kernel
  refine ⟨fun p hp x hx c hc l hl => ?_, Concrete.returnsRanges (by decide +kernel), Concrete.returnsRanges (by decide +kernel)⟩
  rcases hl with rfl | ⟨h, _⟩
  · exact key p hp x hx l hc
  · cases h

/-- If the candidate has letters in the other case, it may: with FzfV1, `ab` finds another match in `A_b_ab`, with another score. -/
example : ReturnsRanges Concrete.U (Concrete.metric .v1 .sensitive) (Concrete.parse "ab") "A_b_ab".toList [] [⟨4, 6⟩] (some ⟨56⟩) ∧
    ReturnsRanges Concrete.U (Concrete.metric .v1 .insensitive) (Concrete.parse "ab") "A_b_ab".toList [] [⟨0, 1⟩, ⟨2, 3⟩] (some ⟨57⟩) :=
  ⟨Concrete.returnsRanges (by decide +kernel), Concrete.returnsRanges (by decide +kernel)⟩

/-- `^ab` in `abAB`, with both. -/
example : PatternOk Concrete.U (mkPattern Concrete.U false .prefixExact "ab".toList) ∧
    ReturnsRanges Concrete.U (Concrete.metric .v2 .sensitive) (single (mkPattern Concrete.U false .prefixExact "ab".toList)) "abAB".toList []
      [⟨0, 2⟩] (some ⟨62⟩) ∧
    ReturnsRanges Concrete.U (Concrete.metric .v2 .insensitive) (single (mkPattern Concrete.U false .prefixExact "ab".toList)) "abAB".toList []
      [⟨0, 2⟩] (some ⟨62⟩) :=
  ⟨⟨by decide, rfl⟩, Concrete.returnsRanges (by decide +kernel), Concrete.returnsRanges (by decide +kernel)⟩

/-- `ab` in `λab`, with and without normalization. -/
example : (∀ c ∈ "λab".toList, ∀ l, ¬ Listed c l) ∧
    Returns Concrete.U (Concrete.metric .v2 .smart false) (Concrete.parse "ab") "λab".toList (some ⟨56⟩) ∧
    Returns Concrete.U (Concrete.metric .v2 .smart true) (Concrete.parse "ab") "λab".toList (some ⟨56⟩) :=
  ⟨by decide +kernel, Concrete.returns (by decide +kernel), Concrete.returns (by decide +kernel)⟩

end Norm.Props
