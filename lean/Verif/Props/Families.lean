import Verif.Proofs.Families
import Verif.Proofs.Highlights
import Verif.Proofs.V2Spec
import Verif.Props.Concrete

/-!
# Margins for queries of any length

That the margins of C24 and C51 have to grow with the query: candidates for every query of distinct letters. -/

namespace Norm.Props
open Spec

variable {U : Unicode} {a : Algo} {m : Metric} {st : Settings} {q : FzfQuery} {p : Pattern} {s : List Char}

/-- A fuzzy query matches a candidate in which it has an alignment. -/
private theorem returns_of_align (h : Reachable U a m st) (hf : FuzzyFor q p) (hq : QueryOk U q) (hp : p.text ≠ []) {ps : List Nat}
    (ha : Alignment (Cmp U st p.text) p.text s ps) : ∃ d, Returns U m q s (some d) := by
  have hs : Subseq (rel (st.eqOf p)) p.text s := by rw [fuzzyFor_rel hf hq]; exact subseq_iff.mpr ⟨ps, ha⟩
  cases hx : pureOf a (posBonus U st.scheme s) (st.eqOf p) p.text s with
  | none =>
    cases a with
    | v1 => exact absurd hs ((v1Result_none hp).mp hx)
    | v2 => exact absurd hs ((v2Result_none (posBonus_nonneg U st.scheme s)).mp hx)
  | some x =>
    refine ⟨⟨x.2⟩, (returns_iff h hq).mpr ?_⟩
    rw [result_fuzzy hf hp, hx]
    rfl

/-- FzfV2's score is that of a cell, and no cell has a better one. -/
private theorem returns_best {d : FzfDistance} (h : Reachable U .v2 m st) (hf : FuzzyFor q p) (hq : QueryOk U q)
    (hp : 2 ≤ p.text.length) (hd : Returns U m q s (some d)) : ∃ G r c, GridOf (Cmp U st p.text) (posBonus U st.scheme s) p.text s G ∧
      G.Best p.text.length r c ∧ d.score = (G.table r c).1 := by
  have hne : p.text ≠ [] := by intro h; simp [h] at hp
  obtain ⟨x, hx, rfl⟩ := fuzzy_returns h hf hq hne hd
  have hx : v2Result (posBonus U st.scheme s) (st.eqOf p) p.text s = some x := hx
  rw [← fuzzyFor_rel hf hq]
  obtain ⟨G, hG⟩ := gridOf_exists (B := posBonus U st.scheme s) (s := s) (R := rel (st.eqOf p)) hne (by
    by_contra hcon
    rw [(v2Result_none (posBonus_nonneg U st.scheme s)).mpr hcon] at hx
    cases hx)
  obtain ⟨r, c, hb, rfl⟩ := v2Result_grid (posBonus_nonneg U st.scheme s) hp hG hx
  exact ⟨G, r, c, hG, hb, rfl⟩

/-- **C51**, the margin of `C51_part_partial` is the least for every number of characters: for every query of `n` distinct letters
there is a candidate which FzfV2 scores 2 for every letter but the first above the documented score of every
alignment of every part of the query. -/
theorem C51_sharp_all (h : Reachable U .v2 m st) (hf : FuzzyFor q p) (hq : QueryOk U q) (hl : PlainLetters U st.scheme p.text)
    (hp : 2 ≤ p.text.length) :
    ∃ d, Returns U m q (twice p.text) (some d) ∧
      ∀ i k ps, i < k → k ≤ p.text.length → Alignment (Cmp U st p.text) ((p.text.take k).drop i) (twice p.text) ps →
        alignScore (posBonus U st.scheme (twice p.text)) ps + 2 * ((p.text.length : Int) - 1) ≤ d.score := by
  have hW : 8 ≤ whiteBonus st.scheme := by cases st.scheme <;> decide
  have hne : p.text ≠ [] := by intro h; simp [h] at hp
  obtain ⟨d, hd⟩ := returns_of_align h hf hq hne (twice_align (st := st) (text := p.text) hl)
  refine ⟨d, hd, fun i k ps hi hk ha => ?_⟩
  obtain ⟨G, r, c, hG, hb, e⟩ := returns_best h hf hq hp hd
  have h1 := twice_table hl hG (p.text.length - 1) (by omega)
  have h2 := (hb.2.2 _ _ (show p.text.length - 1 < p.text.length by omega) ((twice_hit hl hG (by omega)).mpr (.inr rfl))).1
  have hlen : ((p.text.take k).drop i).length = k - i := by rw [List.length_drop, List.length_take]; omega
  have h3 := twice_score hl (fun c hc => List.mem_of_mem_take (List.mem_of_mem_drop hc)) ha
    (by intro h; rw [h] at hlen; simp at hlen; omega)
  rw [hlen] at h3
  have h4 := Int.mul_le_mul_of_nonneg_left (show (((k - i : Nat) : Int)) - 1 ≤ (p.text.length : Int) - 1 by omega)
    (show 0 ≤ 13 + whiteBonus st.scheme by omega)
  have h5 : (15 + whiteBonus st.scheme) * ((p.text.length : Int) - 1) =
      (13 + whiteBonus st.scheme) * ((p.text.length : Int) - 1) + 2 * ((p.text.length : Int) - 1) := by
    rw [← Int.add_mul]
    congr 1
    omega
  rw [show ((p.text.length - 1 : Nat) : Int) = (p.text.length : Int) - 1 by omega] at h1
  rw [e]
  show (_ : Int) ≤ (_ : Int)
  omega

/-- Five letters: 136 is 8 above the best. -/
example : PlainLetters Concrete.U .default "abcde".toList ∧ twice "abcde".toList = " a b c d e a b c d e".toList ∧
    Returns Concrete.U (Concrete.metric .v2) (Concrete.parse "abcde") " a b c d e a b c d e".toList (some ⟨136⟩) ∧
    Alignment (Cmp Concrete.U defaultSettings "abcde".toList) "abcde".toList " a b c d e a b c d e".toList [11, 13, 15, 17, 19] ∧
    alignScore (posBonus Concrete.U .default " a b c d e a b c d e".toList) [11, 13, 15, 17, 19] = 128 := by
  refine ⟨⟨by decide, by decide +kernel, by decide +kernel⟩, by decide, Concrete.returns (by decide +kernel), ⟨by simp, ?_⟩,
    by decide +kernel⟩
  exact .cons ⟨'a', rfl, .inl rfl⟩ (.cons ⟨'b', rfl, .inl rfl⟩ (.cons ⟨'c', rfl, .inl rfl⟩ (.cons ⟨'d', rfl, .inl rfl⟩
    (.cons ⟨'e', rfl, .inl rfl⟩ .nil))))

/-- **C24**, no margin that does not grow with the query suffices: for every query of `n` distinct letters there is a candidate
to which FzfV2 gives `2 * k * (n - 2)` less than FzfV1. `2 * k` may be the bonus after white space; for the default
scheme, a margin must be at least 10 for every character but the first two. `C24_margin_partial` has 12. -/
theorem C24_grows {m₁ m₂ : Metric} {k : Nat} (h₁ : Reachable U .v1 m₁ st) (h₂ : Reachable U .v2 m₂ st) (hf : FuzzyFor q p)
    (hq : QueryOk U q) (hl : PlainLetters U st.scheme p.text) (hp : 2 ≤ p.text.length) (hk : 1 ≤ k)
    (hk' : 2 * (k : Int) ≤ whiteBonus st.scheme) :
    ∃ d₁ d₂, Returns U m₁ q (repeating k p.text) (some d₁) ∧ Returns U m₂ q (repeating k p.text) (some d₂) ∧
      d₂.score + 2 * k * ((p.text.length : Int) - 2) ≤ d₁.score := by
  have hne : p.text ≠ [] := by intro h; simp [h] at hp
  obtain ⟨x, l, e⟩ := List.exists_cons_of_ne_nil hne
  have ha : Alignment (Cmp U st p.text) p.text (repeating k p.text) ((List.range p.text.length).map (wordAt k)) := by
    have := repeating_align (k := k) (st := st) (text := p.text) (e ▸ hl)
    rw [← e] at this
    exact this
  obtain ⟨d₁, hd₁⟩ := returns_of_align h₁ hf hq hne ha
  obtain ⟨d₂, hd₂⟩ := returns_of_align h₂ hf hq hne ha
  refine ⟨d₁, d₂, hd₁, hd₂, ?_⟩
  obtain ⟨G, r, c, hG, hb, e₂⟩ := returns_best h₂ hf hq hp hd₂
  obtain ⟨y, hy, rfl⟩ := fuzzy_returns h₁ hf hq hne hd₁
  simp only [pureOf, v1Result, Option.map_eq_some_iff] at hy
  obtain ⟨g, hg, rfl⟩ := hy
  have hR := fuzzyFor_rel (st := st) hf hq
  rw [e] at hl hp hG hb hg ⊢
  have hlen : 0 < l.length := by simp at hp; omega
  have h3 := repeating_best hl hk' hk hlen hG hb.1 hb.2.1
  obtain rfl := repeating_v1 hR hl hg
  show d₂.score + _ ≤ alignScore _ _
  rw [repeating_score hl hlen, e₂]
  simp only [wordScore, show ((l.length - 1 : Nat) : Int) = (l.length : Int) - 1 by omega] at h3
  have h4 : (13 + whiteBonus st.scheme - k) * ((l.length : Int) - 1) =
      (13 + whiteBonus st.scheme - 3 * k) * ((l.length : Int) - 1) + 2 * k * ((l.length : Int) - 1) := by
    rw [← Int.add_mul]
    congr 1
    omega
  rw [h4, List.length_cons, show ((l.length + 1 : Nat) : Int) - 2 = (l.length : Int) - 1 by omega]
  show (_ : Int) ≤ (_ : Int)
  omega

/-- **C58**, the shortfall has to grow with the query: for every query of `n` distinct letters there are a candidate and an
alignment whose documented score is `2 * k * (n - 2)` above FzfV2's. -/
theorem C58_grows {k : Nat} (h : Reachable U .v2 m st) (hf : FuzzyFor q p)
    (hq : QueryOk U q) (hl : PlainLetters U st.scheme p.text) (hp : 2 ≤ p.text.length) (hk : 1 ≤ k)
    (hk' : 2 * (k : Int) ≤ whiteBonus st.scheme) :
    ∃ d ps, Returns U m q (repeating k p.text) (some d) ∧ Alignment (Cmp U st p.text) p.text (repeating k p.text) ps ∧
      d.score + 2 * k * ((p.text.length : Int) - 2) ≤ alignScore (posBonus U st.scheme (repeating k p.text)) ps := by
  have hne : p.text ≠ [] := by intro h; simp [h] at hp
  have h0 : Reachable U .v1 _ _ := .setCaseSensitivity st.caseSensitivity .new
  have h0 : Reachable U .v1 _ _ := .setCandidateNormalization st.normalization h0
  have h0 : Reachable U .v1 _ _ := .setScoringScheme st.scheme h0
  obtain ⟨m₁, h₁⟩ : ∃ m₁, Reachable U .v1 m₁ st := ⟨_, h0⟩
  obtain ⟨d₁, d₂, hd₁, hd₂, h3⟩ := C24_grows h₁ h hf hq hl hp hk hk'
  obtain ⟨y, hy, rfl⟩ := fuzzy_returns h₁ hf hq hne hd₁
  simp only [pureOf, v1Result, Option.map_eq_some_iff] at hy
  obtain ⟨g, hg, rfl⟩ := hy
  obtain ⟨_, _, _, _, _, ha, _⟩ := v1Align_some hne hg
  rw [fuzzyFor_rel hf hq] at ha
  exact ⟨d₂, g, hd₂, ha, h3⟩

/-- In the path scheme the bonus is 8. -/
example : whiteBonus .default = 10 ∧ whiteBonus .path = 8 ∧ whiteBonus .history = 8 := by decide

/-- Four letters lose 20. -/
example : PlainLetters Concrete.U .default "abcd".toList ∧ repeating 5 "abcd".toList = " abbbbbb cccccc dddddd ".toList ∧
    Returns Concrete.U (Concrete.metric .v1) (Concrete.parse "abcd") " abbbbbb cccccc dddddd ".toList (some ⟨98⟩) ∧
    Returns Concrete.U (Concrete.metric .v2) (Concrete.parse "abcd") " abbbbbb cccccc dddddd ".toList (some ⟨78⟩) :=
  ⟨⟨by decide, by decide +kernel, by decide +kernel⟩, by decide, Concrete.returns (by decide +kernel),
    Concrete.returns (by decide +kernel)⟩

end Norm.Props
