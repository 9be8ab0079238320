import Verif.Proofs.Bounds
import Verif.Proofs.Enumerate
import Verif.Proofs.Highlights
import Verif.Proofs.V2Upper
import Verif.Props.Concrete

/-!
# FzfV2's dynamic program
-/

namespace Norm.Props
open Spec

variable {U : Unicode} {m : Metric} {st : Settings} {q : FzfQuery} {p : Pattern} {s : List Char}

/-- **C50.** For a fuzzy query of two or more characters FzfV2 returns the score of the best cell of the table, and highlights
the columns that the traceback from that cell visits. -/
theorem C50_v2_table {d : FzfDistance} {buf buf' : List Range} {G : Grid} (h : Reachable U .v2 m st)
    (hf : FuzzyFor q p) (hq : QueryOk U q) (hp : 2 ≤ p.text.length)
    (hG : GridOf (Cmp U st p.text) (posBonus U st.scheme s) p.text s G)
    (hd : ReturnsRanges U m q s buf buf' (some d)) :
    ∃ r c new, G.Best p.text.length r c ∧ d = ⟨(G.table r c).1⟩ ∧ buf' = buf ++ new ∧
      ∀ b, Covers new b ↔
        ∃ i ∈ G.trace p.text.length true r c, (charRange s i).start ≤ b ∧ b < (charRange s i).stop := by
  have hne : p.text ≠ [] := by intro h; simp [h] at hp
  obtain ⟨x, new, hx, hnew, hc, rfl⟩ := fuzzy_call h hf hq hne hd
  rw [← fuzzyFor_rel hf hq] at hG
  obtain ⟨r, c, hb, rfl⟩ := v2Result_grid (posBonus_nonneg U st.scheme s) hp hG hx
  exact ⟨r, c, new, hb, rfl, hnew, hc⟩

/-- **C50**, the table exists: whenever FzfV2 matches, there is a grid as required by `C50_v2_table`. -/
theorem C50_grid_exists {d : FzfDistance} (h : Reachable U .v2 m st) (hf : FuzzyFor q p) (hq : QueryOk U q)
    (hp : p.text ≠ []) (hd : Returns U m q s (some d)) :
    ∃ G, GridOf (Cmp U st p.text) (posBonus U st.scheme s) p.text s G := by
  obtain ⟨x, hx, _⟩ := fuzzy_returns h hf hq hp hd
  refine gridOf_exists hp ?_
  rw [← fuzzyFor_rel hf hq]
  by_contra hcon
  have := (v2Result_none (posBonus_nonneg U st.scheme s)).mpr hcon
  have hx' : v2Result (posBonus U st.scheme s) (st.eqOf p) p.text s = some x := hx
  rw [this] at hx'
  cases hx'

/-- `abc` in `abbxc`: the table, its best cell and the highlighted columns. The score is that of `[0, 1, 4]`, except that the
gap before `c` costs 5: it starts again after the second `b`. -/
example :
    let G := gridFor (charEq false false) (posBonus Concrete.U .default "abbxc".toList) "abc".toList "abbxc".toList
      [0, 1, 4] 4
    GridOf (Cmp Concrete.U defaultSettings "abc".toList) (posBonus Concrete.U .default "abbxc".toList) "abc".toList
      "abbxc".toList G ∧
    ReturnsRanges Concrete.U (Concrete.metric .v2) (Concrete.parse "abc") "abbxc".toList [] [⟨0, 2⟩, ⟨4, 5⟩]
      (some ⟨72⟩) ∧
    (G.table 2 4).1 = 72 ∧ G.trace 3 true 2 4 = [4, 1, 0] := by
  refine ⟨?_, Concrete.returnsRanges (by decide +kernel), by decide +kernel, by decide +kernel⟩
  have : Cmp Concrete.U defaultSettings "abc".toList = rel (charEq false false) := by
    funext q c
    exact propext (charEq_iff _ _ q c).symm
  rw [this]
  exact gridFor_ok (by decide) (by decide +kernel) (by decide +kernel)

/-! ### The score against the documented one -/

/-- **C51**, in full: FzfV2's score is not larger than the documented score of some alignment of the query. -/
def C51 : Prop := ∀ (U : Unicode) (m : Metric) (st : Settings) (q : FzfQuery) (p : Pattern) (s : List Char),
    Reachable U .v2 m st → FuzzyFor q p → QueryOk U q → p.text ≠ [] → ∀ d, Returns U m q s (some d) →
    ∃ ps, Alignment (Cmp U st p.text) p.text s ps ∧ d.score ≤ alignScore (posBonus U st.scheme s) ps

/-- **C51 is false.** `ab` in `a a b` scores 61; its alignments `[0, 4]` and `[2, 4]` score 57 and 59. -/
theorem C51_false : ¬ C51 := by
  intro h
  obtain ⟨ps, h1, h2⟩ := h Concrete.U (Concrete.metric .v2) defaultSettings (Concrete.parse "ab")
    (mkPattern Concrete.U false .fuzzy "ab".toList) "a a b".toList (Concrete.reachable ..) (.inl (by decide +kernel))
    (Concrete.parsed _).ok (by decide) ⟨61⟩ (Concrete.returns (by decide +kernel))
  have hR : Cmp Concrete.U defaultSettings "ab".toList = rel (charEq false false) := by
    funext q c
    exact propext (charEq_iff _ _ q c).symm
  have h1 : Alignment (Cmp Concrete.U defaultSettings "ab".toList) "ab".toList "a a b".toList ps := h1
  rw [hR] at h1
  have key : ∀ ps ∈ alignments (charEq false false) "a a b".toList "ab".toList 0,
      alignScore (posBonus Concrete.U .default "a a b".toList) ps < 61 := by decide +kernel
  exact absurd h2 (Int.not_le.mpr (key ps (mem_alignments h1 fun _ _ => Nat.zero_le _)))

/-- **C51**, with a margin: FzfV2's score is at most the documented score of an alignment of some contiguous part of the
query, plus 2 for each of its characters but the first. What is missing: the rest of the query and the margin, which is the least for
every length (`C51_sharp`, and `C51_sharp_all` in `Props/Families.lean`). -/
theorem C51_part_partial {d : FzfDistance} (h : Reachable U .v2 m st) (hf : FuzzyFor q p) (hq : QueryOk U q)
    (hp : p.text ≠ []) (hd : Returns U m q s (some d)) :
    ∃ i k ps, i < k ∧ k ≤ p.text.length ∧ Alignment (Cmp U st p.text) ((p.text.take k).drop i) s ps ∧
      d.score ≤ alignScore (posBonus U st.scheme s) ps + 2 * ((k : Int) - i - 1) := by
  obtain ⟨x, hx, rfl⟩ := fuzzy_returns h hf hq hp hd
  rw [← fuzzyFor_rel hf hq]
  obtain ⟨i, k, ps, _, h1, h2, h3, h4, _⟩ := v2Result_explained (posBonus_nonneg U st.scheme s)
    (posBonus_le U st.scheme s) hp True (.inl trivial) hx
  exact ⟨i, k, ps, h1, h2, h3, h4⟩

/-- No alignment of a part of the query `p`, as compared by default, has a documented score above `n`. -/
private theorem parts_le {p s : String} {n : Int} (hs : sensitive Concrete.U .smart p.toList = false)
    (h : ∀ i < p.toList.length, ∀ k ≤ p.toList.length,
      ∀ ps ∈ alignments (charEq false false) s.toList ((p.toList.take k).drop i) 0, i < k →
        alignScore (posBonus Concrete.U .default s.toList) ps ≤ n) (i k : Nat) (ps : List Nat) (hi : i < k)
    (hk : k ≤ p.toList.length)
    (ha : Alignment (Cmp Concrete.U defaultSettings p.toList) ((p.toList.take k).drop i) s.toList ps) :
    alignScore (posBonus Concrete.U .default s.toList) ps ≤ n := by
  have hR : Cmp Concrete.U defaultSettings p.toList = rel (charEq false false) := by
    funext q c
    have : Cmp Concrete.U defaultSettings p.toList q c =
      CharMatches (sensitive Concrete.U .smart p.toList) false q c := rfl
    rw [this, hs]
    exact propext (charEq_iff _ _ q c).symm
  rw [hR] at ha
  exact h i (by omega) k hk ps (mem_alignments ha fun _ _ => Nat.zero_le _) hi

/-- The margins of `C51_part_partial` are the least: for queries of two, three and four characters, the score can exceed
the documented score of every alignment of every part by all of 2, 4 and 6. -/
theorem C51_sharp :
    (Returns Concrete.U (Concrete.metric .v2) (Concrete.parse "ab") "a a b".toList (some ⟨59 + 2⟩) ∧
      ∀ i k ps, i < k → k ≤ "ab".toList.length →
        Alignment (Cmp Concrete.U defaultSettings "ab".toList) (("ab".toList.take k).drop i) "a a b".toList ps →
        alignScore (posBonus Concrete.U .default "a a b".toList) ps ≤ 59) ∧
    (Returns Concrete.U (Concrete.metric .v2) (Concrete.parse "abc") "x-Bc1acba-a1b-c".toList (some ⟨66 + 4⟩) ∧
      ∀ i k ps, i < k → k ≤ "abc".toList.length →
        Alignment (Cmp Concrete.U defaultSettings "abc".toList) (("abc".toList.take k).drop i) "x-Bc1acba-a1b-c".toList ps →
        alignScore (posBonus Concrete.U .default "x-Bc1acba-a1b-c".toList) ps ≤ 66) ∧
    (Returns Concrete.U (Concrete.metric .v2) (Concrete.parse "abcd") "BcBBbcc aD1-aaabAc1b-Cxda".toList (some ⟨76 + 6⟩) ∧
      ∀ i k ps, i < k → k ≤ "abcd".toList.length →
        Alignment (Cmp Concrete.U defaultSettings "abcd".toList) (("abcd".toList.take k).drop i)
          "BcBBbcc aD1-aaabAc1b-Cxda".toList ps →
        alignScore (posBonus Concrete.U .default "BcBBbcc aD1-aaabAc1b-Cxda".toList) ps ≤ 76) :=
  ⟨⟨Concrete.returns (by decide +kernel), parts_le (by decide +kernel) (by decide +kernel)⟩,
    ⟨Concrete.returns (by decide +kernel), parts_le (by decide +kernel) (by decide +kernel)⟩,
    ⟨Concrete.returns (by decide +kernel), parts_le (by decide +kernel) (by decide +kernel)⟩⟩

/-- **C51**, with a margin, when the leftmost alignment of the query skips few characters: FzfV2's score is at most the
documented score of an alignment of a prefix of the query plus 2 for each of its characters but the first, and the prefix is the whole query
whenever the score exceeds what a shorter one can score. -/
theorem C51_prefix_partial {d : FzfDistance} (h : Reachable U .v2 m st) (hf : FuzzyFor q p) (hq : QueryOk U q)
    (hp : p.text ≠ [])
    (hgap : ∀ g, Leftmost (Cmp U st p.text) p.text s g →
      ∀ k i j, g[0]? = some i → g[k]? = some j → 3 * (j - i - k) ≤ 16 * k + 19)
    (hd : Returns U m q s (some d)) :
    ∃ k ps, 1 ≤ k ∧ k ≤ p.text.length ∧ Alignment (Cmp U st p.text) (p.text.take k) s ps ∧
      d.score ≤ alignScore (posBonus U st.scheme s) ps + 2 * ((k : Int) - 1) ∧
      (26 * ((p.text.length : Int) - 1) + 10 < d.score → k = p.text.length) := by
  obtain ⟨x, hx, rfl⟩ := fuzzy_returns h hf hq hp hd
  rw [← fuzzyFor_rel hf hq] at hgap ⊢
  obtain ⟨i, k, ps, h0, h1, h2, h3, h4, h5⟩ := v2Result_explained (posBonus_nonneg U st.scheme s)
    (posBonus_le U st.scheme s) hp False (.inr hgap) hx
  obtain rfl := h0.resolve_right id
  refine ⟨k, ps, h1, h2, by simpa using h3, by simpa using h4, ?_⟩
  intro h6
  simp only at h6
  omega

/-- A call that meets the hypotheses, and whose score is the documented one plus 2. The leftmost alignment of `ab` is `[0, 4]`. -/
example : Returns Concrete.U (Concrete.metric .v2) (Concrete.parse "ab") "a a b".toList (some ⟨61⟩) ∧
    26 * ((2 : Int) - 1) + 10 < 61 ∧ alignScore (posBonus Concrete.U .default "a a b".toList) [2, 4] = 59 ∧
    3 * (4 - 0 - 1) ≤ 16 * 1 + 19 :=
  ⟨Concrete.returns (by decide +kernel), by decide, by decide +kernel, by decide⟩

end Norm.Props
