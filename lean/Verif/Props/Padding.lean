import Verif.Proofs.Padding
import Verif.Proofs.Replaced
import Verif.Props.Concrete

/-!
# Spaces around a candidate

Property C98. -/

namespace Norm.Props

open Spec

variable {U : Unicode} {a : Algo} {st : Settings} {m : Metric} {q : FzfQuery} {s : List Char}

/-- **C98.** When no pattern of the query begins or ends with a space, spaces behind a candidate change neither the distance nor the
ranges; spaces before it do not change the distance either, and shift the ranges by as many bytes, unless the scheme is Path. -/
theorem C98 (h : Reachable U a m st) (hq : QueryOk U q)
    (hs : ∀ p ∈ patterns q, p.text.head? ≠ some ' ' ∧ p.text.getLast? ≠ some ' ') {i j : Nat} (hi : st.scheme ≠ .path ∨ i = 0)
    {buf buf' : List Range} {d : Option FzfDistance} :
    (Returns U m q (List.replicate i ' ' ++ s ++ List.replicate j ' ') d ↔ Returns U m q s d) ∧
      (ReturnsRanges U m q (List.replicate i ' ' ++ s ++ List.replicate j ' ') buf buf' d ↔
        ∃ new, ReturnsRanges U m q s buf (buf ++ new) d ∧ buf' = buf ++ new.map (fun r => ⟨i + r.start, i + r.stop⟩)) := by
  have hr := result_pad (a := a) (st := st) (w := List.replicate i ' ') (z := List.replicate j ' ') (s := s) hq fun p hp =>
    ⟨fun c hc => List.eq_of_mem_replicate hc, fun c hc => List.eq_of_mem_replicate hc, (hs p hp).1, (hs p hp).2,
      hi.imp_right fun h => by rw [h]; rfl⟩
  have hb : byteLen (List.replicate i ' ') = i := by
    clear hr hi
    induction i with
    | zero => rfl
    | succ i ih =>
      have : byteLen [' '] = 1 := by decide
      rw [List.replicate_succ', byteLen_append, this]
      omega
  have hf := insertAll_further i (result U a st s q).1 []
  rw [List.map_nil] at hf
  rw [hb] at hr
  rw [returns_iff h hq, returns_iff h hq, returnsRanges_iff h hq, hr]
  dsimp only
  rw [hf]
  refine ⟨Iff.rfl, ?_⟩
  constructor
  · rintro ⟨rfl, rfl⟩
    exact ⟨_, (returnsRanges_iff h hq).mpr ⟨rfl, rfl⟩, rfl⟩
  · rintro ⟨new, hr, rfl⟩
    obtain ⟨h3, rfl⟩ := (returnsRanges_iff h hq).mp hr
    obtain rfl := List.append_cancel_left h3
    exact ⟨rfl, rfl⟩

/-- A query of four kinds of patterns, the candidate `ab fo-bar`, and the same behind three spaces and before two. -/
example (a : Algo) : ReturnsRanges Concrete.U (Concrete.metric a) (Concrete.parse "^ab fo 'bar !x$") "   ab fo-bar  ".toList []
    [⟨3, 5⟩, ⟨6, 8⟩, ⟨9, 12⟩] (some ⟨204⟩) := by
  have hr : ReturnsRanges Concrete.U (Concrete.metric a) (Concrete.parse "^ab fo 'bar !x$") "ab fo-bar".toList []
      ([] ++ [⟨0, 2⟩, ⟨3, 5⟩, ⟨6, 9⟩]) (some ⟨204⟩) := by
    cases a <;> exact Concrete.returnsRanges (by decide +kernel)
  exact (C98 (Concrete.reachable ..) (Concrete.parsed _).ok (by decide +kernel) (i := 3) (j := 2) (.inl (by decide))).2.mpr
    ⟨_, hr, by decide +kernel⟩

/-- **C98**, for whether the candidate matches: under any scheme. -/
theorem C98_matches (h : Reachable U a m st) (hq : QueryOk U q)
    (hs : ∀ p ∈ patterns q, p.text.head? ≠ some ' ' ∧ p.text.getLast? ≠ some ' ') {i j : Nat} :
    Returns U m q (List.replicate i ' ' ++ s ++ List.replicate j ' ') none ↔ Returns U m q s none := by
  have hr := result_pad (a := a) (st := { st with scheme := .default }) (w := List.replicate i ' ') (z := List.replicate j ' ') (s := s)
    hq fun p hp => ⟨fun c hc => List.eq_of_mem_replicate hc, fun c hc => List.eq_of_mem_replicate hc, (hs p hp).1, (hs p hp).2,
      .inl (fun h => by cases h)⟩
  have key : ∀ s, Returns U m q s none ↔ ¬ QueryMatches U { st with scheme := .default } q s := by
    intro s
    have : QueryMatches U { st with scheme := .default } q s ↔ QueryMatches U st q s := by cases q <;> exact Iff.rfl
    rw [returns_iff h hq, this, ← result_isSome (a := a) hq]
    cases (result U a st s q).2 <;> simp
  rw [key, key, ← result_isSome (a := a) hq, ← result_isSome (a := a) hq, hr]

example (a : Algo) : Returns Concrete.U (Concrete.metric a .smart false .path) (Concrete.parse "^ab c$") "  abd   ".toList none :=
  (C98_matches (Concrete.reachable ..) (Concrete.parsed _).ok (by decide +kernel) (i := 2) (j := 3) (s := "abd".toList)).mpr
    (by cases a <;> exact Concrete.returns (by decide +kernel))

/-- **C98**, for queries without an escaped space: their patterns have no spaces. -/
theorem C98_unescaped {t : List Char} (hq : Parsed U t q) (ht : ¬ ['\\', ' '] <:+: t) :
    ∀ p ∈ patterns q, ' ' ∉ p.text ∧ p.text.head? ≠ some ' ' ∧ p.text.getLast? ≠ some ' ' := by
  intro p hp
  have hsp : ' ' ∉ p.text := by
    intro hsp
    have h1 : p ∈ pats (tokens U (words t)) := by
      rw [patterns_eq, hq.eq, query, conditions_collapse, groups_pats] at hp
      exact hp
    unfold pats tokens at h1
    obtain ⟨tk, h2, h3⟩ := List.mem_filterMap.mp h1
    obtain ⟨w, hw, h4⟩ := List.mem_filterMap.mp h2
    have hwp : wordPattern U w = some p := by
      split at h4
      · cases h4; cases h3
      · obtain ⟨p', hp', rfl⟩ := Option.map_eq_some_iff.mp h4
        simp only [Option.some.injEq] at h3
        rw [hp', h3]
    exact pieces_no_space ht w (List.mem_of_mem_filter hw) (wordPattern_mem hwp _ hsp)
  exact ⟨hsp, fun h => hsp (List.mem_of_head? h), fun h => hsp (List.mem_of_getLast? h)⟩

example : ¬ ['\\', ' '] <:+: "^ab 'c\\d | !x$".toList := by decide +kernel

/-- The hypotheses of C98 are needed. Under Path a space before the candidate `ab` lowers its score, and a pattern that begins with a
space can find the space put before the candidate. -/
theorem C98_needed (a : Algo) :
    (Returns Concrete.U (Concrete.metric a .smart false .path) (Concrete.parse "ab") "ab".toList (some ⟨59⟩) ∧
      Returns Concrete.U (Concrete.metric a .smart false .path) (Concrete.parse "ab") " ab".toList (some ⟨56⟩)) ∧
    (Returns Concrete.U (Concrete.metric a) (Concrete.parse "^\\ ab") "ab".toList none ∧
      Returns Concrete.U (Concrete.metric a) (Concrete.parse "^\\ ab") " ab".toList (some ⟨88⟩)) := by
  refine ⟨⟨?_, ?_⟩, ?_, ?_⟩ <;> cases a <;> exact Concrete.returns (by decide +kernel)

end Norm.Props
