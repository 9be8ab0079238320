import Verif.Proofs.Grammar

/-!
# Helper lemmas for the property theorems -/

set_option linter.unusedSimpArgs false

namespace Norm

open Spec

variable {U : Unicode} {a : Algo} {m m' : Metric} {st : Settings} {q : FzfQuery} {s t : List Char}

theorem Spec.Parsed.eq (h : Parsed U t q) : q = query U t := by
  obtain ⟨P, P', _, h⟩ := h
  obtain ⟨P'', _, h2⟩ := FzfParser.parse_eq U P t
  rw [h2] at h; cases h; rfl

theorem Spec.ParsedRaw.eq (h : ParsedRaw U t q) : q = rawQuery U t := by
  obtain ⟨P, P', _, h⟩ := h
  by_cases hl : t.length ≤ P.chars.length
  · obtain ⟨P'', _, h2⟩ := FzfParser.parseNotExtended_ok U P t hl
    rw [h2] at h; cases h; rfl
  · rw [FzfParser.parseNotExtended_panic U P t (by omega)] at h
    cases h

theorem Spec.Parsed.ok (h : Parsed U t q) : QueryOk U q := by rw [h.eq]; exact query_ok U t

theorem Spec.ParsedRaw.ok (h : ParsedRaw U t q) : QueryOk U q := by rw [h.eq]; exact raw_ok U t

theorem parsed_new (U : Unicode) (t : List Char) : Parsed U t (query U t) := by
  obtain ⟨P', _, h⟩ := FzfParser.parse_eq U FzfParser.new t
  exact ⟨_, P', .new, h⟩

theorem returns_iff (h : Reachable U a m st) (hq : QueryOk U q) {d : Option FzfDistance} :
    Returns U m q s d ↔ d = (result U a st s q).2.map FzfDistance.fromScore := by
  constructor
  · rintro ⟨m', hd⟩; exact call_inv h hq hd
  · rintro rfl
    obtain ⟨m', _, h1⟩ := call h hq s
    exact ⟨m', h1⟩

theorem returnsRanges_iff (h : Reachable U a m st) (hq : QueryOk U q) {buf buf' : List Range}
    {d : Option FzfDistance} :
    ReturnsRanges U m q s buf buf' d ↔ buf' = buf ++ insertAll [] (result U a st s q).1 ∧
      d = (result U a st s q).2.map FzfDistance.fromScore := by
  constructor
  · rintro ⟨m', hd⟩; exact callR_inv h hq hd
  · rintro ⟨rfl, rfl⟩
    obtain ⟨m', _, h1⟩ := callR h hq s buf
    exact ⟨m', h1⟩

/-- The match decision of a call. -/
theorem decision (h : Reachable U a m st) (hq : QueryOk U q) (s : List Char) :
    ∃ d, Returns U m q s d ∧ (d.isSome = true ↔ QueryMatches U st q s) := by
  refine ⟨_, (returns_iff h hq).mpr rfl, ?_⟩
  rw [Option.isSome_map, result_isSome hq]

theorem query_one {w : List Char} {p : Pattern} (hw : words t = [w]) (hp : wordPattern U w = some p)
    (hk : p.matchType ≠ .fuzzy) : query U t = single p := by
  have hbar : w ≠ ['|'] := by
    rintro rfl
    have : wordPattern U ['|'] = some (mkPattern U false .fuzzy ['|']) := rfl
    rw [this] at hp
    obtain rfl := Option.some.inj hp
    exact hk rfl
  simp [query, tokens, hw, hbar, hp, groups, collapse, hk, single]

theorem query_one_fuzzy {w : List Char} {p : Pattern} (hw : words t = [w]) (hb : w ≠ ['|'])
    (hp : wordPattern U w = some p) (hk : p.matchType = .fuzzy) : query U t = .notExtended p := by
  simp [query, tokens, hw, hb, hp, groups, collapse, hk]

theorem queryMatches_single {p : Pattern} : QueryMatches U st (single p) s ↔ PatternMatches U st p s := by
  simp [QueryMatches, single]

end Norm
