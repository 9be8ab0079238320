import Verif.Proofs.Local
import Verif.Props.Concrete

/-!
# Text that no match depends on

Property C64: what a fuzzy query finds depends on the candidate from the character before the first match of the query's
first character to the last match of its last character. -/

namespace Norm.Props
open Spec

variable {U : Unicode} {a : Algo} {m : Metric} {st : Settings} {q : FzfQuery} {p : Pattern} {s z w : List Char}

/-- **C64**, for text after the last match of the query's last character: it changes neither the distance nor the ranges. -/
theorem C64_after (h : Reachable U a m st) (hf : FuzzyFor q p) (hq : QueryOk U q) (hp : p.text ≠ [])
    (hz : ∀ c ∈ z, ∀ l, p.text.getLast? = some l → ¬ Cmp U st p.text l c) {buf buf' : List Range}
    {d : Option FzfDistance} :
    (Returns U m q (s ++ z) d ↔ Returns U m q s d) ∧
      (ReturnsRanges U m q (s ++ z) buf buf' d ↔ ReturnsRanges U m q s buf buf' d) := by
  rw [returns_iff h hq, returns_iff h hq, returnsRanges_iff h hq, returnsRanges_iff h hq, result_after hf hq hp hz]
  exact ⟨Iff.rfl, Iff.rfl⟩

/-- `ab` in `xaxb`, and with `-aa-` appended: nothing in that matches `b`. -/
example (a : Algo) : ReturnsRanges Concrete.U (Concrete.metric a) (Concrete.parse "ab") ("xaxb".toList ++ "-aa-".toList) []
    [⟨1, 2⟩, ⟨3, 4⟩] (some ⟨29⟩) := by
  have hr : ReturnsRanges Concrete.U (Concrete.metric a) (Concrete.parse "ab") "xaxb".toList [] [⟨1, 2⟩, ⟨3, 4⟩]
      (some ⟨29⟩) := by
    cases a <;> exact Concrete.returnsRanges (by decide +kernel)
  refine (C64_after (Concrete.reachable ..) (p := mkPattern Concrete.U false .fuzzy "ab".toList) (.inl (by decide +kernel))
    (Concrete.parsed _).ok (by decide) (d := some ⟨29⟩) ?_).2.mpr hr
  intro c hc l hl
  rw [← fuzzyFor_rel (q := Concrete.parse "ab") (.inl (by decide +kernel)) (Concrete.parsed _).ok]
  have : l = 'b' := by
    have h : (mkPattern Concrete.U false .fuzzy "ab".toList).text.getLast? = some 'b' := by decide +kernel
    rw [h] at hl
    simpa using hl.symm
  subst this
  revert c
  decide +kernel

/-- **C64**, for text before the first match of the query's first character: put before a candidate whose own first character is not such a
match, it changes the distance by nothing, and the ranges by its length in bytes. -/
theorem C64_before (h : Reachable U a m st) (hf : FuzzyFor q p) (hq : QueryOk U q) (hp : p.text ≠ [])
    (hw : ∀ c ∈ w ++ s.take 1, ∀ f, p.text.head? = some f → ¬ Cmp U st p.text f c) {buf buf' : List Range}
    {d : Option FzfDistance} :
    (Returns U m q (w ++ s) d ↔ Returns U m q s d) ∧
      (ReturnsRanges U m q (w ++ s) buf buf' d ↔
        ∃ new, ReturnsRanges U m q s buf (buf ++ new) d ∧
          buf' = buf ++ new.map (fun r => ⟨byteLen w + r.start, byteLen w + r.stop⟩)) := by
  obtain ⟨h1, h2⟩ := result_before (a := a) hf hq hp hw
  rw [returns_iff h hq, returns_iff h hq, returnsRanges_iff h hq, h1, h2]
  refine ⟨Iff.rfl, ?_⟩
  constructor
  · rintro ⟨rfl, rfl⟩
    exact ⟨_, (returnsRanges_iff h hq).mpr ⟨rfl, rfl⟩, rfl⟩
  · rintro ⟨new, hr, rfl⟩
    obtain ⟨h3, rfl⟩ := (returnsRanges_iff h hq).mp hr
    obtain rfl := List.append_cancel_left h3
    exact ⟨rfl, rfl⟩

/-- `ab` in `xaxb`, and behind `é-b `: nothing in that, nor the `x`, matches `a`; it is five bytes long. -/
example (a : Algo) : ReturnsRanges Concrete.U (Concrete.metric a) (Concrete.parse "ab") ("é-b ".toList ++ "xaxb".toList) []
    [⟨6, 7⟩, ⟨8, 9⟩] (some ⟨29⟩) := by
  have hr : ReturnsRanges Concrete.U (Concrete.metric a) (Concrete.parse "ab") "xaxb".toList [] ([] ++ [⟨1, 2⟩, ⟨3, 4⟩])
      (some ⟨29⟩) := by
    cases a <;> exact Concrete.returnsRanges (by decide +kernel)
  refine (C64_before (Concrete.reachable ..) (p := mkPattern Concrete.U false .fuzzy "ab".toList) (.inl (by decide +kernel))
    (Concrete.parsed _).ok (by decide) (d := some ⟨29⟩) ?_).2.mpr ⟨_, hr, by decide +kernel⟩
  intro c hc l hl
  rw [← fuzzyFor_rel (q := Concrete.parse "ab") (.inl (by decide +kernel)) (Concrete.parsed _).ok]
  have : l = 'a' := by
    have h : (mkPattern Concrete.U false .fuzzy "ab".toList).text.head? = some 'a' := by decide +kernel
    rw [h] at hl
    simpa using hl.symm
  subst this
  revert c
  decide +kernel

end Norm.Props
