import Verif.Proofs.LocalExact
import Verif.Props.Concrete

/-!
# Text that no match of an exact pattern depends on

Property C64, for exact patterns. -/

namespace Norm.Props
open Spec

variable {U : Unicode} {a : Algo} {m : Metric} {st : Settings} {p : Pattern} {s z w : List Char}

/-- **C64**, for an exact pattern, negated or not: the text `z` behind the candidate has no match of the pattern's last character; the
text `w` before it, if there is any, has none of the pattern's first character, and the candidate does not begin with one. They change the
distance by nothing, and the ranges by the length of `w` in bytes. -/
theorem C64_exact (h : Reachable U a m st) (hp : PatternOk U p) (hk : p.matchType = .exact)
    (hw : w = [] ∨ ∀ c ∈ w ++ s.take 1, ∀ f, p.text.head? = some f → ¬ Cmp U st p.text f c)
    (hz : ∀ c ∈ z, ∀ l, p.text.getLast? = some l → ¬ Cmp U st p.text l c) {buf buf' : List Range} {d : Option FzfDistance} :
    (Returns U m (single p) (w ++ s ++ z) d ↔ Returns U m (single p) s d) ∧
      (ReturnsRanges U m (single p) (w ++ s ++ z) buf buf' d ↔
        ∃ new, ReturnsRanges U m (single p) s buf (buf ++ new) d ∧
          buf' = buf ++ new.map (fun r => ⟨byteLen w + r.start, byteLen w + r.stop⟩)) := by
  have hq := queryOk_single hp
  have hr := result_mid (a := a) (w := w) (s := s) (z := z) hk hp
    (by
      intro c hc
      rcases hw with rfl | hw
      · cases hc
      · exact hw c (List.mem_append_left _ hc))
    (hw.imp_right fun hw c hc => hw c (List.mem_append_right _ hc)) hz
  have hf := insertAll_further (byteLen w) (result U a st s (single p)).1 []
  rw [List.map_nil] at hf
  rw [returns_iff h hq, returns_iff h hq, returnsRanges_iff h hq, hr]
  dsimp only
  rw [hf]
  refine ⟨Iff.rfl, ?_⟩
  constructor
  · rintro ⟨rfl, rfl⟩
    exact ⟨_, (returnsRanges_iff h hq).mpr ⟨rfl, rfl⟩, rfl⟩
  · rintro ⟨new, hr, rfl⟩
    obtain ⟨h3, rfl⟩ := (returnsRanges_iff h hq).mp hr
    obtain rfl := List.append_cancel_left h3
    exact ⟨rfl, rfl⟩

/-- `'ab` in `xabcab`, and between `é-b ` and `-aa-`: nothing in the former, nor the `x`, matches `a`; nothing in the latter matches `b`. -/
example (a : Algo) : ReturnsRanges Concrete.U (Concrete.metric a) (single (mkPattern Concrete.U false .exact "ab".toList))
    ("é-b ".toList ++ "xabcab".toList ++ "-aa-".toList) [] [⟨6, 8⟩] (some ⟨36⟩) := by
  have hr : ReturnsRanges Concrete.U (Concrete.metric a) (single (mkPattern Concrete.U false .exact "ab".toList)) "xabcab".toList []
      ([] ++ [⟨1, 3⟩]) (some ⟨36⟩) := by
    cases a <;> exact Concrete.returnsRanges (by decide +kernel)
  have hp : PatternOk Concrete.U (mkPattern Concrete.U false .exact "ab".toList) := ⟨by decide, rfl⟩
  have hrel : ∀ st : Settings, rel (st.eqOf (mkPattern Concrete.U false .exact "ab".toList)) = Cmp Concrete.U st "ab".toList :=
    fun st => rel_eqOf st hp.upper
  refine (C64_exact (Concrete.reachable ..) hp rfl (.inr ?_) ?_).2.mpr ⟨_, hr, by decide +kernel⟩
  · intro c hc f hf
    have : f = 'a' := by simpa [mkPattern] using hf.symm
    subst this
    show ¬ Cmp Concrete.U _ "ab".toList _ c
    rw [← hrel]
    revert c
    decide +kernel
  · intro c hc f hf
    have : f = 'b' := by simpa [mkPattern] using hf.symm
    subst this
    show ¬ Cmp Concrete.U _ "ab".toList _ c
    rw [← hrel]
    revert c
    decide +kernel

end Norm.Props
