import Verif.Proofs.Count
import Verif.Props.Ranges

/-!
# The number of ranges

Property C97: a call appends at most as many ranges as the query has room for, and as fit in the candidate, and
highlights no more characters than the query has. -/

namespace Norm.Props

open Spec

variable {U : Unicode} {a : Algo} {m : Metric} {st : Settings} {q : FzfQuery} {s : List Char} {buf buf' : List Range}
  {d : Option FzfDistance}

/-- **C97.** A call appends at most one range for each character of a fuzzy word, one for each other word and none for a negated one;
of the alternatives of a condition the one with the most counts. -/
theorem C97_query (h : Reachable U a m st) (hq : QueryOk U q) (hd : ReturnsRanges U m q s buf buf' d) :
    buf'.length ≤ buf.length + most q := by
  obtain ⟨rfl, -⟩ := (returnsRanges_iff h hq).mp hd
  have h1 := insertAll_length (result U a st s q).1 []
  have h2 := result_length (a := a) (st := st) (s := s) hq
  rw [List.length_append, List.length_nil] at *
  omega

/-- **C97.** A call appends at most one range for every two bytes of the candidate, rounded up. -/
theorem C97_candidate (h : Reachable U a m st) (hq : QueryOk U q) (hd : ReturnsRanges U m q s buf buf' d) :
    2 * buf'.length ≤ 2 * buf.length + byteLen s + 1 := by
  obtain ⟨new, rfl, h1, h2⟩ := C15_disjoint h hq hd
  obtain ⟨new', e, h3⟩ := C16_slices h hq hd
  obtain rfl := List.append_cancel_left e
  rw [List.length_append]
  rcases Usize.sep_length ⟨h1, h2⟩ (a := 0) (fun _ _ => Nat.zero_le _) (K := byteLen s) (fun r hr => (h3 r hr).2.1) with h1 | h1
  · omega
  · rw [h1, List.length_nil]; omega

/-- **C97.** The bytes that a call highlights belong to at most as many characters of the candidate as the words of the query have that are
not negated, counting the longest alternative of each condition. -/
theorem C97_characters (h : Reachable U a m st) (hq : QueryOk U q) (hd : ReturnsRanges U m q s buf buf' d) :
    ∃ (new : List Range) (is : List Nat), buf' = buf ++ new ∧ is.length ≤ mostChars q ∧ (∀ i ∈ is, i < s.length) ∧
      ∀ b, Covers new b → ∃ i ∈ is, (charRange s i).start ≤ b ∧ b < (charRange s i).stop := by
  obtain ⟨rfl, -⟩ := (returnsRanges_iff h hq).mp hd
  obtain ⟨is, h1, h2⟩ := result_within (a := a) (st := st) (s := s) hq
  refine ⟨_, is, rfl, h2, h1.1, fun b hb => ?_⟩
  rcases insertAll_sound sep_nil (fun r hr => (result_slice (a := a) (st := st) (s := s) hq r hr).lt) hb with h3 | h3
  · simp at h3
  · exact h1.2 b h3

/-- Room for 3 + 2 + 0 ranges, of which FzfV2 uses four. -/
example : most (Concrete.parse "abc 'de | fg !x") = 5 ∧ mostChars (Concrete.parse "abc 'de | fg !x") = 5 ∧
    ReturnsRanges Concrete.U (Concrete.metric .v2) (Concrete.parse "abc 'de | fg !x") "a_b_c_fg_de".toList []
      [⟨0, 1⟩, ⟨2, 3⟩, ⟨4, 5⟩, ⟨9, 11⟩] (some ⟨134⟩) :=
  ⟨by decide +kernel, by decide +kernel, Concrete.returnsRanges (by decide +kernel)⟩

/-- Both bounds are reached: three characters, and five bytes. -/
example : most (Concrete.parse "abc") = 3 ∧ byteLen "a_b_c".toList = 5 ∧
    ReturnsRanges Concrete.U (Concrete.metric .v1) (Concrete.parse "abc") "a_b_c".toList [⟨7, 9⟩] [⟨7, 9⟩, ⟨0, 1⟩, ⟨2, 3⟩, ⟨4, 5⟩] (some ⟨78⟩) :=
  ⟨by decide +kernel, by decide +kernel, Concrete.returnsRanges (by decide +kernel)⟩

end Norm.Props
