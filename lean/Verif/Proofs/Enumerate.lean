import Verif.Proofs.Highlights

/-!
# All alignments of a query, as a list
-/

namespace Norm
open Spec

/-- All alignments of `p` in `s` from character `i` on. -/
def alignments (eq : CharEq) (s : List Char) : List Char → Nat → List (List Nat)
  | [], _ => [[]]
  | q :: p, i => ((List.range s.length).filter fun j => decide (i ≤ j) && s[j]?.any (eq q)).flatMap fun j =>
      (alignments eq s p (j + 1)).map (j :: ·)

theorem mem_alignments {eq : CharEq} {s : List Char} : ∀ {p : List Char} {i : Nat} {ps : List Nat},
    Alignment (rel eq) p s ps → (∀ x ∈ ps, i ≤ x) → ps ∈ alignments eq s p i := by
  intro p
  induction p with
  | nil =>
    intro i ps h _
    cases h.spells
    simp [alignments]
  | cons q p ih =>
    intro i ps h hi
    obtain ⟨h1, h2⟩ := h
    cases h2 with
    | cons h3 h4 =>
      rename_i j ps
      obtain ⟨c, hc, hR⟩ := h3
      obtain ⟨h5, h6⟩ := List.pairwise_cons.mp h1
      simp only [alignments, List.mem_flatMap, List.mem_filter, List.mem_range, List.mem_map]
      refine ⟨j, ⟨(List.getElem?_eq_some_iff.mp hc).1, ?_⟩, ps, ih ⟨h6, h4⟩ (fun x hx => h5 x hx), rfl⟩
      have : i ≤ j := hi j (by simp)
      simp [hc, this, show eq q c = true from hR]

end Norm
