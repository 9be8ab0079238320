import Verif.Proofs.StepsV2Lower
import Verif.Proofs.Grammar
import Verif.Proofs.Calls

/-!
# Helper lemmas: the queries `a…a` and `a…a z` -/

namespace Norm

open Spec

variable {U : Unicode} {st : Settings}

theorem eqOf_aa (st : Settings) (p : Pattern) : st.eqOf p 'a' 'a' = true := (charEq_aa _ _).1

/-- The pattern `a…a` matches a longer candidate of this kind. -/
theorem as_subseq (p : Pattern) {k n : Nat} (h : k ≤ n) :
    Subseq (rel (st.eqOf p)) (List.replicate k 'a') (List.replicate n 'a') := by
  refine ⟨List.replicate k 'a', List.replicate_sublist_replicate 'a' |>.mpr h, ?_⟩
  clear h
  induction k with
  | zero => exact .nil
  | succ k ih => exact .cons (eqOf_aa st p) ih

theorem as_pattern (U : Unicode) {k : Nat} (hk : 0 < k) :
    wordPattern U (List.replicate k 'a') = some (mkPattern U false .fuzzy (List.replicate k 'a')) := by
  have hd : Decorates (List.replicate k 'a') false .none false (List.replicate k 'a') := by
    refine ⟨by simp [Sigil.chars], fun _ h => ?_, by simp, fun _ h => ?_, fun _ => ⟨fun h => ?_, fun h => ?_⟩⟩
    all_goals
      try simp only [Sigil.chars, List.nil_append] at h
      first
        | exact absurd (List.eq_of_mem_replicate (List.mem_of_mem_head? h)) (by decide)
        | exact absurd (List.eq_of_mem_replicate (List.mem_of_mem_getLast? h)) (by decide)
  rw [wordPattern_of_decorates hd, if_neg (by simp; omega)]
  rfl

theorem as_not_bar (k : Nat) : List.replicate k 'a' ≠ ['|'] := by
  intro h
  have : '|' ∈ List.replicate k 'a' := by rw [h]; simp
  exact absurd (List.eq_of_mem_replicate this) (by decide)

theorem as_escape (k : Nat) : escape (List.replicate k 'a') = List.replicate k 'a' := by
  unfold escape
  induction k with
  | zero => rfl
  | succ k ih => rw [List.replicate_succ, List.flatMap_cons, ih]; rfl

theorem parsed_of_query (U : Unicode) (t : List Char) : Parsed U t (query U t) := by
  obtain ⟨P', _, h⟩ := FzfParser.parse_eq U FzfParser.new t
  exact ⟨_, P', .new, h⟩

/-- The query `a…a z`. -/
theorem as_query (U : Unicode) {k : Nat} (hk : 0 < k) : query U (List.replicate k 'a' ++ [' ', 'z']) =
    .extended [[mkPattern U false .fuzzy (List.replicate k 'a')], [mkPattern U false .fuzzy ['z']]] := by
  have hw : words (List.replicate k 'a' ++ [' ', 'z']) = [List.replicate k 'a', ['z']] := by
    have h := pieces_of_render [List.replicate k 'a', ['z']] (by simp) (by
      intro p hp
      simp only [List.dropLast_cons_cons, List.dropLast_singleton, List.mem_singleton] at hp
      subst hp
      intro h
      exact absurd (List.eq_of_mem_replicate (List.mem_of_mem_getLast? h)) (by decide))
    simp only [List.map_cons, List.map_nil, as_escape] at h
    have he : [' '].intercalate [List.replicate k 'a', escape ['z']] = List.replicate k 'a' ++ [' ', 'z'] := by
      simp [List.intercalate, escape]
    rw [he] at h
    unfold words
    rw [h]
    simp [List.filter_cons]
    omega
  have hz : wordPattern U ['z'] = some (mkPattern U false .fuzzy ['z']) := rfl
  unfold query tokens
  rw [hw]
  simp only [List.filterMap_cons, List.filterMap_nil, as_not_bar, if_false, as_pattern U hk, Option.map_some, hz]
  rfl

end Norm
