import Verif.Spec

/-!
# Where the characters of a query match -/

namespace Norm.Spec

/-- Every character of `p` matches at the same positions of `s` and of `s'`. -/
def SamePlaces (R : Char → Char → Prop) (p s s' : List Char) : Prop :=
  ∀ q ∈ p, ∀ i : Nat, (∃ x, s[i]? = some x ∧ R q x) ↔ ∃ y, s'[i]? = some y ∧ R q y

/-- Position `i` of `s` matches a character of `p`. -/
def Place (R : Char → Char → Prop) (p s : List Char) (i : Nat) : Prop := ∃ q ∈ p, ∃ x, s[i]? = some x ∧ R q x

/-- `s'` is `s` with some of its slashes replaced by spaces. -/
def Opened (s s' : List Char) : Prop := List.Forall₂ (fun c c' => c = c' ∨ (c = '/' ∧ c' = ' ')) s s'

end Norm.Spec
