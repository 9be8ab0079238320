import Verif.Spec

/-!
# The search for an exact pattern

`exact_match` tries the pattern at every character that matches its first one, from left to right. It takes the class of the
preceding character from its last attempt, which is not always the right one. -/

namespace Norm.Spec

/-- `l` is how many characters of `p`, from its first one on, match the candidate from index `i` on. -/
def MatchLen (R : Char → Char → Prop) (p s : List Char) (i l : Nat) : Prop :=
  (∀ k < l, ∃ q c, p[k]? = some q ∧ s[i + k]? = some c ∧ R q c) ∧
  ∀ q c, p[l]? = some q → s[i + l]? = some c → ¬ R q c

/-- `seen i` is the class that the search for `p` in `s` takes the character before index `i` to have. -/
structure SeenBy (U : Unicode) (S : FzfScheme) (R : Char → Char → Prop) (p s : List Char) (seen : Nat → CharClass) :
    Prop where
  start : seen 0 = initialClass S
  /-- a character that does not match the pattern's first one is skipped, and its class is known -/
  skip : ∀ i c, s[i]? = some c → MatchLen R p s i 0 → seen (i + 1) = classOf U S c
  /-- finding a one-character pattern leaves the class as it was before the match -/
  one : ∀ i c, s[i]? = some c → MatchLen R p s i 1 → p.length = 1 → seen (i + 1) = seen i
  /-- an attempt leaves the class of the last character that matched, not counting the pattern's last character -/
  more : ∀ i l c, MatchLen R p s i l → 1 ≤ l → 2 ≤ p.length → s[i + min l (p.length - 1) - 1]? = some c →
    seen (i + 1) = classOf U S c

/-- The bonus computed from a class seen before index `i`. -/
def seenBonus (U : Unicode) (S : FzfScheme) (s : List Char) (seen : Nat → CharClass) (i : Nat) : Int :=
  match s[i]? with
  | none => 0
  | some c => bonus S (seen i) (classOf U S c)

end Norm.Spec
