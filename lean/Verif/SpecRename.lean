import Verif.SpecApi

/-!
# Writing a query with other characters -/

namespace Norm.Spec

/-- The pattern `p` with other characters. -/
def renamePattern (U : Unicode) (f : Char → Char) (p : Pattern) : Pattern := mkPattern U p.isInverse p.matchType (p.text.map f)

/-- The query `q` with other characters. -/
def renameQuery (U : Unicode) (f : Char → Char) : FzfQuery → FzfQuery
  | .notExtended p => .notExtended (renamePattern U f p)
  | .extended cs => .extended (cs.map (·.map (renamePattern U f)))

/-- `f` exchanges letters and digits: it maps lower case letters to lower case letters, capitals to the corresponding capitals, digits
to digits, no two characters to the same one, and it leaves all other characters alone. -/
structure Exchanges (f : Char → Char) : Prop where
  injective : ∀ c d, f c = f d → c = d
  lower : ∀ c ∈ "abcdefghijklmnopqrstuvwxyz".toList, f c ∈ "abcdefghijklmnopqrstuvwxyz".toList
  upper : ∀ c ∈ "ABCDEFGHIJKLMNOPQRSTUVWXYZ".toList, f c ∈ "ABCDEFGHIJKLMNOPQRSTUVWXYZ".toList ∧ Spec.lower (f c) = f (Spec.lower c)
  digit : ∀ c ∈ "0123456789".toList, f c ∈ "0123456789".toList
  other : ∀ c, c ∉ "abcdefghijklmnopqrstuvwxyz".toList → c ∉ "ABCDEFGHIJKLMNOPQRSTUVWXYZ".toList → c ∉ "0123456789".toList → f c = c

/-- `U` says of the characters of ASCII which are capitals. -/
def KnowsCapitals (U : Unicode) : Prop :=
  ∀ c : Char, c.toNat < 128 → (U.isUppercase c = true ↔ c ∈ "ABCDEFGHIJKLMNOPQRSTUVWXYZ".toList)

end Norm.Spec
