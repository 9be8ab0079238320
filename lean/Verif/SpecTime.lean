import Verif.SpecApi

/-!
# The length of a query -/

namespace Norm.Spec

/-- `len(query)`: the number of characters of all patterns of the query together. -/
def queryLen (q : FzfQuery) : Nat := ((patterns q).map fun p => p.text.length).sum

end Norm.Spec
