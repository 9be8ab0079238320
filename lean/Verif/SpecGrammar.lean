import Verif.SpecApi

/-!
# What a parsed query has to look like

Declarative descriptions of the pieces of a string, the tokens of a list of words and the conditions of a list of
tokens, for stating the properties of the parser without the recursive functions of `Verif.SpecQuery`. -/

namespace Norm.Spec

/-- The conditions of a query, however it is represented. -/
def conditions : FzfQuery → List (List Pattern)
  | .notExtended p => [[p]]
  | .extended cs => cs

/-- `ps` are the pieces of `t`: escaping their spaces and joining them by single spaces gives `t`, and none but the last
ends with a backslash (which would escape the separating space). -/
structure Pieces (t : List Char) (ps : List (List Char)) : Prop where
  nonempty : ps ≠ []
  render : [' '].intercalate (ps.map escape) = t
  separated : ∀ p ∈ ps.dropLast, p.getLast? ≠ some '\\'

/-- The patterns and bars of a list of words: a pattern for every word that has text besides its sigils. -/
def Tokenizes (U : Unicode) (ws : List (List Char)) (ts : List Token) : Prop :=
  ∃ f : List Char → Option Token, ts = ws.filterMap f ∧ f ['|'] = some .bar ∧
    ∀ w, w ≠ ['|'] → ∃ inv sg dol text, Decorates w inv sg dol text ∧
      f w = if text = [] then none else some (.pat (mkPattern U inv (kind inv dol sg) text))

/-- The patterns of a list of tokens. -/
def pats (ts : List Token) : List Pattern := ts.filterMap (fun t => match t with | .bar => none | .pat p => some p)

/-- `cs` are the tokens `ts` grouped into conditions. -/
structure Grouped (ts : List Token) (cs : List (List Pattern)) : Prop where
  order : cs.flatten = pats ts
  nonempty : ∀ c ∈ cs, c ≠ []
  split : ∀ x p p' y, ts = x ++ .pat p :: .pat p' :: y →
    ∃ G G', cs = G ++ G' ∧ G.flatten = pats x ++ [p] ∧ G'.flatten = p' :: pats y
  join : ∀ x p k p' y, ts = x ++ .pat p :: (List.replicate (k + 1) .bar ++ .pat p' :: y) →
    ∃ G g g' G', cs = G ++ (g ++ p :: p' :: g') :: G' ∧ G.flatten ++ g = pats x ∧ g' ++ G'.flatten = pats y

/-- The query string that searches for a text as it is. -/
def literally (t : List Char) : List Char :=
  '\'' :: (escape t ++ if t.getLast? = some '$' then ['$'] else [])

/-- The sizes of a query and a candidate: neither the candidate nor a pattern has more than `N` characters, a pattern
has fewer than `2 ^ 32 - 1`, and `40 * N + 40` times the number of conditions fits into an `i64`. -/
structure Sizes (N : Nat) (q : FzfQuery) (s : List Char) : Prop where
  candidate : s.length ≤ N
  pattern : ∀ p ∈ patterns q, p.text.length ≤ N ∧ p.text.length < 2 ^ 32 - 1
  total : ((conditions q).length + 1) * (40 * N + 40) < 2 ^ 63

end Norm.Spec
