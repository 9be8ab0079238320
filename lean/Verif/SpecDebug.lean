import Verif.Model.Debug
import Verif.SpecApi

/-!
# What is printed -/

namespace Norm.Spec

/-- The name of a setting, as in the documentation. -/
def caseName : CaseSensitivity → List Char
  | .sensitive => "Sensitive".toList
  | .insensitive => "Insensitive".toList
  | .smart => "Smart".toList

def schemeName : FzfScheme → List Char
  | .default => "Default".toList
  | .path => "Path".toList
  | .history => "History".toList

def algoName : Algo → List Char
  | .v1 => "FzfV1".toList
  | .v2 => "FzfV2".toList

def boolName : Bool → List Char
  | true => "true".toList
  | false => "false".toList

/-- A metric printed on one line (`{:?}`), or with a line for every setting (`{:#?}`). -/
def metricText (alternate : Bool) (a : Algo) (st : Settings) : List Char :=
  let sep := if alternate then ",\n    ".toList else ", ".toList
  algoName a ++ (if alternate then " {\n    ".toList else " { ".toList) ++
    "candidate_normalization: ".toList ++ boolName st.normalization ++ sep ++
    "case_sensitivity: ".toList ++ caseName st.caseSensitivity ++ sep ++
    "scoring_scheme: ".toList ++ schemeName st.scheme ++ sep ++
    (if alternate then "..\n}".toList else ".. }".toList)

/-- `q` searches for a single text: it is a lone fuzzy word, or was not parsed in extended mode. -/
def Plain : FzfQuery → Prop
  | .notExtended _ => True
  | .extended _ => False

/-- The texts of a query's patterns, by conditions. -/
def texts : FzfQuery → List (List (List Char))
  | .notExtended p => if p.text = [] then [] else [[p.text]]
  | .extended cs => cs.map (·.map (·.text))

/-- A condition: its only text in quotes, or all of them between parentheses. -/
def conditionText (f : Format) (c : List (List Char)) : List Char :=
  if c.length = 1 then (c.map (debugStr f)).flatten
  else "(".toList ++ " || ".toList.intercalate (c.map (debugStr f)) ++ ")".toList

/-- A query of several conditions, or of one that is not a lone fuzzy word. -/
def conditionsText (f : Format) (cs : List (List (List Char))) : List Char :=
  " && ".toList.intercalate (cs.map (conditionText f))

/-- `l` is printed as a table: all its lines are `n` characters long. -/
def Lines (n : Nat) (lines : List (List Char)) : Prop := ∀ l ∈ lines, l.length = n ∧ '\n' ∉ l

end Norm.Spec
