import Verif.Model.Programs
import Verif.SpecApi

/-!
# What searching a list means -/

namespace Norm.Spec

/-- A metric that has the given settings and was not used before. -/
def fresh (a : Algo) (st : Settings) : Metric :=
  (((Metric.new a).setCaseSensitivity st.caseSensitivity).setCandidateNormalization st.normalization).setScoringScheme
    st.scheme

/-- The candidates of a list that match a query, in the order of the list, each with the distance that a metric
returns that is used for nothing else. -/
inductive Hits (U : Unicode) (a : Algo) (st : Settings) (q : FzfQuery) :
    List (List Char) → List (List Char × FzfDistance) → Prop
  | nil : Hits U a st q [] []
  | hit {s l d r} : Returns U (fresh a st) q s (some d) → Hits U a st q l r → Hits U a st q (s :: l) ((s, d) :: r)
  | miss {s l r} : Returns U (fresh a st) q s none → Hits U a st q l r → Hits U a st q (s :: l) r

/-- `r` are the results of a search for `q` in `l`: the candidates that match, each as often as it is in the list, the
ones with the larger scores first, and those with the same score in the order of the list. -/
structure SearchResult (U : Unicode) (a : Algo) (st : Settings) (q : FzfQuery) (l : List (List Char))
    (r : List (List Char × FzfDistance)) : Prop where
  hits : ∃ h, Hits U a st q l h ∧ r.Perm h ∧ ∀ d, r.filter (fun x => x.2 = d) = h.filter (fun x => x.2 = d)
  sorted : r.Pairwise (fun x y => y.2.score ≤ x.2.score)

/-- `q'` matches only candidates that `q` matches. -/
def Narrower (U : Unicode) (a : Algo) (st : Settings) (q' q : FzfQuery) : Prop :=
  ∀ s d, Returns U (fresh a st) q' s (some d) → ∃ d', Returns U (fresh a st) q s (some d')

end Norm.Spec
