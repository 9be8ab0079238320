import Verif.SpecGrammar
import Verif.SpecV2
import Verif.SpecExact

/-!
# The results of a query

Which characters of the candidate a query highlights and what it scores, for both algorithms and every kind of pattern.
Nothing here computes the answer: every clause says which alignment, occurrence or cell is the one chosen. -/

namespace Norm.Spec

/-- The alignment `FzfV1` chooses: it ends as early as possible; of those ending there, it starts as late as possible; and of those
starting there, it is the leftmost. -/
structure V1Chooses (R : Char → Char → Prop) (p s : List Char) (ps : List Nat) : Prop where
  alignment : Alignment R p s ps
  ends : ∀ last, ps.getLast? = some last → ∀ ps', Alignment R p s ps' → ∃ i ∈ ps', last ≤ i
  starts : ∀ first last, ps.head? = some first → ps.getLast? = some last →
    ∀ ps', Alignment R p s ps' → (∀ i ∈ ps', i ≤ last) → ∃ i ∈ ps', i ≤ first
  leftmost : ∀ first, ps.head? = some first → ∀ ps', Alignment R p s ps' → (∀ i ∈ ps', first ≤ i) →
    List.Forall₂ (· ≤ ·) ps ps'

/-- `i` is the leftmost of the matches of the character `c` with the largest bonus. -/
def BestChar (B : Nat → Int) (R : Char → Char → Prop) (c : Char) (s : List Char) (i : Nat) : Prop :=
  (∃ x, s[i]? = some x ∧ R c x) ∧
  ∀ j y, s[j]? = some y → R c y → B j ≤ B i ∧ (j < i → B j < B i)

/-- The characters `FzfV2` highlights, and the score: those of the best match of a single character; for longer queries,
the score of the best cell of the table and the columns its traceback visits. -/
def V2Chooses (R : Char → Char → Prop) (B : Nat → Int) (p s : List Char) (ps : List Nat) (score : Int) : Prop :=
  (∃ c i, p = [c] ∧ BestChar B R c s i ∧ ps = [i] ∧ score = 16 + 2 * B i) ∨
  (2 ≤ p.length ∧ ∃ G r c, GridOf R B p s G ∧ G.Best p.length r c ∧ ps = G.trace p.length true r c ∧
    score = (G.table r c).1)

/-- The occurrence a non-fuzzy pattern highlights. -/
def BlockAt (U : Unicode) (S : FzfScheme) (R : Char → Char → Prop) (p s : List Char) : MatchType → (i : Nat) → Prop
  | .fuzzy, _ => False
  | .exact, i => ∃ seen, SeenBy U S R p s seen ∧ BestPlaced (seenBonus U S s seen) R p s i
  | .prefixExact, i => OccursAt R p s i ∧ i + leading p = leading s
  | .suffixExact, i => OccursAt R p s i ∧ s.length - (i + p.length) + trailing p = trailing s
  | .equalExact, i => OccursAt R p s i ∧ i + leading p = leading s ∧
      s.length - (i + p.length) + trailing p = trailing s

/-- Ignoring `!`, the pattern `p` highlights the characters `ps` of the candidate, and scores `score`. -/
def Finds (U : Unicode) (a : Algo) (st : Settings) (s : List Char) (p : Pattern) (ps : List Nat) (score : Int) : Prop :=
  let R := Cmp U st p.text
  let B := posBonus U st.scheme s
  if p.matchType = .fuzzy then
    match a with
    | .v1 => V1Chooses R p.text s ps ∧ score = alignScore B ps
    | .v2 => V2Chooses R B p.text s ps score
  else
    ∃ i, BlockAt U st.scheme R p.text s p.matchType i ∧ ps = List.range' i p.text.length ∧ score = alignScore B ps

/-- The pattern `p` matches, highlights the characters `ps` and contributes `score`; a negated one contributes nothing. -/
def Contributes (U : Unicode) (a : Algo) (st : Settings) (s : List Char) (p : Pattern) (ps : List Nat) (score : Int) :
    Prop :=
  if p.isInverse then ¬ RawMatches U st p s ∧ ps = [] ∧ score = 0 else Finds U a st s p ps score

/-- The character `i` of a block that starts at `b` is highlighted even if the characters in `H` already are: between the block's first character
and `i`, no highlighted stretch starts and ends. -/
def Kept (H : Nat → Prop) (b i : Nat) : Prop :=
  ∀ j k, b < j → H j → ¬ H (j - 1) → j ≤ k → k ≤ i → H k

/-- The conditions `cs` all match; together they highlight the characters in `H`, and score `n`. -/
inductive AllMatch (U : Unicode) (a : Algo) (st : Settings) (s : List Char) :
    List Condition → (H : Nat → Prop) → (n : Int) → Prop
  | nil : AllMatch U a st s [] (fun _ => False) 0
  | snoc {cs c H n p ps k} : AllMatch U a st s cs H n → FirstMatch U st s c p → Contributes U a st s p ps k →
      AllMatch U a st s (cs ++ [c])
        (fun i => H i ∨ (i ∈ ps ∧ (p.matchType = .fuzzy ∨ ∀ b, ps.head? = some b → Kept H b i))) (n + k)

/-- The query `q` highlights the characters in `H`, and scores `d` (or does not match). -/
inductive Outcome (U : Unicode) (a : Algo) (st : Settings) (s : List Char) :
    FzfQuery → (H : Nat → Prop) → (d : Option FzfDistance) → Prop
  | empty {p} : p.text = [] → Outcome U a st s (.notExtended p) (fun _ => False) (some ⟨0⟩)
  | fuzzy {p ps n} : p.text ≠ [] → Finds U a st s p ps n → Outcome U a st s (.notExtended p) (· ∈ ps) (some ⟨n⟩)
  | noFuzzy {p} : p.text ≠ [] → ¬ RawMatches U st p s → Outcome U a st s (.notExtended p) (fun _ => False) none
  | extended {cs H n} : AllMatch U a st s cs H n → Outcome U a st s (.extended cs) H (some ⟨n⟩)
  /-- a condition fails: the characters highlighted for those before it stay highlighted -/
  | fails {cs c cs' H n} : AllMatch U a st s cs H n → (∀ p ∈ c, ¬ PatternMatches U st p s) →
      Outcome U a st s (.extended (cs ++ c :: cs')) H none

/-- The ranges `rs` are non-empty, sorted and not adjacent, and cover the characters of `s` in `H`. -/
structure Highlights (s : List Char) (H : Nat → Prop) (rs : List Range) : Prop where
  nonempty : ∀ r ∈ rs, r.start < r.stop
  separate : rs.Pairwise (fun x y => x.stop < y.start)
  covers : ∀ b, Covers rs b ↔ ∃ i, H i ∧ (charRange s i).start ≤ b ∧ b < (charRange s i).stop

/-- The string `t` stands for the query `q`: the conditions are the grouped tokens of its non-empty pieces, and a query of one fuzzy
pattern is represented as a non-extended one. -/
def StandsFor (U : Unicode) (t : List Char) (q : FzfQuery) : Prop :=
  ∃ ps ts, Pieces t ps ∧ Tokenizes U (ps.filter (· ≠ [])) ts ∧ Grouped ts (conditions q) ∧
    ((∃ p, q = .notExtended p) ↔ ∃ p, conditions q = [[p]] ∧ p.matchType = .fuzzy)

end Norm.Spec
