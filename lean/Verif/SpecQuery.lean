import Verif.Spec

/-!
# Specification of the query language

Words, pattern sigils, conditions and the meaning of a query, defined on characters. Nothing here uses the parser
model or the matching model; only the data types `Pattern`, `FzfQuery` and the settings are shared. -/

namespace Norm.Spec

/-! ### Words -/

/-- Put a character in front of the first piece. -/
def consHead (c : Char) : List (List Char) → List (List Char)
  | [] => [[c]]
  | w :: ws => (c :: w) :: ws

/-- Split at unescaped spaces; `\ ` stands for a space of the piece. -/
def pieces : List Char → List (List Char)
  | [] => [[]]
  | '\\' :: ' ' :: s => consHead ' ' (pieces s)
  | ' ' :: s => [] :: pieces s
  | c :: s => consHead c (pieces s)

/-- The words of a query: the non-empty pieces. -/
def words (s : List Char) : List (List Char) := (pieces s).filter (fun w => !w.isEmpty)

/-- A text with its spaces escaped. -/
def escape (t : List Char) : List Char := t.flatMap (fun c => if c = ' ' then ['\\', ' '] else [c])

/-! ### Patterns -/

/-- The pattern with a given text and kind, with its derived fields. -/
def mkPattern (U : Unicode) (inverse : Bool) (kind : MatchType) (text : List Char) : Pattern where
  text := text
  hasUppercase := text.any U.isUppercase
  matchType := kind
  isInverse := inverse
  leadingSpaces := (text.takeWhile (· = ' ')).length
  trailingSpaces := (text.reverse.takeWhile (· = ' ')).length

/-- The sigil after the optional `!`. -/
inductive Sigil where
  | none | quote | caret
deriving DecidableEq, Repr

/-- The characters of a sigil. -/
def Sigil.chars : Sigil → List Char
  | .none => []
  | .quote => ['\'']
  | .caret => ['^']

/-- The documented meaning of the sigils. -/
def kind (inverse : Bool) (dollar : Bool) : Sigil → MatchType
  | .quote => if inverse then .fuzzy else .exact
  | .caret => if dollar then .equalExact else .prefixExact
  | .none => if dollar then .suffixExact else if inverse then .exact else .fuzzy

/-- `w` is `text` decorated with the given sigils, as many of them as possible: a final `$` is a sigil unless it
is all there is (besides `!`). -/
structure Decorates (w : List Char) (inverse : Bool) (sigil : Sigil) (dollar : Bool) (text : List Char) : Prop where
  word : w = (if inverse then ['!'] else []) ++ (sigil.chars ++ text) ++ (if dollar then ['$'] else [])
  bang : inverse = false → w.head? ≠ some '!'
  dollar_pos : dollar = true → sigil.chars ++ text ≠ []
  dollar_max : dollar = false → (sigil.chars ++ text).getLast? = some '$' → sigil.chars ++ text = ['$']
  sigil_max : sigil = .none → text.head? ≠ some '\'' ∧ text.head? ≠ some '^'

/-- Does the text of a word start with `!`? The rest. -/
def splitBang : List Char → Bool × List Char
  | '!' :: w => (true, w)
  | w => (false, w)

/-- Does it end with `$` (and is not just that)? The rest. -/
def splitDollar (w : List Char) : Bool × List Char :=
  if w.getLast? = some '$' ∧ w ≠ ['$'] then (true, w.dropLast) else (false, w)

/-- Does it start with a sigil? The rest. -/
def splitSigil : List Char → Sigil × List Char
  | '\'' :: w => (.quote, w)
  | '^' :: w => (.caret, w)
  | w => (.none, w)

/-- The pattern a word stands for, if any text is left after removing the sigils. -/
def wordPattern (U : Unicode) (w : List Char) : Option Pattern :=
  let inverse := (splitBang w).1
  let dollar := (splitDollar (splitBang w).2).1
  let sigil := (splitSigil (splitDollar (splitBang w).2).2).1
  let text := (splitSigil (splitDollar (splitBang w).2).2).2
  if text = [] then none else some (mkPattern U inverse (kind inverse dollar sigil) text)

/-! ### Conditions -/

/-- A word is a bar, a pattern, or nothing. -/
inductive Token where
  | bar
  | pat (p : Pattern)
deriving DecidableEq

/-- The tokens of a list of words. -/
def tokens (U : Unicode) (ws : List (List Char)) : List Token :=
  ws.filterMap (fun w => if w = ['|'] then some .bar else (wordPattern U w).map .pat)

/-- Conditions: successive patterns are in the same condition iff a bar stands between them. -/
def groups : List Token → List (List Pattern)
  | [] => []
  | .bar :: ts => groups ts
  | .pat p :: ts =>
    match ts.head?, groups ts with
    | some .bar, g :: gs => (p :: g) :: gs
    | _, gs => [p] :: gs

/-- A query consisting of one fuzzy pattern is represented as a non-extended query. -/
def collapse : List (List Pattern) → FzfQuery
  | [[p]] => if p.matchType = .fuzzy then .notExtended p else .extended [[p]]
  | cs => .extended cs

/-- The query a string stands for. -/
def query (U : Unicode) (s : List Char) : FzfQuery := collapse (groups (tokens U (words s)))

/-- The query `parse_not_extended` should return. -/
def rawQuery (U : Unicode) (s : List Char) : FzfQuery := .notExtended (mkPattern U false .fuzzy s)

/-- A well-formed pattern: non-empty, its derived fields computed from its text. -/
def PatternOk (U : Unicode) (p : Pattern) : Prop := p.text ≠ [] ∧ p = mkPattern U p.isInverse p.matchType p.text

/-- A well-formed query. Every query the parser returns is well-formed (`parsed_ok`). -/
def QueryOk (U : Unicode) : FzfQuery → Prop
  | .notExtended p => p = mkPattern U p.isInverse .fuzzy p.text
  | .extended cs => ∀ c ∈ cs, c ≠ [] ∧ ∀ p ∈ c, PatternOk U p

/-! ### What a query means -/

/-- Number of leading spaces. -/
def leading (s : List Char) : Nat := (s.takeWhile (· = ' ')).length

/-- Number of trailing spaces. -/
def trailing (s : List Char) : Nat := leading s.reverse

/-- Without the `j` leading spaces it has in excess of those of `t`, `s` starts with `t`. -/
def PrefixMatch (R : Char → Char → Prop) (t s : List Char) : Prop :=
  ∃ j m y, s = List.replicate j ' ' ++ m ++ y ∧ leading s = j + leading t ∧ List.Forall₂ R t m

/-- Without the `k` trailing spaces it has in excess of those of `t`, `s` ends with `t`. -/
def SuffixMatch (R : Char → Char → Prop) (t s : List Char) : Prop :=
  ∃ k m x, s = x ++ m ++ List.replicate k ' ' ∧ trailing s = k + trailing t ∧ List.Forall₂ R t m

/-- Without the `j` leading and `k` trailing spaces it has in excess of those of `t`, `s` equals `t`. -/
def EqualMatch (R : Char → Char → Prop) (t s : List Char) : Prop :=
  ∃ j k m, s = List.replicate j ' ' ++ m ++ List.replicate k ' ' ∧ leading s = j + leading t ∧
    trailing s = k + trailing t ∧ List.Forall₂ R t m

/-- Does the text `t` match the candidate `s`, for each kind of pattern? -/
def TextMatches (R : Char → Char → Prop) : MatchType → (t s : List Char) → Prop
  | .fuzzy => Subseq R
  | .exact => Substring R
  | .prefixExact => PrefixMatch R
  | .suffixExact => SuffixMatch R
  | .equalExact => EqualMatch R

/-- The comparison of a pattern's characters with the candidate's, under the settings `st`. -/
def Cmp (U : Unicode) (st : Settings) (text : List Char) : Char → Char → Prop :=
  CharMatches (sensitive U st.caseSensitivity text) st.normalization

/-- Does the pattern, ignoring `!`, match the candidate? -/
def RawMatches (U : Unicode) (st : Settings) (p : Pattern) (s : List Char) : Prop :=
  TextMatches (Cmp U st p.text) p.matchType p.text s

/-- Does the pattern match the candidate? -/
def PatternMatches (U : Unicode) (st : Settings) (p : Pattern) (s : List Char) : Prop :=
  if p.isInverse then ¬ RawMatches U st p s else RawMatches U st p s

/-- Does the query match the candidate? A non-extended query is one fuzzy pattern (the empty one matches anything);
an extended query is a conjunction of disjunctions. -/
def QueryMatches (U : Unicode) (st : Settings) : FzfQuery → (s : List Char) → Prop
  | .notExtended p, s => p.text = [] ∨ RawMatches U st p s
  | .extended cs, s => ∀ c ∈ cs, ∃ p ∈ c, PatternMatches U st p s

end Norm.Spec
