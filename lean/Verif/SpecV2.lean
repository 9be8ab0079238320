import Verif.Spec

/-!
# The scoring table of `FzfV2`

The dynamic program that scores a query of two or more characters, as a recurrence on (query character, candidate
character) pairs. Indices are character indices of the query (rows) and of the candidate (columns). -/

namespace Norm.Spec

/-- `g` is the leftmost alignment: no alignment has any of its positions further left. -/
def Leftmost (R : Char → Char → Prop) (p s : List Char) (g : List Nat) : Prop :=
  Alignment R p s g ∧ ∀ ps, Alignment R p s ps → List.Forall₂ (· ≤ ·) g ps

/-- What the table is computed from. -/
structure Grid where
  /-- does the candidate's character match the query's, within the part of the row that counts? -/
  hit : (r c : Nat) → Bool
  /-- where the row starts -/
  first : Nat → Nat
  /-- the last column -/
  last : Nat
  /-- the positional bonuses -/
  bonus : Nat → Int

/-- The grid of a query `p` and a candidate `s`: a row starts at the position of its character in the leftmost alignment;
all rows end at the last match of the last character. -/
structure GridOf (R : Char → Char → Prop) (B : Nat → Int) (p s : List Char) (G : Grid) : Prop where
  hit : ∀ r c, G.hit r c = true ↔
    G.first r ≤ c ∧ c ≤ G.last ∧ ∃ q x, p[r]? = some q ∧ s[c]? = some x ∧ R q x
  first : Leftmost R p s ((List.range p.length).map G.first)
  last : ∃ q x, p.getLast? = some q ∧ s[G.last]? = some x ∧ R q x ∧
    ∀ c y, G.last < c → s[c]? = some y → ¬ R q y
  bonus : G.bonus = B

namespace Grid
variable (G : Grid)

/-- Cost of arriving at a match in column `c` from the column on its left: a gap starts at the beginning of a row and
after every match. -/
def reach (r c : Nat) : Int := if c = G.first r ∨ G.hit r (c - 1) = true then 3 else 1

/-- Cost of moving right to column `c`. The first column after a match starts a gap and costs 3, any further one costs 1;
but if no match follows in the row, the first one costs what it cost to reach the match. -/
def cost (r c : Nat) : Int :=
  if G.hit r c = true then G.reach r c
  else if G.hit r (c - 1) = true then
    (if ∀ c' ≤ G.last, c < c' → G.hit r c' = false then G.reach r (c - 1) else 3)
  else 1

/-- Bonus and length of the run of consecutive matches that ends at column `c`, when the one up to the previous row and column has
length `run`. In a run, a character's bonus is at least 4 and at least that of the run's first character; a character
with a larger boundary bonus starts a new run. -/
def runBonus (c run : Nat) : Int × Nat :=
  if run = 0 then (G.bonus c, 1)
  else if G.bonus c ≥ 8 ∧ G.bonus c > G.bonus (c - run) then (G.bonus c, 1)
  else (max (max 4 (G.bonus (c - run))) (G.bonus c), run + 1)

/-- Score and run length at a match in column `c`: either the query character is matched here, on top of the cell `up` (previous row and
column), or the score `left` is kept. A run that scores less than `left` is given up: only the character's own bonus counts. -/
def cell (c : Nat) (left : Int) (up : Int × Nat) : Int × Nat :=
  if up.1 + 16 + (G.runBonus c up.2).1 < left then (max left (up.1 + 16 + G.bonus c), 0)
  else (up.1 + 16 + (G.runBonus c up.2).1, (G.runBonus c up.2).2)

/-- Score and run length of every cell. -/
def table : (r c : Nat) → Int × Nat
  | 0, 0 => (16 + 2 * G.bonus 0, if G.hit 0 0 = true then 1 else 0)
  | 0, c + 1 =>
    if G.hit 0 (c + 1) = true then (16 + 2 * G.bonus (c + 1), 1) else ((table 0 c).1 - G.cost 0 (c + 1), 0)
  | _ + 1, 0 => (0, 0)
  | r + 1, c + 1 =>
    if c + 1 < G.first (r + 1) then (0, 0)
    else if G.hit (r + 1) (c + 1) = true then G.cell (c + 1) ((table (r + 1) c).1 - G.cost (r + 1) (c + 1)) (table r c)
    else ((table (r + 1) c).1 - G.cost (r + 1) (c + 1), 0)

/-- `(r, c)` is the first cell, row by row, with the largest score of all matches. -/
def Best (rows r c : Nat) : Prop :=
  r < rows ∧ G.hit r c = true ∧ ∀ r' c', r' < rows → G.hit r' c' = true →
    (G.table r' c').1 ≤ (G.table r c).1 ∧
      (r' < r ∨ (r' = r ∧ c' < c) → (G.table r' c').1 < (G.table r c).1)

/-- Is column `c + 1` of a row taken, rather than column `c`? It must score more than the previous row's column `c`, and more
than column `c` of its own row (or the same, if a match is preferred). -/
def takes (prefer : Bool) (r c : Nat) : Prop :=
  (if r = 0 then 0 else (G.table (r - 1) c).1) < (G.table r (c + 1)).1 ∧
    ((G.table r c).1 < (G.table r (c + 1)).1 ∨ ((G.table r (c + 1)).1 = (G.table r c).1 ∧ prefer = true))

/-- Are matches preferred left of the cell? When it is in a run, or is followed by one. -/
def prefers (rows r c : Nat) : Bool :=
  decide ((G.table r c).2 > 1 ∨ (r + 1 < rows ∧ c < G.last ∧ (G.table (r + 1) (c + 1)).2 > 0))

instance (prefer : Bool) (r c : Nat) : Decidable (G.takes prefer r c) := by unfold takes; infer_instance

/-- The columns highlighted from a cell on, right to left: follow the row to the left until a column is taken, then go on
in the previous row. -/
def trace (rows : Nat) : (prefer : Bool) → (r c : Nat) → List Nat
  | _, r, 0 => if (G.table r 0).1 > 0 then [0] else []
  | prefer, r, c + 1 =>
    if c + 1 = G.first 0 then (if (G.table r (c + 1)).1 > 0 then [c + 1] else [])
    else if G.takes prefer r c then
      (c + 1) :: (if r = 0 then [] else trace rows (G.prefers rows r (c + 1)) (r - 1) c)
    else trace rows (G.prefers rows r (c + 1)) r c

end Grid

end Norm.Spec
