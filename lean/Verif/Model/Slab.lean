import Verif.Model.Scoring
import Verif.Model.Candidate

/-!
# `src/metrics/fzf/slab.rs` and `src/metrics/fzf/candidate.rs`

A slab is a growable vector reused between calls. `alloc` returns a mutable view of its first
cells; the model returns the (grown) whole vector and the view separately, and the caller writes the
view back into the slab (`writeBack`) when the borrow ends.
-/

namespace Norm

/-- End of a mutable borrow of the first `view.length` cells of `vec`. Source: `/repo/src/metrics/fzf/slab.rs:68,130,197`. -/
def writeBack {α : Type u} (vec view : List α) : List α := view ++ vec.drop view.length

/-- `/repo/src/metrics/fzf/slab.rs:24-27` `Bonus`; `value : u8`, kept below 256. -/
structure BonusCell where
  value : Nat
  isSet : Bool
deriving Repr, DecidableEq

/-- `/repo/src/metrics/fzf/slab.rs:36-39` `Bonus::set` (`value as u8` truncates). -/
def BonusCell.set (value : Score) : BonusCell := ⟨(value % 256).toNat, true⟩

/-- `/repo/src/metrics/fzf/slab.rs:42-44` `Bonus::value`. -/
def BonusCell.get (b : BonusCell) : Score := b.value

/-- `/repo/src/metrics/fzf/slab.rs:23` derived `Default` of `Bonus`. -/
def BonusCell.default : BonusCell := ⟨0, false⟩

/-- `/repo/src/metrics/fzf/slab.rs:63-75` `BonusSlab::alloc`: new vector and view. -/
def bonusAlloc (vec : List BonusCell) (len : Nat) : Res (List BonusCell × List BonusCell) := do
  let vec := if len > vec.length then resize vec len BonusCell.default else vec
  let slice ← sliceToR vec len
  return (vec, slice.map (fun b => { b with isSet := false }))

/-- `/repo/src/metrics/fzf/slab.rs:100-103` the `for` loop of `CandidateSlab::alloc`. -/
def slabWriteChars (chars : List Char) : List Char → (charLen : Nat) → Res (List Char × Nat)
  | [], charLen => .ok (chars, charLen)
  | ch :: rest, charLen => do
    let chars ← setR chars charLen ch
    slabWriteChars chars rest (charLen + 1)

/-- `/repo/src/metrics/fzf/slab.rs:93-106` `CandidateSlab::alloc`: new slab and the returned slice. -/
def candidateAlloc (chars : List Char) (text : List Char) : Res (List Char × List Char) := do
  let chars := if strLen text > chars.length then resize chars (strLen text) (Char.ofNat 0) else chars
  let (chars, charLen) ← slabWriteChars chars text 0
  return (chars, ← sliceToR chars charLen)

/-- `/repo/src/metrics/fzf/slab.rs:125-131` `MatchedIndicesSlab::alloc`: new vector and view. -/
def indicesAlloc (vec : List Nat) (len : Nat) : Res (List Nat × List Nat) := do
  let vec := if len > vec.length then resize vec len 0 else vec
  return (vec, ← sliceToR vec len)

/-- `/repo/src/metrics/fzf/slab.rs:206-214` `Matrix`. -/
structure Matrix (α : Type) where
  slice : List α
  height : Nat
  width : Nat
deriving Repr, DecidableEq

/-- `/repo/src/metrics/fzf/slab.rs:190-202` `MatrixSlab::alloc`: new vector and matrix; `fill` is
`T::fill()` (lines 144-146, 159-161: `0` for both item types). -/
def matrixAlloc {α : Type} (fill : α) (vec : List α) (width height : Nat) :
    Res (List α × Matrix α) := do
  Res.assert (height * width > 0)
  let vec := if height * width > vec.length then resize vec (height * width) fill else vec
  let slice ← sliceToR vec (height * width)
  return (vec, ⟨slice.map (fun _ => fill), height, width⟩)

namespace Matrix
variable {α : Type}

/-- `/repo/src/metrics/fzf/slab.rs:310-312` `get_value`. -/
def getValue (m : Matrix α) (cell : Nat) : Option α := m.slice[cell]?

/-- `/repo/src/metrics/fzf/slab.rs:417-419` `Index`. -/
def get (m : Matrix α) (cell : Nat) : Res α := getR m.slice cell

/-- `/repo/src/metrics/fzf/slab.rs:318-320` `col_of`; `%` by zero panics. -/
def colOf (m : Matrix α) (cell : Nat) : Res Nat := if m.width = 0 then .panic else .ok (cell % m.width)

/-- `/repo/src/metrics/fzf/slab.rs:351-353` `row_of`; `/` by zero panics. -/
def rowOf (m : Matrix α) (cell : Nat) : Res Nat := if m.width = 0 then .panic else .ok (cell / m.width)

/-- `/repo/src/metrics/fzf/slab.rs:333-335` `down_right`. -/
def downRight (m : Matrix α) (cell : Nat) : Nat := cell + m.width + 1

/-- `/repo/src/metrics/fzf/slab.rs:345-347` `left`. -/
def left (_m : Matrix α) (cell : Nat) : Res Nat := subR cell 1

/-- `/repo/src/metrics/fzf/slab.rs:397-399` `up_left`. -/
def upLeft (m : Matrix α) (cell : Nat) : Res Nat := do subR (← subR cell m.width) 1

/-- `/repo/src/metrics/fzf/slab.rs:357-361` `row_mut`, as a read of the row. -/
def row (m : Matrix α) (row : Nat) : Res (List α) :=
  sliceR m.slice (row * m.width) (row * m.width + m.width)

/-- End of the mutable borrow of a row obtained by `row_mut` or `two_rows_mut`.
Source: `/repo/src/metrics/fzf/slab.rs:357-361,380-394`. -/
def setRow (m : Matrix α) (row : Nat) (r : List α) : Matrix α :=
  { m with slice := m.slice.take (row * m.width) ++ r ++ m.slice.drop (row * m.width + m.width) }

/-- `/repo/src/metrics/fzf/slab.rs:380-394` `two_rows_mut`, as a read of both rows. -/
def twoRows (m : Matrix α) (rowA rowB : Nat) : Res (List α × List α) := do
  Res.assert (rowA < rowB)
  let startB := rowB * m.width
  let partA ← sliceToR m.slice startB
  let partB ← sliceFromR m.slice startB
  let startA := rowA * m.width
  return (← sliceR partA startA (startA + m.width), ← sliceToR partB m.width)

end Matrix

/-- `/repo/src/metrics/fzf/slab.rs:8-20` `V2Slab`. -/
structure V2Slab where
  bonus : List BonusCell
  consecutiveMatrix : List Nat
  matchedIndices : List Nat
  scoringMatrix : List Score
deriving Repr, DecidableEq

/-- `/repo/src/metrics/fzf/slab.rs:7,53-58,115-120,178-185` `V2Slab::default`. -/
def V2Slab.default : V2Slab where
  bonus := List.replicate 128 BonusCell.default
  consecutiveMatrix := List.replicate 256 0
  matchedIndices := List.replicate 128 0
  scoringMatrix := List.replicate 256 0

/-- `/repo/src/metrics/fzf/candidate.rs:22-28` `CandidateOpts`. -/
structure CandidateOpts where
  charEq : CharEq
  isCaseSensitive : Bool

/-- `/repo/src/metrics/fzf/candidate.rs:39-44` `CandidateOpts::new`. -/
def CandidateOpts.new (isCaseSensitive isNormalized : Bool) : CandidateOpts :=
  ⟨Norm.charEq isCaseSensitive isNormalized, isCaseSensitive⟩

/-- `/repo/src/metrics/fzf/candidate.rs:6-18` `CandidateV2`. -/
structure CandidateV2 where
  bonuses : List BonusCell
  base : Candidate
  initialCharClass : CharClass
  opts : CandidateOpts

namespace CandidateV2

/-- `/repo/src/metrics/fzf/candidate.rs:49-69` `bonus_at` (memoised). -/
def bonusAt (U : Unicode) (c : CandidateV2) (charIdx : Nat) (scheme : Scheme) :
    Res (CandidateV2 × Score) := do
  let bonus ← getR c.bonuses charIdx
  if bonus.isSet then
    return (c, bonus.get)
  else
    let prevClass ←
      if charIdx == 0 then pure c.initialCharClass
      else (do return charClass U (← c.base.char (charIdx - 1)) scheme : Res CharClass)
    let thisClass := charClass U (← c.base.char charIdx) scheme
    let bonus := BonusCell.set (computeBonus prevClass thisClass scheme)
    return ({ c with bonuses := ← setR c.bonuses charIdx bonus }, bonus.get)

/-- `/repo/src/metrics/fzf/candidate.rs:87-89` `matches`. -/
def «matches» (c : CandidateV2) (ch : Char) : Res (List Nat) :=
  c.base.matches ch c.opts.isCaseSensitive c.opts.charEq

/-- `/repo/src/metrics/fzf/candidate.rs:92-103` `matches_from`. -/
def matchesFrom (c : CandidateV2) (off : Nat) (ch : Char) : Res (List Nat) :=
  c.base.matchesFrom off ch c.opts.isCaseSensitive c.opts.charEq

end CandidateV2

end Norm
