import Verif.Model.Memory
import Verif.SpecApi

/-!
# What a query refers to

A query holds references into its parser's buffers. `QueryReads h q v`: in memory `h`, the query `q` reads as `v`. `Steps`:
what a program can do while it holds a query of the parser in variable `i`, namely anything with other parsers. -/

namespace Norm.Spec

/-- The contents of a slice, if its allocation is live and it lies within. -/
def Reads {α : Type} (m : Nat → Option (List α)) (r : Ref) (l : List α) : Prop :=
  ∃ pre post, m r.block = some (pre ++ l ++ post) ∧ pre.length = r.start ∧ l.length = r.len

/-- The pattern `x` reads as `p`. -/
structure PatternReads (h : Heap) (x : PatternR) (p : Pattern) : Prop where
  text : Reads h.chars x.text p.text
  hasUppercase : x.hasUppercase = p.hasUppercase
  matchType : x.matchType = p.matchType
  isInverse : x.isInverse = p.isInverse
  leadingSpaces : x.leadingSpaces = p.leadingSpaces
  trailingSpaces : x.trailingSpaces = p.trailingSpaces

/-- The condition `r` reads as `c`. -/
def ConditionReads (h : Heap) (r : ConditionR) (c : Condition) : Prop :=
  ∃ xs, Reads h.patterns r xs ∧ List.Forall₂ (PatternReads h) xs c

/-- The query `q` reads as `v`. -/
inductive QueryReads (h : Heap) : FzfQueryR → FzfQuery → Prop
  | notExtended {x p} : PatternReads h x p → QueryReads h (.notExtended x) (.notExtended p)
  | extended {r rs cs} : Reads h.conditions r rs → List.Forall₂ (ConditionReads h) rs cs →
      QueryReads h (.extended r) (.extended cs)

/-- A program's memory, and the parsers in its variables. -/
structure World where
  heap : Heap
  parsers : Nat → Option FzfParserR

/-- What a call that panics may leave of one of a parser's vectors, which was in allocation `b` and is in `b'` now: it has been
written to or grown where it was, or it has been moved and its old allocation been freed. Its contents may be anything, but it
is not shorter than before; no other allocation is touched. -/
inductive UnwoundVec {α : Type} (next next' : Nat) (m m' : Nat → Option (List α)) (b b' : Nat) : Prop
  | inPlace {l l' : List α} : m b = some l → l.length ≤ l'.length → b' = b → m' = update m b (some l') →
      UnwoundVec next next' m m' b b'
  | moved {l l' : List α} : m b = some l → l.length ≤ l'.length → next ≤ b' → b' < next' →
      m' = update (update m b none) b' (some l') → UnwoundVec next next' m m' b b'

/-- What a call of `parse` or `parse_not_extended` that panics may leave of the memory and of the parser `P`. -/
structure UnwoundHeap (h : Heap) (P : FzfParserR) (h' : Heap) (P' : FzfParserR) : Prop where
  next : h.next ≤ h'.next
  chars : UnwoundVec h.next h'.next h.chars h'.chars P.chars P'.chars
  patterns : UnwoundVec h.next h'.next h.patterns h'.patterns P.patterns P'.patterns
  conditions : UnwoundVec h.next h'.next h.conditions h'.conditions P.conditions P'.conditions

/-- One operation on the parser in variable `i`. -/
inductive Step (U : Unicode) (i : Nat) : World → World → Prop
  | new {w} : w.parsers i = none →
      Step U i w ⟨(FzfParserR.new w.heap).1, update w.parsers i (some (FzfParserR.new w.heap).2)⟩
  | clone {w j P h' P'} : w.parsers i = none → w.parsers j = some P → P.clone w.heap = .ok (h', P') →
      Step U i w ⟨h', update w.parsers i (some P')⟩
  | drop {w P} : w.parsers i = some P → Step U i w ⟨P.drop w.heap, update w.parsers i none⟩
  | parse {w P moves t h' P' q} : w.parsers i = some P → P.parse U w.heap moves t = .ok (h', P', q) →
      Step U i w ⟨h', update w.parsers i (some P')⟩
  | parseNotExtended {w P t h' q} : w.parsers i = some P → P.parseNotExtended U w.heap t = .ok (h', q) →
      Step U i w ⟨h', w.parsers⟩
  | unwound {w P h' P'} : w.parsers i = some P → UnwoundHeap w.heap P h' P' →
      Step U i w ⟨h', update w.parsers i (some P')⟩

/-- The worlds a program can get to. -/
inductive ReachableWorld (U : Unicode) : World → Prop
  | init : ReachableWorld U ⟨Heap.init, fun _ => none⟩
  | step {i w w'} : ReachableWorld U w → Step U i w w' → ReachableWorld U w'

/-- Any operations on parsers other than the one in variable `i`. -/
inductive Steps (U : Unicode) (i : Nat) : World → World → Prop
  | refl {w} : Steps U i w w
  | step {j w w' w''} : Steps U i w w' → j ≠ i → Step U j w' w'' → Steps U i w w''

end Norm.Spec
