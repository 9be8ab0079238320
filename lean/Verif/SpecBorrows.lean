import Verif.Model.Borrows
import Verif.SpecMemory

/-!
# What it means that the slices of a query are borrowed -/

namespace Norm.Spec

/-- The slice is part of one that is borrowed. -/
def Borrowed (refs : List Ref) (r : Ref) : Prop :=
  ∃ r' ∈ refs, r'.block = r.block ∧ r'.start ≤ r.start ∧ r.start + r.len ≤ r'.start + r'.len

/-- All the slices that can be read through the query are borrowed. -/
def QueryBorrowed (h : BHeap) : FzfQueryR → Prop
  | .notExtended x => Borrowed h.chars x.text
  | .extended r => Borrowed h.conditions r ∧ ∀ rs, Reads h.heap.conditions r rs → ∀ c ∈ rs,
      Borrowed h.patterns c ∧ ∀ xs, Reads h.heap.patterns c xs → ∀ x ∈ xs, Borrowed h.chars x.text

/-- A program's memory with what is borrowed of it, and the parsers in its variables. -/
structure BWorld where
  mem : BHeap
  parsers : Nat → Option FzfParserR

/-- The world without the record of what is borrowed. -/
def BWorld.world (w : BWorld) : World := ⟨w.mem.heap, w.parsers⟩

/-- One operation on the parser in variable `i`. -/
inductive StepB (U : Unicode) (i : Nat) : BWorld → BWorld → Prop
  | new {w} : w.parsers i = none →
      StepB U i w ⟨{ w.mem with heap := (FzfParserR.new w.mem.heap).1 },
        update w.parsers i (some (FzfParserR.new w.mem.heap).2)⟩
  | clone {w j P h' P'} : w.parsers i = none → w.parsers j = some P → P.clone w.mem.heap = .ok (h', P') →
      StepB U i w ⟨{ w.mem with heap := h' }, update w.parsers i (some P')⟩
  | drop {w P} : w.parsers i = some P →
      StepB U i w ⟨{ w.mem.expire P with heap := P.drop w.mem.heap }, update w.parsers i none⟩
  | parse {w P moves t b' P' q} : w.parsers i = some P → P.parseB U w.mem moves t = .ok (b', P', q) →
      StepB U i w ⟨b', update w.parsers i (some P')⟩
  | parseNotExtended {w P t b' q} : w.parsers i = some P → P.parseNotExtendedB U w.mem t = .ok (b', q) →
      StepB U i w ⟨b', w.parsers⟩
  | unwound {w P h' P'} : w.parsers i = some P → UnwoundHeap w.mem.heap P h' P' →
      StepB U i w ⟨{ w.mem.expire P with heap := h' }, update w.parsers i (some P')⟩

/-- The worlds a program can get to. -/
inductive ReachableB (U : Unicode) : BWorld → Prop
  | init : ReachableB U ⟨⟨Heap.init, [], [], []⟩, fun _ => none⟩
  | step {i w w'} : ReachableB U w → StepB U i w w' → ReachableB U w'

/-- Any operations on parsers other than the one in variable `i`. -/
inductive StepsB (U : Unicode) (i : Nat) : BWorld → BWorld → Prop
  | refl {w} : StepsB U i w w
  | step {j w w' w''} : StepsB U i w w' → j ≠ i → StepB U j w' w'' → StepsB U i w w''

/-- The reference may be copied: it is empty, or what it refers to is allocated. -/
def ValidRef {α : Type} (m : Nat → Option (List α)) (r : Ref) : Prop := r.len = 0 ∨ ∃ l, Reads m r l

/-- Every reference in the parser's buffers may be copied. -/
def ValidRefs (h : Heap) (P : FzfParserR) : Prop :=
  (∀ l, h.patterns P.patterns = some l → ∀ x ∈ l, ValidRef h.chars x.text) ∧
  (∀ l, h.conditions P.conditions = some l → ∀ c ∈ l, ValidRef h.patterns c)

/-- The worlds a program can get to without dropping a parser and without a buffer being moved. -/
inductive ReachableInPlace (U : Unicode) : World → Prop
  | init : ReachableInPlace U ⟨Heap.init, fun _ => none⟩
  | new {w i} : ReachableInPlace U w → w.parsers i = none →
      ReachableInPlace U ⟨(FzfParserR.new w.heap).1, update w.parsers i (some (FzfParserR.new w.heap).2)⟩
  | clone {w i j P h' P'} : ReachableInPlace U w → w.parsers i = none → w.parsers j = some P →
      P.clone w.heap = .ok (h', P') → ReachableInPlace U ⟨h', update w.parsers i (some P')⟩
  | parse {w i P moves t h' P' q} : ReachableInPlace U w → w.parsers i = some P →
      P.parse U w.heap moves t = .ok (h', P', q) → P' = P → ReachableInPlace U ⟨h', update w.parsers i (some P')⟩
  | parseNotExtended {w i P t h' q} : ReachableInPlace U w → w.parsers i = some P →
      P.parseNotExtended U w.heap t = .ok (h', q) → ReachableInPlace U ⟨h', w.parsers⟩

end Norm.Spec
