import Verif.Proofs.InPlace
import Verif.Props.Memory

/-!
# What is borrowed, and what is dangling

Property C76: nothing that a query refers to is written to, or borrowed exclusively, while the query is in use. The model is
`Model/Borrows.lean`, in which a write to what is borrowed is `Res.panic`. Property C77: the references that are left in a
parser's buffers when its query is no longer in use. -/

namespace Norm.Props
open Spec

variable {U : Unicode} {w : BWorld} {i : Nat} {P : FzfParserR} {t : List Char}

/-- **C76.** Whatever parsers there are and whatever is borrowed of them, `parse` writes to nothing that is borrowed: with
all its writes checked it returns what it returns unchecked, and does always return. Every slice that can be read through
the query is borrowed then, and stays so whatever is done with other parsers. -/
theorem C76_parse (hw : ReachableB U w) (hP : w.parsers i = some P) (moves : Moves) (t : List Char) :
    ∃ b' P' q, P.parseB U w.mem moves t = .ok (b', P', q) ∧ P.parse U w.mem.heap moves t = .ok (b'.heap, P', q) ∧
      ∀ w', StepsB U i ⟨b', update w.parsers i (some P')⟩ w' → QueryBorrowed w'.mem q := by
  obtain ⟨hr, hb⟩ := reachableB hw
  obtain ⟨_, _, _, hl⟩ := (reachable_winv hr).live i P hP
  obtain ⟨h', P', q, hp, _, _, _⟩ := parserR_parse U moves t hl
  obtain ⟨b', e1, rfl, e3, _⟩ := parser_parseB hb hp
  refine ⟨b', P', q, e1, hp, fun w' hs => ?_⟩
  obtain ⟨hr', hb'⟩ := reachableB (.step hw (.parse hP e1))
  obtain ⟨_, _, _, ha, hk⟩ := stepsB_keep hs (reachable_winv hr') hb' (update_eq ..)
  exact queryAt_keep e3 ha hk

/-- **C76**, for `parse_not_extended`. -/
theorem C76_parse_not_extended (hw : ReachableB U w) (hP : w.parsers i = some P) (t : List Char) :
    (P.parseNotExtendedB U w.mem t = .panic ↔ P.parseNotExtended U w.mem.heap t = .panic) ∧
    ∀ b' q, P.parseNotExtendedB U w.mem t = .ok (b', q) → P.parseNotExtended U w.mem.heap t = .ok (b'.heap, q) ∧
      ∀ w', StepsB U i ⟨b', w.parsers⟩ w' → QueryBorrowed w'.mem q := by
  constructor
  · cases h : P.parseNotExtendedB U w.mem t with
    | panic =>
      cases h' : P.parseNotExtended U w.mem.heap t with
      | panic => simp
      | ok x =>
        obtain ⟨b', e, _⟩ := parser_parseNotExtendedB (b := w.mem) h'
        rw [h] at e
        cases e
    | ok x => rw [parser_parseNotExtended_of_B (b := w.mem) h]; simp
  · intro b' q h
    obtain ⟨hr', hb'⟩ := reachableB (.step hw (.parseNotExtended hP h))
    have e := parser_parseNotExtended_of_B h
    refine ⟨e, fun w' hs => ?_⟩
    obtain ⟨b2, e2, _, e3, _⟩ := parser_parseNotExtendedB e
    rw [h] at e2
    cases e2
    obtain ⟨_, _, _, ha, hk⟩ := stepsB_keep hs (reachable_winv hr') hb' hP
    exact queryAt_keep e3 ha hk

/-! ### Concrete cases -/

/-- The memory after `FzfParser::new()`. Nothing is borrowed. -/
def b0 : BHeap := ⟨h0, [], [], []⟩

theorem one_parserB (U : Unicode) : ReachableB U ⟨b0, update (fun _ => none) 0 (some P0)⟩ := .step .init (.new rfl)

/-- What is borrowed after parsing the long query: four words and the `|` between the first two, three conditions and the
slice of the conditions. -/
example : ∃ b' q, P0.parseB Concrete.U b0 ⟨true, true, true⟩ long = .ok (b', ⟨1, 3, 2⟩, q) ∧
    b'.chars = [⟨1, 10, 3⟩, ⟨1, 6, 4⟩, ⟨1, 4, 2⟩, ⟨1, 3, 1⟩, ⟨1, 0, 3⟩] ∧
    b'.patterns = [⟨3, 3, 1⟩, ⟨3, 2, 1⟩, ⟨3, 0, 2⟩] ∧ b'.conditions = [⟨2, 0, 3⟩] := by
  have h : (match P0.parseB Concrete.U b0 ⟨true, true, true⟩ long with
    | .ok (b', P', _) => decide (P' = ⟨1, 3, 2⟩ ∧
      b'.chars = [⟨1, 10, 3⟩, ⟨1, 6, 4⟩, ⟨1, 4, 2⟩, ⟨1, 3, 1⟩, ⟨1, 0, 3⟩] ∧
      b'.patterns = [⟨3, 3, 1⟩, ⟨3, 2, 1⟩, ⟨3, 0, 2⟩] ∧ b'.conditions = [⟨2, 0, 3⟩])
    | .panic => false) = true := by decide +kernel
  cases hp : P0.parseB Concrete.U b0 ⟨true, true, true⟩ long with
  | panic => rw [hp] at h; cases h
  | ok x =>
    obtain ⟨b', P', q⟩ := x
    rw [hp] at h
    obtain ⟨rfl, hd⟩ := of_decide_eq_true h
    exact ⟨b', q, rfl, hd⟩

/-- A write to what is borrowed does not go unnoticed: parsing into buffers of which another query has the first word. -/
example : WordsR.allocB ⟨h0, [⟨0, 0, 3⟩], [], []⟩ ⟨0, 2, []⟩ ['x'] = .panic ∧
    (∃ b' w', WordsR.allocB ⟨h0, [⟨0, 0, 3⟩], [], []⟩ ⟨0, 3, []⟩ ['x'] = .ok (b', w')) ∧
    assertBuffer [⟨0, 0, 3⟩] 0 = .panic := ⟨rfl, ⟨_, _, rfl⟩, rfl⟩

/-! ### C77 -/

/-- **C77**, as one would have it: the references that cloning a parser copies are valid. -/
def C77 : Prop := ∀ (U : Unicode) (w : World) (i : Nat) (P : FzfParserR), ReachableWorld U w → w.parsers i = some P →
  ValidRefs w.heap P

/-- What the first stored pattern refers to is gone. -/
def Dangles (h : Heap) (P : FzfParserR) : Bool :=
  match h.patterns P.patterns with
  | some (x :: _) => x.text.len != 0 && (h.chars x.text.block).isNone
  | _ => false

theorem not_valid {h : Heap} {P : FzfParserR} (hd : Dangles h P = true) : ¬ValidRefs h P := by
  unfold Dangles at hd
  split at hd
  · rename_i x l hl
    simp only [Bool.and_eq_true, bne_iff_ne, Option.isNone_iff_eq_none] at hd
    intro hv
    rcases hv.1 _ hl x List.mem_cons_self with h0 | ⟨_, _, _, h1, _⟩
    · exact hd.1 h0
    · rw [hd.2] at h1
      cases h1
  · cases hd

/-- 65 spaces: one more byte than a new parser's character buffer has elements. -/
def spaces : List Char := List.replicate 65 ' '

/-- **C77** is false. A parser parses `a b` and then 65 spaces, for which the buffer of the characters grows. The patterns
of the first query are left in the parser's buffer, and refer to the characters that were freed. -/
theorem C77_grown_false : ∃ w P, ReachableWorld Concrete.U w ∧ w.parsers 0 = some P ∧ ¬ValidRefs w.heap P := by
  have h : (match P0.parse Concrete.U h0 ⟨true, true, true⟩ "a b".toList with
    | .ok (h1, P1, _) =>
      match P1.parse Concrete.U h1 ⟨true, true, true⟩ spaces with
      | .ok (h2, P2, _) => Dangles h2 P2
      | .panic => false
    | .panic => false) = true := by decide +kernel
  cases h1 : P0.parse Concrete.U h0 ⟨true, true, true⟩ "a b".toList with
  | panic => rw [h1] at h; cases h
  | ok x =>
    obtain ⟨m1, P1, q1⟩ := x
    rw [h1] at h
    simp only at h
    cases h2 : P1.parse Concrete.U m1 ⟨true, true, true⟩ spaces with
    | panic => rw [h2] at h; cases h
    | ok x =>
      obtain ⟨m2, P2, q2⟩ := x
      rw [h2] at h
      have s1 := ReachableWorld.step (i := 0) (one_parser Concrete.U) (.parse (P := P0) rfl h1)
      have s2 := ReachableWorld.step (i := 0) s1 (.parse (P := P1) rfl h2)
      exact ⟨_, P2, s2, rfl, not_valid h⟩

/-- **C77** is false also when nothing grows: the clone of a parser that has parsed `a b` refers to the characters of the
original, and outlives it. -/
theorem C77_cloned_false : ∃ w P, ReachableWorld Concrete.U w ∧ w.parsers 1 = some P ∧ ¬ValidRefs w.heap P := by
  have h : (match P0.parse Concrete.U h0 ⟨true, true, true⟩ "a b".toList with
    | .ok (h1, P1, _) =>
      match P1.clone h1 with
      | .ok (h2, P2) => Dangles (P1.drop h2) P2
      | .panic => false
    | .panic => false) = true := by decide +kernel
  cases h1 : P0.parse Concrete.U h0 ⟨true, true, true⟩ "a b".toList with
  | panic => rw [h1] at h; cases h
  | ok x =>
    obtain ⟨m1, P1, q1⟩ := x
    rw [h1] at h
    simp only at h
    cases h2 : P1.clone m1 with
    | panic => rw [h2] at h; cases h
    | ok x =>
      obtain ⟨m2, P2⟩ := x
      rw [h2] at h
      have s1 := ReachableWorld.step (i := 0) (one_parser Concrete.U) (.parse (P := P0) rfl h1)
      have s2 := ReachableWorld.step (i := 1) s1 (.clone (j := 0) (P := P1) rfl rfl h2)
      have s3 := ReachableWorld.step (i := 0) s2 (.drop (P := P1) rfl)
      exact ⟨_, P2, s3, rfl, not_valid h⟩

theorem C77_false : ¬C77 := by
  intro h
  obtain ⟨w, P, h1, h2, h3⟩ := C77_grown_false
  exact h3 (h _ w 0 P h1 h2)

/-- **C77**, for programs that drop no parser, and in which no buffer is moved when it grows. -/
theorem C77_partial {w : World} (hw : ReachableInPlace U w) (_ : w.parsers i = some P) : ValidRefs w.heap P :=
  ⟨(inPlace_sound hw).patterns _, (inPlace_sound hw).conditions _⟩

/-- The parser and its clone after `a b`: the references in both are valid, and not all are empty. -/
example : ∃ w P, ReachableInPlace Concrete.U w ∧ w.parsers 1 = some P ∧ ValidRefs w.heap P ∧
    ∃ l x, w.heap.patterns P.patterns = some l ∧ x ∈ l ∧ x.text = ⟨0, 0, 1⟩ := by
  have h : (match P0.parse Concrete.U h0 ⟨true, true, true⟩ "a b".toList with
    | .ok (h1, P1, _) =>
      match P1.clone h1 with
      | .ok (h2, P2) => decide (P1 = P0) && match h2.patterns P2.patterns with
        | some (x :: _) => decide (x.text = ⟨0, 0, 1⟩)
        | _ => false
      | .panic => false
    | .panic => false) = true := by decide +kernel
  cases h1 : P0.parse Concrete.U h0 ⟨true, true, true⟩ "a b".toList with
  | panic => rw [h1] at h; cases h
  | ok x =>
    obtain ⟨m1, P1, q1⟩ := x
    rw [h1] at h
    simp only at h
    cases h2 : P1.clone m1 with
    | panic => rw [h2] at h; cases h
    | ok x =>
      obtain ⟨m2, P2⟩ := x
      rw [h2] at h
      simp only [Bool.and_eq_true, decide_eq_true_eq] at h
      obtain ⟨rfl, h⟩ := h
      have s0 : ReachableInPlace Concrete.U ⟨h0, update (fun _ => none) 0 (some P0)⟩ := .new .init rfl
      have s1 := ReachableInPlace.parse (i := 0) s0 (P := P0) rfl h1 rfl
      have s2 := ReachableInPlace.clone (i := 1) (j := 0) s1 (P := P0) rfl rfl h2
      refine ⟨_, P2, s2, rfl, C77_partial s2 (i := 1) rfl, ?_⟩
      split at h
      · rename_i x l hl
        exact ⟨_, x, hl, List.mem_cons_self, of_decide_eq_true h⟩
      · cases h

end Norm.Props
