import Verif.Proofs.Memory
import Verif.Props.Concrete

/-!
# The references in a query

Property C62: the slices that a query refers to, whose lifetimes the parser stretches with `transmute`, stay what they were
when the query was made. The model is `Model/Memory.lean`, in which a dangling reference exists and cannot be read. -/

namespace Norm.Props
open Spec

variable {U : Unicode} {w : World} {i : Nat} {P : FzfParserR} {t : List Char}

/-- A query reads as one thing only. -/
theorem C62_reads_unique {h : Heap} {q : FzfQueryR} {v v' : FzfQuery} (h1 : QueryReads h q v) (h2 : QueryReads h q v') :
    v = v' := by
  have hr : ∀ {α : Type} {m : Nat → Option (List α)} {r : Ref} {l l' : List α}, Reads m r l → Reads m r l' → l = l' := by
    rintro α m r l l' ⟨pre, post, e1, e2, e3⟩ ⟨pre', post', e1', e2', e3'⟩
    rw [e1] at e1'
    have e := Option.some.inj e1'
    rw [List.append_assoc, List.append_assoc] at e
    have := (List.append_inj e (by omega)).2
    exact (List.append_inj this (by omega)).1
  have hp : ∀ {x : PatternR} {p p' : Pattern}, PatternReads h x p → PatternReads h x p' → p = p' := by
    intro x p p' a b
    cases p
    cases p'
    simp only [Pattern.mk.injEq]
    exact ⟨hr a.text b.text, a.hasUppercase.symm.trans b.hasUppercase, a.matchType.symm.trans b.matchType,
      a.isInverse.symm.trans b.isInverse, a.leadingSpaces.symm.trans b.leadingSpaces,
      a.trailingSpaces.symm.trans b.trailingSpaces⟩
  have hf : ∀ {α β : Type} {R : α → β → Prop}, (∀ {x y y'}, R x y → R x y' → y = y') →
      ∀ {l : List α} {k k' : List β}, List.Forall₂ R l k → List.Forall₂ R l k' → k = k' := by
    intro α β R hR l
    induction l with
    | nil => intro k k' a b; cases a; cases b; rfl
    | cons x l ih =>
      intro k k' a b
      cases a with
      | cons a1 a2 => cases b with | cons b1 b2 => rw [hR a1 b1, ih a2 b2]
  cases h1 with
  | notExtended a => cases h2 with | notExtended b => rw [hp a b]
  | extended a a' =>
    cases h2 with
    | extended b b' =>
      obtain rfl := hr a b
      rw [hf (fun c c' => ?_) a' b']
      obtain ⟨xs, c1, c2⟩ := c
      obtain ⟨xs', c1', c2'⟩ := c'
      obtain rfl := hr c1 c1'
      exact hf (R := PatternReads h) hp c2 c2'

/-- **C62.** In whatever state a program's parsers are, `parse` returns: no reference it follows is dangling. The query it
returns reads as the query that the string stands for, and does so as long as the parser is not used again, whatever is done
with other parsers. -/
theorem C62_parse (hw : ReachableWorld U w) (hP : w.parsers i = some P) (moves : Moves) (t : List Char) :
    ∃ h' P' q v, P.parse U w.heap moves t = .ok (h', P', q) ∧ Parsed U t v ∧
      ∀ w', Steps U i ⟨h', update w.parsers i (some P')⟩ w' → QueryReads w'.heap q v := by
  obtain ⟨_, _, _, hl⟩ := (reachable_winv hw).live i P hP
  obtain ⟨h', P', q, hp, _, _, hr⟩ := parserR_parse U moves t hl
  refine ⟨h', P', q, query U t, hp, parsed_new U t, fun w' hs => ?_⟩
  obtain ⟨_, _, ha⟩ := steps_agree hs (reachable_winv (.step hw (.parse hP hp))) (update_eq ..)
  exact hr _ ha

/-- **C62**, for `parse_not_extended`, which returns exactly when the parser's character buffer has room. -/
theorem C62_parse_not_extended (hw : ReachableWorld U w) (hP : w.parsers i = some P) (t : List Char) :
    ∃ cs, w.heap.chars P.chars = some cs ∧
      (cs.length < t.length → P.parseNotExtended U w.heap t = .panic) ∧
      (t.length ≤ cs.length → ∃ h' q v, P.parseNotExtended U w.heap t = .ok (h', q) ∧ ParsedRaw U t v ∧
        ∀ w', Steps U i ⟨h', w.parsers⟩ w' → QueryReads w'.heap q v) := by
  obtain ⟨cs, _, _, hl⟩ := (reachable_winv hw).live i P hP
  refine ⟨cs, hl.chars, fun ht => parserR_parseNotExtended_panic U t hl ht, fun ht => ?_⟩
  obtain ⟨h', q, hp, _, _, hr⟩ := parserR_parseNotExtended U t hl ht
  refine ⟨h', q, rawQuery U t, hp, parsedRaw_new U t, fun w' hs => ?_⟩
  obtain ⟨_, _, ha⟩ := steps_agree hs (reachable_winv (.step hw (.parseNotExtended hP hp))) hP
  exact hr _ ha

/-- **C62**, for `clone`: it returns, and the clone owns other allocations than every parser there is. -/
theorem C62_clone (hw : ReachableWorld U w) (hP : w.parsers i = some P) :
    ∃ h' P', P.clone w.heap = .ok (h', P') ∧ ∀ j Q, w.parsers j = some Q →
      P'.chars ≠ Q.chars ∧ P'.patterns ≠ Q.patterns ∧ P'.conditions ≠ Q.conditions := by
  obtain ⟨cs, ps, ds, hl⟩ := (reachable_winv hw).live i P hP
  unfold FzfParserR.clone
  rw [hl.chars, hl.patterns, hl.conditions]
  refine ⟨_, _, rfl, fun j Q hQ => ?_⟩
  obtain ⟨_, _, _, hq⟩ := (reachable_winv hw).live j Q hQ
  exact ⟨Ne.symm (Nat.ne_of_lt hq.charsLt), Ne.symm (Nat.ne_of_lt hq.patternsLt), Ne.symm (Nat.ne_of_lt hq.conditionsLt)⟩

/-! ### Concrete cases

Variable 0 holds a new parser. -/

/-- The memory after `FzfParser::new()`. -/
def h0 : Heap := (FzfParserR.new Heap.init).1
/-- The new parser. -/
def P0 : FzfParserR := (FzfParserR.new Heap.init).2

theorem one_parser (U : Unicode) : ReachableWorld U ⟨h0, update (fun _ => none) 0 (some P0)⟩ := .step .init (.new rfl)

/-- `^ab | cd 'e\ f !g$`, and enough spaces that all the buffers have to grow. -/
def long : List Char := "^ab | cd 'e\\ f !g$".toList ++ List.replicate 160 ' '

/-- All buffers are moved: the query refers to the new allocations. -/
example : ∃ h' q, P0.parse Concrete.U h0 ⟨true, true, true⟩ long = .ok (h', ⟨1, 3, 2⟩, q) ∧ q = .extended ⟨2, 0, 3⟩ ∧
    h'.chars 0 = none ∧ h'.patterns 0 = none ∧ h'.conditions 0 = none ∧
    readR h'.conditions ⟨2, 0, 3⟩ = .ok [⟨3, 0, 2⟩, ⟨3, 2, 1⟩, ⟨3, 3, 1⟩] ∧
    ((readR h'.patterns ⟨3, 0, 4⟩).mapR fun l => l.map (·.text)) = .ok [⟨1, 1, 2⟩, ⟨1, 4, 2⟩, ⟨1, 7, 3⟩, ⟨1, 11, 1⟩] ∧
    readR h'.chars ⟨1, 7, 3⟩ = .ok "e f".toList := by
  have h : (match P0.parse Concrete.U h0 ⟨true, true, true⟩ long with
    | .ok (h', P', q) => decide (P' = ⟨1, 3, 2⟩ ∧ q = .extended ⟨2, 0, 3⟩ ∧
        h'.chars 0 = none ∧ h'.patterns 0 = none ∧ h'.conditions 0 = none ∧
        readR h'.conditions ⟨2, 0, 3⟩ = .ok [⟨3, 0, 2⟩, ⟨3, 2, 1⟩, ⟨3, 3, 1⟩] ∧
        ((readR h'.patterns ⟨3, 0, 4⟩).mapR fun l => l.map (·.text)) = .ok [⟨1, 1, 2⟩, ⟨1, 4, 2⟩, ⟨1, 7, 3⟩, ⟨1, 11, 1⟩] ∧
        readR h'.chars ⟨1, 7, 3⟩ = .ok "e f".toList)
    | .panic => false) = true := by decide +kernel
  cases hp : P0.parse Concrete.U h0 ⟨true, true, true⟩ long with
  | panic => rw [hp] at h; cases h
  | ok x =>
    obtain ⟨h', P', q⟩ := x
    rw [hp] at h
    obtain ⟨rfl, hd⟩ := of_decide_eq_true h
    exact ⟨h', q, rfl, hd⟩

/-- The parser is then cloned, and the clone parses another string and is dropped: the query still reads the same. -/
example : ∃ h' P' q h1 P1 h2 P2 q2, P0.parse Concrete.U h0 ⟨true, true, true⟩ long = .ok (h', P', q) ∧
    P'.clone h' = .ok (h1, P1) ∧ P1.parse Concrete.U h1 ⟨false, true, false⟩ "x y".toList = .ok (h2, P2, q2) ∧
    QueryReads (P2.drop h2) q (query Concrete.U long) := by
  obtain ⟨h', P', q, v, hp, hv, hr⟩ := C62_parse (i := 0) (P := P0) (one_parser Concrete.U) rfl ⟨true, true, true⟩ long
  have r1 := ReachableWorld.step (i := 0) (one_parser Concrete.U) (.parse (P := P0) rfl hp)
  obtain ⟨h1, P1, hc, _⟩ := C62_clone (i := 0) r1 rfl
  have s1 : Step Concrete.U 1 _ _ := .clone (w := ⟨h', update (update (fun _ => none) 0 (some P0)) 0 (some P')⟩) (j := 0) rfl rfl hc
  obtain ⟨h2, P2, q2, _, hp2, _, _⟩ := C62_parse (i := 1) (.step r1 s1) rfl ⟨false, true, false⟩ "x y".toList
  have s2 := Step.parse (w := ⟨_, update (update (update (fun _ => none) 0 (some P0)) 0 (some P')) 1 (some P1)⟩) (i := 1) rfl hp2
  have s3 : Step Concrete.U 1 _ _ := .drop (w := ⟨h2, update (update (update (update (fun _ => none) 0 (some P0)) 0 (some P')) 1 (some P1)) 1
    (some P2)⟩) rfl
  have := hr _ (.step (.step (.step .refl (by decide) s1) (by decide) s2) (by decide) s3)
  rw [hv.eq] at this
  exact ⟨h', P', q, h1, P1, h2, P2, q2, hp, hc, hp2, this⟩

/-- The condition that the parser is not used again is needed, which the signature of `parse` makes sure of: after another
call the same query reads differently, and after one that grows the buffer it cannot be read. -/
example : ∃ h1 h2 h3 x y z, P0.parse Concrete.U h0 ⟨true, true, true⟩ "ab".toList = .ok (h1, P0, .notExtended x) ∧
    P0.parse Concrete.U h1 ⟨true, true, true⟩ "cd".toList = .ok (h2, P0, y) ∧
    P0.parse Concrete.U h1 ⟨true, true, true⟩ long = .ok (h3, ⟨1, 3, 2⟩, z) ∧
    readR h1.chars x.text = .ok "ab".toList ∧ readR h2.chars x.text = .ok "cd".toList ∧ readR h3.chars x.text = .panic := by
  have h : (match P0.parse Concrete.U h0 ⟨true, true, true⟩ "ab".toList with
    | .ok (h1, P1, .notExtended x) =>
      match P0.parse Concrete.U h1 ⟨true, true, true⟩ "cd".toList, P0.parse Concrete.U h1 ⟨true, true, true⟩ long with
      | .ok (h2, P2, _), .ok (h3, P3, _) => decide (P1 = P0 ∧ P2 = P0 ∧ P3 = ⟨1, 3, 2⟩ ∧
          readR h1.chars x.text = .ok "ab".toList ∧ readR h2.chars x.text = .ok "cd".toList ∧
          readR h3.chars x.text = .panic)
      | _, _ => false
    | _ => false) = true := by decide +kernel
  split at h
  · rename_i h1 P1 x e1
    split at h
    · rename_i h2 P2 y h3 P3 z e2 e3
      obtain ⟨rfl, rfl, rfl, hd⟩ := of_decide_eq_true h
      exact ⟨h1, h2, h3, x, y, z, e1, e2, e3, hd⟩
    · cases h
  · cases h

/-- `parse_not_extended` on a new parser: 64 characters fit, 65 do not. -/
example : (∃ h' q, P0.parseNotExtended Concrete.U h0 (List.replicate 64 'a') = .ok (h', q) ∧
      QueryReads h' q (rawQuery Concrete.U (List.replicate 64 'a'))) ∧
    P0.parseNotExtended Concrete.U h0 (List.replicate 65 'a') = .panic := by
  obtain ⟨cs, e, _, h1⟩ := C62_parse_not_extended (i := 0) (P := P0) (one_parser Concrete.U) rfl (List.replicate 64 'a')
  obtain ⟨cs', e', h2, _⟩ := C62_parse_not_extended (i := 0) (P := P0) (one_parser Concrete.U) rfl (List.replicate 65 'a')
  cases e
  cases e'
  obtain ⟨h', q, v, hp, hv, hr⟩ := h1 (by decide)
  refine ⟨⟨h', q, hp, ?_⟩, h2 (by decide)⟩
  have := hr _ .refl
  rwa [hv.eq] at this

end Norm.Props
