import Verif.Model.TimedParser
import Verif.Proofs.Timed
import Verif.Proofs.Parser

/-! The functions of the parser that count steps return what those of the main model return. -/

namespace Norm

namespace Timed

@[simp] theorem res_stripSpaces (s : List Char) : (stripSpaces s).res = stripLeadingSpaces s := by
  simp [stripSpaces, stripLeadingSpaces, strLeadingSpaces]

@[simp] theorem res_wordsAlloc (w : Words) (l : List Char) : (wordsAlloc w l).res = w.alloc l := by
  induction l generalizing w with
  | nil => rfl
  | cons c l ih => simp [wordsAlloc, Words.alloc, ih]

@[simp] theorem res_wordsNew (buf s : List Char) : (wordsNew buf s).res = Words.new buf s := by
  simp [wordsNew, Words.new]

@[simp] theorem res_wordsNextLoop (fuel : Nat) (w : Words) (s : List Char) (e : Nat) :
    (wordsNextLoop fuel w s e).res = Words.nextLoop fuel w s e := by
  induction fuel generalizing w s e with
  | zero => rfl
  | succ fuel ih =>
    simp only [wordsNextLoop, Words.nextLoop, res_bind, res_findIdx, Res.bind_ok, memchr]
    cases List.findIdx? (fun x => x == 32) (strBytes s) with
    | none => simp
    | some o =>
      cases o with
      | zero => rfl
      | succ o =>
        simp only [res_bind, res_get]
        congr 1; funext b
        simp only [res_ite, res_bind, res_free, res_wordsAlloc, ih, res_pure]
        rfl

@[simp] theorem res_wordsNext (w : Words) : (wordsNext w).res = w.next := by
  unfold wordsNext Words.next
  simp [res_ite]

theorem res_scanText (U : Unicode) (t : List Char) : (scanText U t).res =
    .ok (t.any U.isUppercase, (t.takeWhile (· == ' ')).length, (t.reverse.takeWhile (· == ' ')).length) := by
  simp [scanText, List.findIdx?_isSome]

@[simp] theorem res_patternRaw (U : Unicode) (t : List Char) : (patternRaw U t).res = .ok (Pattern.raw U t) := by
  simp [patternRaw, Pattern.raw, res_scanText]

@[simp] theorem res_patternParse (U : Unicode) (t : List Char) : (patternParse U t).res = Pattern.parse U t := by
  simp only [patternParse, Pattern.parse, res_bind, res_free, res_tick, Res.bind_ok, res_ite, res_scanText, res_pure]
  simp only [res_ite_bind, Res.bind_assoc, Res.pure_def, Res.bind_ok]

@[simp] theorem res_patternsAlloc (p : Patterns) (x : Pattern) : (patternsAlloc p x).res = p.alloc x := by
  simp [patternsAlloc, Patterns.alloc]

@[simp] theorem res_patternsNextLoop (U : Unicode) (fuel : Nat) (p : Patterns) (b : Bool) :
    (patternsNextLoop U fuel p b).res = Patterns.nextLoop U fuel p b := by
  induction fuel generalizing p b with
  | zero => rfl
  | succ fuel ih =>
    simp only [patternsNextLoop, Patterns.nextLoop, res_bind, res_wordsNext]
    congr 1; funext x
    rcases x with ⟨_ | word, words⟩
    · rfl
    · simp only [res_bind, res_tick, Res.bind_ok, res_ite, res_patternParse, ih]
      split
      · congr 1; funext y
        rcases y with _ | y
        · simp [ih]
        · cases b <;> simp [ih]
      · rfl

@[simp] theorem res_patternsNext (U : Unicode) (p : Patterns) : (patternsNext U p).res = p.nextItem U := by
  unfold patternsNext Patterns.nextItem
  cases p.next <;> simp [res_ite]

@[simp] theorem res_parseLoop (U : Unicode) (fuel : Nat) (p : Patterns) (cs : List Condition) (n : Nat) :
    (parseLoop U fuel p cs n).res = FzfParser.parseLoop U fuel p cs n := by
  induction fuel generalizing p cs n with
  | zero => rfl
  | succ fuel ih =>
    simp only [parseLoop, FzfParser.parseLoop, res_bind, res_patternsNext]
    congr 1; funext x
    rcases x with ⟨_ | c, p⟩
    · rfl
    · simp [ih]

@[simp] theorem res_writeChars (cs l : List Char) (n : Nat) : (writeChars cs l n).res = FzfParser.writeChars cs l n := by
  induction l generalizing cs n with
  | nil => rfl
  | cons c l ih => simp [writeChars, FzfParser.writeChars, ih]

end Timed

open Timed

theorem FzfParser.res_timedParse (U : Unicode) (self : FzfParser) (q : List Char) :
    (self.timedParse U q).res = self.parse U q := by
  simp [FzfParser.timedParse, FzfParser.parse, Patterns.new, Res.bind_assoc]

theorem FzfParser.res_timedParseNotExtended (U : Unicode) (self : FzfParser) (q : List Char) :
    (self.timedParseNotExtended U q).res = self.parseNotExtended U q := by
  simp [FzfParser.timedParseNotExtended, FzfParser.parseNotExtended, FzfQuery.newNotExtended]

end Norm
