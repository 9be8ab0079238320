import Verif.Props.Concrete
import Verif.Proofs.StepsParser
import Verif.Proofs.TimedParser

/-!
# How long parsing takes

Property C72, in the steps that `Verif.Model.TimedParser` counts. -/

namespace Norm.Props

variable {U : Unicode}

/-- **C72.** Counting steps does not change what the parser does. -/
theorem C72_result (P : FzfParser) (t : List Char) :
    (P.timedParse U t).res = P.parse U t ∧ (P.timedParseNotExtended U t).res = P.parseNotExtended U t :=
  ⟨P.res_timedParse U t, P.res_timedParseNotExtended U t⟩

/-- **C72.** Parsing takes time linear in the length of the string in bytes, whatever the parser has parsed before. -/
theorem C72 (P : FzfParser) (t : List Char) : (P.timedParse U t).steps ≤ 13 * strLen t + 10 :=
  P.timedParse_steps U t

/-- **C72.** Without the extended syntax, at most five steps for each character. -/
theorem C72_not_extended (P : FzfParser) (t : List Char) : (P.timedParseNotExtended U t).steps ≤ 5 * t.length :=
  P.timedParseNotExtended_steps U t

/-! ### Concrete cases -/

/-- 68 steps for ten bytes, 90 for seventeen. -/
example : (FzfParser.new.timedParse Concrete.U "'foo b | c".toList).steps = 68 ∧
    (FzfParser.new.timedParse Concrete.U "^héllo !b$ | \\ c".toList).steps = 90 := by decide +kernel
example : (FzfParser.new.timedParse Concrete.U "^héllo !b$ | \\ c".toList).steps ≤ 13 * 17 + 10 := by
  have h := C72 (U := Concrete.U) FzfParser.new "^héllo !b$ | \\ c".toList
  have hs : strLen "^héllo !b$ | \\ c".toList = 17 := by decide +kernel
  rw [hs] at h
  exact h

/-- The empty string takes two steps; without the extended syntax, three spaces take as many as the bound allows. -/
example : (FzfParser.new.timedParse Concrete.U []).steps = 2 ∧
    (FzfParser.new.timedParseNotExtended Concrete.U "   ".toList).steps = 15 ∧
    (FzfParser.new.timedParseNotExtended Concrete.U "'foo b | c".toList).steps = 32 := by decide +kernel
example : (FzfParser.new.timedParseNotExtended Concrete.U "   ".toList).steps ≤ 5 * 3 :=
  C72_not_extended (U := Concrete.U) FzfParser.new "   ".toList

/-- The counting parser returns the query. -/
example : ((FzfParser.new.timedParse Concrete.U "'foo b | c".toList).res) = FzfParser.new.parse Concrete.U "'foo b | c".toList :=
  (C72_result FzfParser.new _).1

end Norm.Props
