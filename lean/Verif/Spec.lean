import Verif.Model.Query
import Verif.Model.Utils
import Verif.Model.Scoring
import Mathlib.Data.List.Forall2

/-!
# Specification vocabulary

Small, independent definitions used to state the properties. They do not call the model's matching
functions; they use the model's *data types* (patterns, settings).
-/

namespace Norm

/-- The user-visible settings of a metric. -/
structure Settings where
  caseSensitivity : CaseSensitivity
  normalization : Bool
  scheme : FzfScheme
deriving DecidableEq

end Norm

namespace Norm.Spec

/-- The characters that candidate normalization replaces, by the letter that replaces them: the letter in the
character's Unicode name (`č` is "LATIN SMALL LETTER C WITH CARON"), upper case for capitals and small capitals. The
combining letters, which cannot be displayed alone, are written as escapes. -/
def variants : List (Char × String) := [
  ('A', "ÀÁÂÃÄÅȺᴀẤẦẨẪẬẮẰẲẴẶ"),
  ('B', "ƁɃʙᴃ"),
  ('C', "ÇȻᴄ"),
  ('D', "ƉƊᴅ"),
  ('E', "ÈÉÊËƎƐɆᴇẾỀỂỄỆ"),
  ('G', "Ɠɢʛ"),
  ('H', "ʜ"),
  ('I', "ÌÍÎÏİƗɪ"),
  ('J', "Ɉᴊ"),
  ('K', "ᴋ"),
  ('L', "Ƚʟᴌ"),
  ('M', "Ɯᴍ"),
  ('N', "ÑƝȠɴᴎ"),
  ('O', "ÒÓÔÕÖØƆƟᴏᴐỐỒỔỖỘỚỜỞỠỢ"),
  ('P', "ᴘ"),
  ('Q', "Ɋ"),
  ('R', "Ɍʀʁᴙᴚ"),
  ('T', "ƮȾᴛ"),
  ('U', "ÙÚÛÜɄᴜỨỪỬỮỰ"),
  ('V', "ƲɅᴠ"),
  ('W', "ᴡ"),
  ('Y', "ÝŸɎʏ"),
  ('Z', "ᴢ"),
  ('a', "àáâãäåāăąǎȁȃȧɐɑ\u0363ḁẚạảấầẩẫậắằẳẵặ"),
  ('b', "ƀƃɓḃḅḇ"),
  ('c', "çćĉċčƈȼɕʗ\u0368ↄ"),
  ('d', "ďđƌȡɖɗ\u0369ḋḍḏḑḓ"),
  ('e', "èéêëēĕėęěǝȅȇȩɇɘɛɜɝɞʚ\u0364ᴈḙḛẹẻẽếềểễệ"),
  ('f', "ƒḟ"),
  ('g', "ĝğġģǥǧǵɠɡḡ"),
  ('h', "ĥħȟɥɦʮ\u036aḣḥḧḩḫẖₕ"),
  ('i', "ìíîïĩīĭįıǐȉȋɨ\u0365ᴉᵢḭỉịⁱ"),
  ('j', "ĵǰȷɉɟʝ"),
  ('k', "ķƙǩʞḱḳḵₖ"),
  ('l', "ĺļľŀłƚȴɫɬɭḷḻḽₗ"),
  ('m', "ɯɰɱ\u036bᴟḿṁṃₘ"),
  ('n', "ñńņňƞǹȵɲɳṅṇṉṋₙ"),
  ('o', "òóôõöøōŏőơǒǫȍȏȯɔɵ\u0366ᴑᴒᴓᴖᴗọỏốồổỗộớờởỡợ"),
  ('p', "ƥṕṗₚ"),
  ('q', "ɋʠ"),
  ('r', "ŕŗřȑȓɍɹɺɻɼɽɾɿ\u036cᵣṙṛṟ"),
  ('s', "ßśŝşšſșȿʂṡṣẛₛ"),
  ('t', "ţťŧƫƭțȶʇʈ\u036dṫṭṯṱẗₜ"),
  ('u', "ùúûüũūŭůűųưǔȕȗʉ\u0367ᴝᴞᵤṳṵṷụủứừửữự"),
  ('v', "ʋʌ\u036eᵥṽṿ"),
  ('w', "ŵʍẁẃẅẇẉẘ"),
  ('x', "\u036fẋẍ"),
  ('y', "ýÿŷƴȳɏʎẏẙỳỵỷỹ"),
  ('z', "źżžƶȥɀʐʑẑẓẕ")]

/-- `t` is the listed replacement of `c`. -/
def Listed (c t : Char) : Prop := ∃ e ∈ variants, e.1 = t ∧ c ∈ e.2.toList

instance (c t : Char) : Decidable (Listed c t) := by unfold Listed; infer_instance

instance (c : Char) : Decidable (∀ t, ¬ Listed c t) :=
  decidable_of_iff (∀ e ∈ variants, c ∉ e.2.toList)
    ⟨fun h _ ⟨e, he, _, hc⟩ => h e he hc, fun h e he hc => h e.1 ⟨e, he, rfl, hc⟩⟩

/-- ASCII lower case of a character, as a lookup in the two alphabets. -/
def lower (c : Char) : Char :=
  match ("ABCDEFGHIJKLMNOPQRSTUVWXYZ".toList.zip "abcdefghijklmnopqrstuvwxyz".toList).lookup c with
  | some l => l
  | none => c

/-- Case folding used by a comparison: none when case-sensitive, ASCII lower case otherwise. -/
def fold (sensitive : Bool) (c : Char) : Char := if sensitive then c else lower c

/-- When does the query character `q` match the candidate character `c`? -/
def CharMatches (sensitive norm : Bool) (q c : Char) : Prop :=
  fold sensitive q = fold sensitive c ∨
    (norm = true ∧ ∃ t, Listed c t ∧ fold sensitive q = fold sensitive t)

/-- `p` occurs in `s` as a (not necessarily contiguous) subsequence, up to the character relation `R`. -/
def Subseq (R : Char → Char → Prop) (p s : List Char) : Prop :=
  ∃ s', s'.Sublist s ∧ List.Forall₂ R p s'

/-- The character indices `ps` are an alignment of `p` in `s`: strictly increasing, and the character of `s` at
the k-th index matches the k-th character of `p`. -/
structure Alignment (R : Char → Char → Prop) (p s : List Char) (ps : List Nat) : Prop where
  increasing : ps.Pairwise (· < ·)
  spells : List.Forall₂ (fun q i => ∃ c, s[i]? = some c ∧ R q c) p ps

/-- `p` occurs in `s` starting at character index `i`. -/
def OccursAt (R : Char → Char → Prop) (p s : List Char) (i : Nat) : Prop :=
  ∃ a m b, s = a ++ m ++ b ∧ a.length = i ∧ List.Forall₂ R p m

/-- `p` occurs in `s` as a contiguous block. -/
def Substring (R : Char → Char → Prop) (p s : List Char) : Prop := ∃ i, OccursAt R p s i

/-- Is the comparison case-sensitive for this pattern text under the given setting? -/
def sensitive (U : Unicode) (cs : CaseSensitivity) (text : List Char) : Bool :=
  match cs with
  | .sensitive => true
  | .insensitive => false
  | .smart => text.any U.isUppercase

/-! ### Scoring, as documented -/

/-- The delimiters of each scoring scheme: for paths, the separators of the platform. -/
def delimiters (U : Unicode) : FzfScheme → List Char
  | .path => if U.windows then ['/', '\\'] else ['/']
  | _ => ['/', ',', ':', ';', '|']

/-- Bonus for a character after white space (or for a white space). -/
def whiteBonus : FzfScheme → Int
  | .default => 10
  | _ => 8

/-- Bonus for a character after a delimiter. -/
def delimiterBonus : FzfScheme → Int
  | .history => 8
  | _ => 9

/-- What the first character of a candidate is considered to be preceded by. -/
def initialClass : FzfScheme → CharClass
  | .path => .delimiter
  | _ => .whiteSpace

/-- The class of a character. -/
def classOf (U : Unicode) (S : FzfScheme) (c : Char) : CharClass :=
  if c.toNat < 128 then
    if 'a'.toNat ≤ c.toNat ∧ c.toNat ≤ 'z'.toNat then .lower
    else if 'A'.toNat ≤ c.toNat ∧ c.toNat ≤ 'Z'.toNat then .upper
    else if '0'.toNat ≤ c.toNat ∧ c.toNat ≤ '9'.toNat then .number
    else if c ∈ [' ', '\t', '\n', '\x0c', '\r'] then .whiteSpace
    else if c ∈ delimiters U S then .delimiter
    else .nonWord
  else if U.isLowercase c then .lower
  else if U.isUppercase c then .upper
  else if U.isNumeric c then .number
  else if U.isAlphabetic c then .letter
  else if U.isWhitespace c then .whiteSpace
  else .nonWord

/-- The positional bonus of a character of class `next` after one of class `prev`. -/
def bonus (S : FzfScheme) (prev next : CharClass) : Int :=
  match next, prev with
  | .nonWord, _ => 8
  | .whiteSpace, _ => whiteBonus S
  | .number, .number => 0
  | .number, _ => 7
  | .upper, .lower => 7
  | _, .whiteSpace => whiteBonus S
  | _, .delimiter => delimiterBonus S
  | _, .nonWord => 8
  | _, _ => 0

/-- The largest positional bonus of a scheme. -/
def topBonus : FzfScheme → Int
  | .default => 10
  | .path => 9
  | .history => 8

/-- The class of the character before index `i`. -/
def classBefore (U : Unicode) (S : FzfScheme) (s : List Char) (i : Nat) : CharClass :=
  match (s.take i).getLast? with
  | none => initialClass S
  | some c => classOf U S c

/-- The positional bonus at index `i` of the candidate `s`. -/
def posBonus (U : Unicode) (S : FzfScheme) (s : List Char) (i : Nat) : Int :=
  match s[i]? with
  | none => 0
  | some c => bonus S (classBefore U S s i) (classOf U S c)

/-- Score of the positions after the matched position `prev`; `run` is the bonus carried by the current run of
consecutive positions. A position that continues a run gets the largest of its own bonus, the run's bonus and
4; any other position pays an affine gap penalty: 3 for the first skipped character and 1 for
each further one. -/
def runScore (B : Nat → Int) : (prev : Nat) → (run : Int) → List Nat → Int
  | _, _, [] => 0
  | prev, run, i :: ps =>
    if i = prev + 1 then
      let run := if B i ≥ 8 ∧ B i > run then B i else run
      16 + max (max (B i) run) 4 + runScore B i run ps
    else
      16 + B i - (3 + ((i - prev - 2 : Nat) : Int)) + runScore B i (B i) ps

/-- The score of an alignment, given the positional bonuses: 16 per character, the first character's bonus
counted twice. -/
def alignScore (B : Nat → Int) : List Nat → Int
  | [] => 0
  | i :: ps => 16 + 2 * B i + runScore B i (B i) ps

/-- A simplified score of the positions after `prev`: every character scores 16 and its own positional bonus, minus
`pen i j` between successive positions `i` and `j`. -/
def plainRest (pen : Nat → Nat → Int) (B : Nat → Int) : (prev : Nat) → List Nat → Int
  | _, [] => 0
  | prev, i :: ps => 16 + B i - pen prev i + plainRest pen B i ps

/-- A simplified score of an alignment, without bonuses for consecutive matches; the first bonus counts twice. -/
def plainScore (pen : Nat → Nat → Int) (B : Nat → Int) : List Nat → Int
  | [] => 0
  | i :: ps => 16 + 2 * B i + plainRest pen B i ps

/-- 3 per skipped character. -/
def gapLinear (i j : Nat) : Int := 3 * ((j : Int) - i - 1)

/-- 3 for the first skipped character and 1 for each further one. -/
def gapAffine (i j : Nat) : Int := if j = i + 1 then 0 else 3 + ((j - i - 2 : Nat) : Int)

/-- No character strictly between the `n`-th and the next position matches the `n`-th pattern character. -/
def TightAt (R : Char → Char → Prop) (p s : List Char) (ps : List Nat) (n : Nat) : Prop :=
  ∀ i j q, ps[n]? = some i → ps[n + 1]? = some j → p[n]? = some q →
    ∀ k c, i < k → k < j → s[k]? = some c → ¬ R q c

/-- `i` is the best-placed occurrence: the leftmost one with a boundary bonus, or if there is none the leftmost one
with the largest bonus. -/
def BestPlaced (B : Nat → Int) (R : Char → Char → Prop) (p s : List Char) (i : Nat) : Prop :=
  OccursAt R p s i ∧
  ((8 ≤ B i ∧ ∀ j < i, OccursAt R p s j → B j < 8) ∨
   (∀ j, OccursAt R p s j → B j < 8 ∧ B j ≤ B i ∧ (j < i → B j < B i)))

/-- Length in bytes of the UTF-8 encoding of `s`. -/
def byteLen (s : List Char) : Nat := (s.map Char.utf8Size).sum

/-- The byte range of the characters of `s` with index in `[i, j)`. -/
def byteRange (s : List Char) (i j : Nat) : Range := ⟨byteLen (s.take i), byteLen (s.take j)⟩

/-- The bytes of the character at index `i`. -/
def charRange (s : List Char) (i : Nat) : Range := byteRange s i (i + 1)

end Norm.Spec
