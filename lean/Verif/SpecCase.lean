import Verif.Spec

/-!
# Case of accented letters -/

namespace Norm.Spec

/-- The accented letters that have a listed case form, lower and upper case (from the Unicode character data). -/
def casePairs : List (Char × Char) := [
  ('à', 'À'), ('á', 'Á'), ('â', 'Â'), ('ã', 'Ã'), ('ä', 'Ä'), ('å', 'Å'), ('ç', 'Ç'), ('è', 'È'), ('é', 'É'), ('ê', 'Ê'), ('ë', 'Ë'),
  ('ì', 'Ì'), ('í', 'Í'), ('î', 'Î'), ('ï', 'Ï'), ('ñ', 'Ñ'), ('ò', 'Ò'), ('ó', 'Ó'), ('ô', 'Ô'), ('õ', 'Õ'), ('ö', 'Ö'), ('ø', 'Ø'),
  ('ù', 'Ù'), ('ú', 'Ú'), ('û', 'Û'), ('ü', 'Ü'), ('ý', 'Ý'), ('ÿ', 'Ÿ'), ('ā', 'Ā'), ('ă', 'Ă'), ('ą', 'Ą'), ('ć', 'Ć'), ('ĉ', 'Ĉ'),
  ('ċ', 'Ċ'), ('č', 'Č'), ('ď', 'Ď'), ('đ', 'Đ'), ('ē', 'Ē'), ('ĕ', 'Ĕ'), ('ė', 'Ė'), ('ę', 'Ę'), ('ě', 'Ě'), ('ĝ', 'Ĝ'), ('ğ', 'Ğ'),
  ('ġ', 'Ġ'), ('ģ', 'Ģ'), ('ĥ', 'Ĥ'), ('ħ', 'Ħ'), ('ĩ', 'Ĩ'), ('ī', 'Ī'), ('ĭ', 'Ĭ'), ('į', 'Į'), ('ĵ', 'Ĵ'), ('ķ', 'Ķ'), ('ĺ', 'Ĺ'),
  ('ļ', 'Ļ'), ('ľ', 'Ľ'), ('ŀ', 'Ŀ'), ('ł', 'Ł'), ('ń', 'Ń'), ('ņ', 'Ņ'), ('ň', 'Ň'), ('ō', 'Ō'), ('ŏ', 'Ŏ'), ('ő', 'Ő'), ('ŕ', 'Ŕ'),
  ('ŗ', 'Ŗ'), ('ř', 'Ř'), ('ś', 'Ś'), ('ŝ', 'Ŝ'), ('ş', 'Ş'), ('š', 'Š'), ('ţ', 'Ţ'), ('ť', 'Ť'), ('ŧ', 'Ŧ'), ('ũ', 'Ũ'), ('ū', 'Ū'),
  ('ŭ', 'Ŭ'), ('ů', 'Ů'), ('ű', 'Ű'), ('ų', 'Ų'), ('ŵ', 'Ŵ'), ('ŷ', 'Ŷ'), ('ź', 'Ź'), ('ż', 'Ż'), ('ž', 'Ž'), ('ƀ', 'Ƀ'), ('ƃ', 'Ƃ'),
  ('ƈ', 'Ƈ'), ('ƌ', 'Ƌ'), ('ƒ', 'Ƒ'), ('ƙ', 'Ƙ'), ('ƚ', 'Ƚ'), ('ƞ', 'Ƞ'), ('ơ', 'Ơ'), ('ƥ', 'Ƥ'), ('ƭ', 'Ƭ'), ('ư', 'Ư'), ('ƴ', 'Ƴ'),
  ('ƶ', 'Ƶ'), ('ǎ', 'Ǎ'), ('ǐ', 'Ǐ'), ('ǒ', 'Ǒ'), ('ǔ', 'Ǔ'), ('ǝ', 'Ǝ'), ('ǥ', 'Ǥ'), ('ǧ', 'Ǧ'), ('ǩ', 'Ǩ'), ('ǫ', 'Ǫ'), ('ǵ', 'Ǵ'),
  ('ǹ', 'Ǹ'), ('ȁ', 'Ȁ'), ('ȃ', 'Ȃ'), ('ȅ', 'Ȅ'), ('ȇ', 'Ȇ'), ('ȉ', 'Ȉ'), ('ȋ', 'Ȋ'), ('ȍ', 'Ȍ'), ('ȏ', 'Ȏ'), ('ȑ', 'Ȑ'), ('ȓ', 'Ȓ'),
  ('ȕ', 'Ȕ'), ('ȗ', 'Ȗ'), ('ș', 'Ș'), ('ț', 'Ț'), ('ȟ', 'Ȟ'), ('ȥ', 'Ȥ'), ('ȧ', 'Ȧ'), ('ȩ', 'Ȩ'), ('ȯ', 'Ȯ'), ('ȳ', 'Ȳ'), ('ȼ', 'Ȼ'),
  ('ȿ', 'Ȿ'), ('ɀ', 'Ɀ'), ('ɇ', 'Ɇ'), ('ɉ', 'Ɉ'), ('ɋ', 'Ɋ'), ('ɍ', 'Ɍ'), ('ɏ', 'Ɏ'), ('ɐ', 'Ɐ'), ('ɑ', 'Ɑ'), ('ɓ', 'Ɓ'), ('ɔ', 'Ɔ'),
  ('ɖ', 'Ɖ'), ('ɗ', 'Ɗ'), ('ɛ', 'Ɛ'), ('ɜ', 'Ɜ'), ('ɠ', 'Ɠ'), ('ɡ', 'Ɡ'), ('ɥ', 'Ɥ'), ('ɦ', 'Ɦ'), ('ɨ', 'Ɨ'), ('ɪ', 'Ɪ'), ('ɫ', 'Ɫ'),
  ('ɬ', 'Ɬ'), ('ɯ', 'Ɯ'), ('ɱ', 'Ɱ'), ('ɲ', 'Ɲ'), ('ɵ', 'Ɵ'), ('ɽ', 'Ɽ'), ('ʀ', 'Ʀ'), ('ʂ', 'Ʂ'), ('ʇ', 'Ʇ'), ('ʈ', 'Ʈ'), ('ʉ', 'Ʉ'),
  ('ʋ', 'Ʋ'), ('ʌ', 'Ʌ'), ('ʝ', 'Ʝ'), ('ʞ', 'Ʞ'), ('ḁ', 'Ḁ'), ('ḃ', 'Ḃ'), ('ḅ', 'Ḅ'), ('ḇ', 'Ḇ'), ('ḋ', 'Ḋ'), ('ḍ', 'Ḍ'), ('ḏ', 'Ḏ'),
  ('ḑ', 'Ḑ'), ('ḓ', 'Ḓ'), ('ḙ', 'Ḙ'), ('ḛ', 'Ḛ'), ('ḟ', 'Ḟ'), ('ḡ', 'Ḡ'), ('ḣ', 'Ḣ'), ('ḥ', 'Ḥ'), ('ḧ', 'Ḧ'), ('ḩ', 'Ḩ'), ('ḫ', 'Ḫ'),
  ('ḭ', 'Ḭ'), ('ḱ', 'Ḱ'), ('ḳ', 'Ḳ'), ('ḵ', 'Ḵ'), ('ḷ', 'Ḷ'), ('ḻ', 'Ḻ'), ('ḽ', 'Ḽ'), ('ḿ', 'Ḿ'), ('ṁ', 'Ṁ'), ('ṃ', 'Ṃ'), ('ṅ', 'Ṅ'),
  ('ṇ', 'Ṇ'), ('ṉ', 'Ṉ'), ('ṋ', 'Ṋ'), ('ṕ', 'Ṕ'), ('ṗ', 'Ṗ'), ('ṙ', 'Ṙ'), ('ṛ', 'Ṛ'), ('ṟ', 'Ṟ'), ('ṡ', 'Ṡ'), ('ṣ', 'Ṣ'), ('ṫ', 'Ṫ'),
  ('ṭ', 'Ṭ'), ('ṯ', 'Ṯ'), ('ṱ', 'Ṱ'), ('ṳ', 'Ṳ'), ('ṵ', 'Ṵ'), ('ṷ', 'Ṷ'), ('ṽ', 'Ṽ'), ('ṿ', 'Ṿ'), ('ẁ', 'Ẁ'), ('ẃ', 'Ẃ'), ('ẅ', 'Ẅ'),
  ('ẇ', 'Ẇ'), ('ẉ', 'Ẉ'), ('ẋ', 'Ẋ'), ('ẍ', 'Ẍ'), ('ẏ', 'Ẏ'), ('ẑ', 'Ẑ'), ('ẓ', 'Ẓ'), ('ẕ', 'Ẕ'), ('ạ', 'Ạ'), ('ả', 'Ả'), ('ấ', 'Ấ'),
  ('ầ', 'Ầ'), ('ẩ', 'Ẩ'), ('ẫ', 'Ẫ'), ('ậ', 'Ậ'), ('ắ', 'Ắ'), ('ằ', 'Ằ'), ('ẳ', 'Ẳ'), ('ẵ', 'Ẵ'), ('ặ', 'Ặ'), ('ẹ', 'Ẹ'), ('ẻ', 'Ẻ'),
  ('ẽ', 'Ẽ'), ('ế', 'Ế'), ('ề', 'Ề'), ('ể', 'Ể'), ('ễ', 'Ễ'), ('ệ', 'Ệ'), ('ỉ', 'Ỉ'), ('ị', 'Ị'), ('ọ', 'Ọ'), ('ỏ', 'Ỏ'), ('ố', 'Ố'),
  ('ồ', 'Ồ'), ('ổ', 'Ổ'), ('ỗ', 'Ỗ'), ('ộ', 'Ộ'), ('ớ', 'Ớ'), ('ờ', 'Ờ'), ('ở', 'Ở'), ('ỡ', 'Ỡ'), ('ợ', 'Ợ'), ('ụ', 'Ụ'), ('ủ', 'Ủ'),
  ('ứ', 'Ứ'), ('ừ', 'Ừ'), ('ử', 'Ử'), ('ữ', 'Ữ'), ('ự', 'Ự'), ('ỳ', 'Ỳ'), ('ỵ', 'Ỵ'), ('ỷ', 'Ỷ'), ('ỹ', 'Ỹ'), ('ↄ', 'Ↄ'), ('ⱥ', 'Ⱥ'),
  ('ⱦ', 'Ⱦ')]

/-- Equal up to the case of ASCII and accented letters. -/
def SameLetters (x y : List Char) : Prop :=
  List.Forall₂ (fun c d => lower c = lower d ∨ (c, d) ∈ casePairs ∨ (d, c) ∈ casePairs) x y

/-- Equal up to the case of letters, where accented letters that differ are listed in both cases. -/
def SameListed (x y : List Char) : Prop :=
  List.Forall₂ (fun c d => lower c = lower d ∨ (((c, d) ∈ casePairs ∨ (d, c) ∈ casePairs) ∧
    (∃ l, Listed c l) ∧ ∃ l, Listed d l)) x y

end Norm.Spec
