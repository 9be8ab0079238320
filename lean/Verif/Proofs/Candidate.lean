import Verif.Proofs.CharEq

/-! Both candidate representations behave like the list of the candidate's characters. -/

namespace Norm

/-- The characters of a candidate. -/
def Candidate.toChars : Candidate → List Char
  | .ascii bs => bs.map byteToChar
  | .unicode cs => cs

/-- Byte candidates contain only ASCII bytes. -/
def Candidate.WF : Candidate → Prop
  | .ascii bs => ∀ b ∈ bs, b.toNat < 128
  | .unicode _ => True

/-- The first index satisfying `p`, at or after `off`. -/
def findFrom (p : Char → Bool) (s : List Char) (off : Nat) : Option Nat :=
  ((s.drop off).findIdx? p).map (· + off)

/-- All indices at or after `off` satisfying `p`. -/
def idxsFrom (p : Char → Bool) (s : List Char) (off : Nat) : List Nat := allIdxFrom p (s.drop off) off

theorem findIdx?_map_congr {α : Type u} {β : Type v} {p : α → Bool} {q : β → Bool} {f : α → β} {l : List α}
    (h : ∀ a ∈ l, p a = q (f a)) : l.findIdx? p = (l.map f).findIdx? q := by
  induction l with
  | nil => rfl
  | cons a l ih =>
    simp only [List.map_cons, List.findIdx?_cons, h a (by simp)]
    rw [ih (fun a ha => h a (by simp [ha]))]

theorem findIdx?_all_false {α : Type u} {p : α → Bool} {l : List α} (h : ∀ a ∈ l, p a = false) :
    l.findIdx? p = none := by
  rw [List.findIdx?_eq_none_iff]; exact h

theorem allIdxFrom_map_congr {α : Type u} {β : Type v} {p : α → Bool} {q : β → Bool} {f : α → β} {l : List α}
    (h : ∀ a ∈ l, p a = q (f a)) (off : Nat) : allIdxFrom p l off = allIdxFrom q (l.map f) off := by
  induction l generalizing off with
  | nil => rfl
  | cons a l ih =>
    simp only [List.map_cons, allIdxFrom, h a (by simp)]
    rw [ih (fun a ha => h a (by simp [ha]))]

theorem allIdxFrom_false {α : Type u} {p : α → Bool} {l : List α} (h : ∀ a ∈ l, p a = false) (off : Nat) :
    allIdxFrom p l off = [] := by
  induction l generalizing off with
  | nil => rfl
  | cons a l ih =>
    simp only [allIdxFrom, h a (by simp), Bool.false_eq_true, if_false]
    exact ih (fun a ha => h a (by simp [ha])) _

theorem allIdxFrom_shift {α : Type u} (p : α → Bool) (l : List α) (a b : Nat) :
    (allIdxFrom p l a).map (b + ·) = allIdxFrom p l (b + a) := by
  induction l generalizing a with
  | nil => rfl
  | cons x l ih =>
    simp only [allIdxFrom]
    split
    · simp [ih, Nat.add_assoc]
    · rw [ih]; simp [Nat.add_assoc]

theorem findIdx?_none_allIdxFrom {α : Type u} {p : α → Bool} {l : List α} {off : Nat}
    (h : l.findIdx? p = none) : allIdxFrom p l off = [] := by
  rw [List.findIdx?_eq_none_iff] at h
  exact allIdxFrom_false h off

theorem findIdx?_some_allIdxFrom {α : Type u} {p : α → Bool} {l : List α} {i : Nat} (off : Nat)
    (h : l.findIdx? p = some i) :
    allIdxFrom p l off = (off + i) :: allIdxFrom p (l.drop (i + 1)) (off + i + 1) := by
  induction l generalizing i off with
  | nil => simp at h
  | cons a l ih =>
    rw [List.findIdx?_cons] at h
    simp only [allIdxFrom]
    cases hp : p a with
    | true => simp [hp] at h; subst h; simp
    | false =>
      simp [hp] at h
      obtain ⟨j, hj, rfl⟩ := h
      simp only [Bool.false_eq_true, if_false]
      rw [ih (off + 1) hj]
      simp; constructor
      · omega
      · congr 1; omega

theorem collect_eq (eq : CharEq) (ch : Char) : ∀ (fuel : Nat) (l : List Char) (off : Nat), l.length < fuel →
    UnicodeMatches.collect fuel ⟨ch, l, eq, off⟩ = .ok (allIdxFrom (fun c => eq ch c) l off) := by
  intro fuel
  induction fuel with
  | zero => intro l off h; omega
  | succ fuel ih =>
    intro l off h
    simp only [UnicodeMatches.collect, UnicodeMatches.next]
    cases hf : l.findIdx? (fun c => eq ch c) with
    | none => simp [findIdx?_none_allIdxFrom hf]
    | some i =>
      have hi : i < l.length := (List.findIdx?_eq_some_iff_getElem.mp hf).1
      simp only [sliceFromR_of_le (show i + 1 ≤ l.length by omega), Res.bind_ok, Res.pure_def]
      rw [ih _ _ (by simp; omega)]
      simp [findIdx?_some_allIdxFrom off hf]

theorem matchesUnicode_eq (ch : Char) (l : List Char) (eq : CharEq) (off : Nat) :
    Candidate.matchesUnicode ch l eq off = .ok (allIdxFrom (fun c => eq ch c) l off) := by
  simp only [Candidate.matchesUnicode, collect_eq eq ch _ l 0 (Nat.lt_succ_self _), Res.bind_ok, Res.pure_def]
  rw [allIdxFrom_shift]; simp

theorem findLastIdx?_map_congr {α : Type u} {β : Type v} {p : α → Bool} {q : β → Bool} {f : α → β} {l : List α}
    (h : ∀ a ∈ l, p a = q (f a)) : findLastIdx? p l = findLastIdx? q (l.map f) := by
  unfold findLastIdx?
  rw [findIdx?_map_congr (f := f) (q := q) (fun a ha => h a (by simpa using ha))]
  simp

theorem takeWhile_map_length {α : Type u} {β : Type v} {p : α → Bool} {q : β → Bool} {f : α → β} (l : List α)
    (h : ∀ a ∈ l, p a = q (f a)) : (l.takeWhile p).length = ((l.map f).takeWhile q).length := by
  induction l with
  | nil => rfl
  | cons a l ih =>
    simp only [List.map_cons, List.takeWhile_cons, h a (by simp)]
    split
    · simp [ih (fun a ha => h a (by simp [ha]))]
    · rfl

theorem byte_space (b : UInt8) : (b == 32) = (byteToChar b == ' ') := by
  rw [Bool.eq_iff_iff, beq_iff_eq, beq_iff_eq]
  constructor
  · rintro rfl; rfl
  · intro h; have := congrArg charToByte h; rw [charToByte_byteToChar] at this; rw [this]; rfl

namespace Candidate
variable (c : Candidate)

theorem charLen_eq : c.charLen = c.toChars.length := by cases c <;> simp [charLen, toChars]

theorem char_eq (i : Nat) : c.char i = getR c.toChars i := by
  cases c with
  | ascii bs => simp only [char, toChars, getR, List.getElem?_map]; cases bs[i]? <;> simp
  | unicode cs => rfl

theorem charsFrom_eq (off : Nat) : c.charsFrom off = sliceFromR c.toChars off := by
  cases c with
  | ascii bs =>
    simp only [charsFrom, toChars, sliceFromR, List.length_map]
    split <;> simp
  | unicode cs => rfl

theorem chars_eq : c.chars = .ok c.toChars := by
  simp [chars, charsFrom_eq]

variable {c}

theorem findFirstFrom_eq (h : c.WF) (s n : Bool) {off : Nat} (ho : off ≤ c.toChars.length) (ch : Char) :
    c.findFirstFrom off ch s (charEq s n) = .ok (findFrom (fun x => charEq s n ch x) c.toChars off) := by
  cases c with
  | ascii bs =>
    simp only [findFirstFrom, findFrom, toChars]
    simp only [toChars, List.length_map] at ho
    cases hc : isAscii ch with
    | true =>
      simp only [Bool.not_true, Bool.false_eq_true, if_false, sliceFromR_of_le ho, Res.bind_ok, Res.pure_def,
        findFirstAscii]
      rw [findIdx?_map_congr (f := byteToChar) (q := fun x => charEq s n ch x), List.map_drop]
      intro b hb
      exact asciiNeedle_eq s n hc (h b (List.mem_of_mem_drop hb))
    | false =>
      simp only [Bool.not_false, if_true]
      rw [findIdx?_all_false]; · rfl
      intro x hx
      have := List.mem_of_mem_drop hx
      simp at this
      obtain ⟨b, hb, rfl⟩ := this
      exact charEq_nonAscii_left s n hc (isAscii_byteToChar.mpr (h b hb))
  | unicode cs => simp only [toChars] at ho; simp [findFirstFrom, toChars, ho, findFirstUnicode, findFrom]

theorem findLast_eq (h : c.WF) (s n : Bool) (ch : Char) :
    c.findLast ch s (charEq s n) = findLastIdx? (fun x => charEq s n ch x) c.toChars := by
  cases c with
  | ascii bs =>
    simp only [findLast, toChars]
    cases hc : isAscii ch with
    | true =>
      simp only [if_true, findLastAscii]
      exact findLastIdx?_map_congr (fun b hb => asciiNeedle_eq s n hc (h b hb))
    | false =>
      simp only [Bool.false_eq_true, if_false, findLastIdx?]
      rw [findIdx?_all_false]; · rfl
      intro x hx
      simp at hx
      obtain ⟨b, hb, rfl⟩ := hx
      exact charEq_nonAscii_left s n hc (isAscii_byteToChar.mpr (h b hb))
  | unicode cs => rfl

theorem findLastFrom_eq (h : c.WF) (s n : Bool) {off : Nat} (ho : off ≤ c.toChars.length) (ch : Char) :
    c.findLastFrom off ch s (charEq s n) =
      .ok (findLastIdx? (fun x => charEq s n ch x) (c.toChars.take off)) := by
  cases c with
  | ascii bs =>
    simp only [findLastFrom, toChars]
    simp only [toChars, List.length_map] at ho
    cases hc : isAscii ch with
    | true =>
      simp only [if_true, sliceToR_of_le ho, Res.bind_ok, Res.pure_def, findLastAscii]
      rw [findLastIdx?_map_congr (f := byteToChar) (q := fun x => charEq s n ch x), List.map_take]
      intro b hb
      exact asciiNeedle_eq s n hc (h b (List.mem_of_mem_take hb))
    | false =>
      simp only [Bool.false_eq_true, if_false, findLastIdx?]
      rw [findIdx?_all_false]; · rfl
      intro x hx
      have := List.mem_of_mem_take (List.mem_reverse.mp hx)
      simp at this
      obtain ⟨b, hb, rfl⟩ := this
      exact charEq_nonAscii_left s n hc (isAscii_byteToChar.mpr (h b hb))
  | unicode cs => simp only [toChars] at ho; simp [findLastFrom, toChars, ho, findLastUnicode]

theorem leadingSpaces_eq : c.leadingSpaces = (c.toChars.takeWhile (· == ' ')).length := by
  cases c with
  | ascii bs => exact takeWhile_map_length bs (fun b _ => byte_space b)
  | unicode cs => rfl

theorem trailingSpaces_eq : c.trailingSpaces = (c.toChars.reverse.takeWhile (· == ' ')).length := by
  cases c with
  | ascii bs =>
    simp only [trailingSpaces, toChars, ← List.map_reverse]
    exact takeWhile_map_length bs.reverse (fun b _ => byte_space b)
  | unicode cs => rfl

theorem matchesAscii_eq {bs : List UInt8} (h : ∀ b ∈ bs, b.toNat < 128) (s n : Bool) (ch : Char) (off : Nat) :
    matchesAscii ch bs s off = .ok (allIdxFrom (fun x => charEq s n ch x) (bs.map byteToChar) off) := by
  unfold matchesAscii
  cases hc : isAscii ch with
  | true =>
    simp only [Bool.not_true, Bool.false_eq_true, if_false]
    rw [allIdxFrom_shift, Nat.add_zero]
    rw [allIdxFrom_map_congr (fun b hb => asciiNeedle_eq s n hc (h b hb))]
  | false =>
    simp only [Bool.not_false, if_true]
    rw [collect_eq _ _ _ _ _ (by simp), allIdxFrom_false (l := bs.map byteToChar)]
    · rfl
    · intro x hx
      simp at hx
      obtain ⟨b, hb, rfl⟩ := hx
      exact charEq_nonAscii_left s n hc (isAscii_byteToChar.mpr (h b hb))

theorem matches_eq (h : c.WF) (s n : Bool) (ch : Char) :
    c.matches ch s (charEq s n) = .ok (idxsFrom (fun x => charEq s n ch x) c.toChars 0) := by
  cases c with
  | ascii bs => simp only [«matches», idxsFrom, toChars, List.drop_zero]; exact matchesAscii_eq h s n ch 0
  | unicode cs => simp only [«matches», idxsFrom, toChars, List.drop_zero]; exact matchesUnicode_eq ch cs _ 0

theorem matchesFrom_eq (h : c.WF) (s n : Bool) {off : Nat} (ho : off ≤ c.toChars.length) (ch : Char) :
    c.matchesFrom off ch s (charEq s n) = .ok (idxsFrom (fun x => charEq s n ch x) c.toChars off) := by
  cases c with
  | ascii bs =>
    simp only [toChars, List.length_map] at ho
    simp only [matchesFrom, idxsFrom, toChars, sliceFromR_of_le ho, Res.bind_ok, ← List.map_drop]
    exact matchesAscii_eq (fun b hb => h b (List.mem_of_mem_drop hb)) s n ch off
  | unicode cs =>
    simp only [toChars] at ho
    simp only [matchesFrom, idxsFrom, toChars, sliceFromR_of_le ho, Res.bind_ok]
    exact matchesUnicode_eq ch _ _ off

theorem slice_ok (h : c.WF) {r : Range} (h1 : r.start ≤ r.stop) (h2 : r.stop ≤ c.toChars.length) :
    ∃ c', c.slice r = .ok c' ∧ c'.WF ∧ c'.toChars = (c.toChars.take r.stop).drop r.start := by
  cases c with
  | ascii bs =>
    simp only [toChars, List.length_map] at h2
    refine ⟨.ascii ((bs.take r.stop).drop r.start),
      by simp only [slice, sliceR_of_le h1 h2, Res.bind_ok, Res.pure_def], ?_, ?_⟩
    · intro b hb; exact h b (List.mem_of_mem_take (List.mem_of_mem_drop hb))
    · simp [toChars]
  | unicode cs =>
    simp only [toChars] at h2
    exact ⟨.unicode ((cs.take r.stop).drop r.start),
      by simp only [slice, sliceR_of_le h1 h2, Res.bind_ok, Res.pure_def], trivial, rfl⟩

theorem strLen_map_byteToChar {bs : List UInt8} (h : ∀ b ∈ bs, b.toNat < 128) :
    strLen (bs.map byteToChar) = bs.length := by
  induction bs with
  | nil => rfl
  | cons b bs ih =>
    simp only [List.map_cons, strLen_cons, List.length_cons]
    rw [ih (fun b hb => h b (by simp [hb])), utf8Size_ascii (isAscii_byteToChar.mpr (h b (by simp)))]
    omega

theorem toByteOffset_eq (h : c.WF) {off : Nat} (ho : off ≤ c.toChars.length) :
    c.toByteOffset off = .ok (strLen (c.toChars.take off)) := by
  cases c with
  | ascii bs =>
    simp only [toChars, List.length_map] at ho
    simp only [toByteOffset, toChars, ← List.map_take]
    rw [strLen_map_byteToChar (fun b hb => h b (List.mem_of_mem_take hb))]
    simp [ho]
  | unicode cs =>
    simp only [toChars] at ho
    simp [toByteOffset, toChars, ho, strLen_eq_sum]

theorem toByteRange_eq (h : c.WF) {r : Range} (h1 : r.start ≤ r.stop) (h2 : r.stop ≤ c.toChars.length) :
    c.toByteRange r = .ok ⟨strLen (c.toChars.take r.start), strLen (c.toChars.take r.stop)⟩ := by
  cases c with
  | ascii bs =>
    simp only [toChars, List.length_map] at h2
    simp only [toByteRange, toChars, ← List.map_take]
    rw [strLen_map_byteToChar (fun b hb => h b (List.mem_of_mem_take hb)),
      strLen_map_byteToChar (fun b hb => h b (List.mem_of_mem_take hb))]
    simp [h2, Nat.le_trans h1 h2]
  | unicode cs =>
    simp only [toChars] at h2
    simp only [toByteRange, toChars, sliceToR_of_le h2, Res.bind_ok, Res.pure_def, ← strLen_eq_sum,
      ← strLen_append, List.take_append_drop, List.take_take, Nat.min_eq_left h1]

end Candidate

/-- The representation `Fzf::distance` chooses for a candidate string. -/
theorem ascii_candidate {s : List Char} (h : strIsAscii s = true) :
    (Candidate.ascii (strBytes s)).WF ∧ (Candidate.ascii (strBytes s)).toChars = s := by
  have h := (strIsAscii_iff s).mp h
  refine ⟨?_, map_byteToChar_strBytes h⟩
  intro b hb
  rw [strBytes_ascii h] at hb
  simp at hb
  obtain ⟨c, hc, rfl⟩ := hb
  rw [charToByte_toNat (h c hc)]
  exact of_decide_eq_true (h c hc)

end Norm
