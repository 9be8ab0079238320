import Verif.Model.Parser
import Verif.SpecQuery
import Verif.Proofs.Utf8
import Verif.Proofs.Ranges

/-!
# The parser computes the specified query

For every parser state and every query string, `FzfParser::parse` returns without panicking, and what it returns is
`Spec.query`. -/

set_option linter.unusedSimpArgs false

namespace Norm

open Spec

/-! ### Spaces in the encoding -/

theorem isAscii_space : isAscii ' ' = true := by decide

theorem encode_space : String.utf8EncodeChar ' ' = [32] := by
  rw [encode_ascii isAscii_space]; rfl

theorem space_byte {c : Char} {b : UInt8} (h : c ≠ ' ') (hb : b ∈ String.utf8EncodeChar c) : (b == 32) = false := by
  by_contra hcon
  have : b = 32 := by simpa using hcon
  subst this
  have := (byte_mem_encode (c := c) (b := 32) (by decide)).mp hb
  exact h this

theorem memchr_none {s : List Char} (h : ' ' ∉ s) : memchr 32 (strBytes s) = none := by
  unfold memchr
  rw [List.findIdx?_eq_none_iff]
  intro b hb
  simp only [strBytes, List.mem_flatMap] at hb
  obtain ⟨c, hc, hb⟩ := hb
  exact space_byte (by rintro rfl; exact h hc) hb

theorem memchr_some {a t : List Char} (h : ' ' ∉ a) : memchr 32 (strBytes (a ++ ' ' :: t)) = some (strLen a) := by
  unfold memchr
  rw [strBytes_append, strBytes_cons, encode_space, List.findIdx?_append]
  have := memchr_none h
  unfold memchr at this
  rw [this]
  simp [strLen, List.findIdx?_cons]

theorem span_space (s : List Char) : ' ' ∉ s ∨ ∃ a t, s = a ++ ' ' :: t ∧ ' ' ∉ a := by
  induction s with
  | nil => simp
  | cons c s ih =>
    by_cases hc : c = ' '
    · subst hc; exact Or.inr ⟨[], s, rfl, by simp⟩
    · rcases ih with h | ⟨a, t, rfl, h⟩
      · left; simp [h, Ne.symm hc]
      · right; exact ⟨c :: a, t, rfl, by simp [h, Ne.symm hc]⟩

theorem strLeadingSpaces_eq (s : List Char) : strLeadingSpaces s = strLen (s.takeWhile (· == ' ')) := by
  unfold strLeadingSpaces
  induction s with
  | nil => rfl
  | cons c s ih =>
    by_cases hc : c = ' '
    · subst hc
      rw [strBytes_cons, encode_space]
      simp only [List.singleton_append, List.takeWhile_cons, beq_self_eq_true, if_true, List.length_cons, ih]
      rw [strLen_cons, utf8Size_ascii isAscii_space]; omega
    · have : (c == ' ') = false := by simpa using hc
      rw [List.takeWhile_cons, this]
      obtain ⟨b, l, hb⟩ := List.exists_cons_of_ne_nil (String.utf8EncodeChar_ne_nil (c := c))
      have hb32 := space_byte hc (b := b) (by rw [hb]; simp)
      rw [strBytes_cons, hb, List.cons_append, List.takeWhile_cons, hb32]
      simp

theorem stripLeadingSpaces_eq (s : List Char) : stripLeadingSpaces s = .ok (s.dropWhile (· == ' ')) := by
  unfold stripLeadingSpaces
  rw [strLeadingSpaces_eq]
  conv_lhs => rw [← List.takeWhile_append_dropWhile (p := (· == ' ')) (l := s)]
  rw [List.takeWhile_append_dropWhile]
  have := strFromR_append (s.takeWhile (· == ' ')) (s.dropWhile (· == ' '))
  rw [List.takeWhile_append_dropWhile] at this
  exact this

/-! ### Words -/

/-- The first piece of a string and what follows it (starting with the separating space). -/
def takeWord : List Char → List Char × List Char
  | [] => ([], [])
  | '\\' :: ' ' :: s => (' ' :: (takeWord s).1, (takeWord s).2)
  | ' ' :: s => ([], ' ' :: s)
  | c :: s => (c :: (takeWord s).1, (takeWord s).2)

theorem takeWord_cons {c : Char} {s : List Char} (h1 : c ≠ ' ') (h2 : c = '\\' → s.head? ≠ some ' ') :
    takeWord (c :: s) = (c :: (takeWord s).1, (takeWord s).2) := by
  rw [takeWord]
  · intro s' hc hs; exact h2 hc (by simp [hs])
  · exact h1

theorem pieces_cons {c : Char} {s : List Char} (h1 : c ≠ ' ') (h2 : c = '\\' → s.head? ≠ some ' ') :
    pieces (c :: s) = consHead c (pieces s) := by
  rw [pieces]
  · intro s' hc hs; exact h2 hc (by simp [hs])
  · exact h1

theorem pieces_takeWord (s : List Char) :
    ((takeWord s).2 = [] ∧ pieces s = [(takeWord s).1]) ∨
      ∃ t, (takeWord s).2 = ' ' :: t ∧ pieces s = (takeWord s).1 :: pieces t := by
  fun_induction takeWord s with
  | case1 => left; simp [pieces]
  | case2 s ih =>
    rcases ih with ⟨h1, h2⟩ | ⟨t, h1, h2⟩
    · left; refine ⟨h1, ?_⟩; simp only [pieces, h2, consHead]
    · right; refine ⟨t, h1, ?_⟩; simp only [pieces, h2, consHead]
  | case3 s => right; exact ⟨s, rfl, by simp [pieces]⟩
  | case4 c s h1 h2 ih =>
    have hp : pieces (c :: s) = consHead c (pieces s) := by
      rw [pieces]
      · intro s' hc hs; exact h1 s' hc hs
      · exact h2
    rcases ih with ⟨h3, h4⟩ | ⟨t, h3, h4⟩
    · left; exact ⟨h3, by rw [hp, h4]; rfl⟩
    · right; exact ⟨t, h3, by rw [hp, h4]; rfl⟩

theorem words_dropWhile (s : List Char) : words (s.dropWhile (· == ' ')) = words s := by
  induction s with
  | nil => rfl
  | cons c s ih =>
    by_cases hc : c = ' '
    · subst hc
      rw [List.dropWhile_cons]
      simp only [beq_self_eq_true, if_true, ih]
      simp [words, pieces]
    · have : (c == ' ') = false := by simpa using hc
      rw [List.dropWhile_cons, this]; rfl

theorem takeWord_nonempty {c : Char} {s : List Char} (h : c ≠ ' ') : (takeWord (c :: s)).1 ≠ [] := by
  rw [takeWord.eq_def]
  split
  · rename_i h1; simp at h1
  · simp
  · rename_i h1; simp at h1; exact absurd h1.1 h
  · simp

theorem words_step {c : Char} {s : List Char} (h : c ≠ ' ') :
    words (c :: s) = (takeWord (c :: s)).1 :: words ((takeWord (c :: s)).2.dropWhile (· == ' ')) := by
  have hne := takeWord_nonempty (s := s) h
  rw [words_dropWhile]
  rcases pieces_takeWord (c :: s) with ⟨h1, h2⟩ | ⟨t, h1, h2⟩
  · rw [h1]
    simp [words, h2, pieces, hne]
  · rw [h1]
    have : words (' ' :: t) = words t := by simp [words, pieces]
    rw [this]
    simp [words, h2, hne]

theorem takeWord_noSpace {a : List Char} (h : ' ' ∉ a) : takeWord a = (a, []) := by
  induction a with
  | nil => rfl
  | cons c a ih =>
    simp at h
    rw [takeWord_cons (Ne.symm h.1), ih h.2]
    intro _ hh
    exact h.2 (List.mem_of_mem_head? hh)

theorem takeWord_space {a t : List Char} (h : ' ' ∉ a) (hl : a.getLast? ≠ some '\\') :
    takeWord (a ++ ' ' :: t) = (a, ' ' :: t) := by
  induction a with
  | nil => simp [takeWord]
  | cons c a ih =>
    simp at h
    rw [List.cons_append, takeWord_cons (Ne.symm h.1)]
    · rw [ih h.2]
      intro hcon
      apply hl
      rw [List.getLast?_cons, hcon]; rfl
    · rintro rfl hh
      cases a with
      | nil => simp at hl
      | cons d a => simp at hh h; exact h.1 hh.symm

theorem takeWord_escaped {a t : List Char} (h : ' ' ∉ a) :
    takeWord (a ++ '\\' :: ' ' :: t) = (a ++ ' ' :: (takeWord t).1, (takeWord t).2) := by
  induction a with
  | nil => simp [takeWord]
  | cons c a ih =>
    simp at h
    rw [List.cons_append, takeWord_cons (Ne.symm h.1), ih h.2]
    · rfl
    · rintro rfl hh
      cases a with
      | nil => simp at hh
      | cons d a => simp at hh h; exact h.1 hh.symm

/-- Bytes consumed by a word. -/
theorem takeWord_len (s : List Char) :
    ∃ a, s = a ++ (takeWord s).2 ∧ (takeWord s).1.length ≤ strLen a := by
  fun_induction takeWord s with
  | case1 => exact ⟨[], rfl, by simp⟩
  | case2 s ih =>
    obtain ⟨a, h1, h2⟩ := ih
    refine ⟨'\\' :: ' ' :: a, by rw [List.cons_append, List.cons_append, ← h1], ?_⟩
    have := utf8Size_pos ' '
    simp; omega
  | case3 s => exact ⟨[], rfl, by simp⟩
  | case4 c s h1 h2 ih =>
    obtain ⟨a, h3, h4⟩ := ih
    refine ⟨c :: a, by rw [List.cons_append, ← h3], ?_⟩
    have := utf8Size_pos c
    simp; omega

/-- `Words::alloc`. -/
theorem Words.alloc_eq (l : List Char) : ∀ (pre rest s : List Char), l.length ≤ rest.length →
    Words.alloc ⟨pre ++ rest, pre.length, s⟩ l =
      .ok ⟨pre ++ l ++ rest.drop l.length, (pre ++ l).length, s⟩ := by
  induction l with
  | nil => intro pre rest s _; simp [Words.alloc]
  | cons c l ih =>
    intro pre rest s h
    cases rest with
    | nil => simp at h
    | cons r rest =>
      have hs := setR_append pre [] rest r c
      simp only [List.nil_append, List.length_nil, Nat.add_zero] at hs
      rw [Words.alloc]
      dsimp only
      rw [hs, Res.bind_ok]
      have := ih (pre ++ [c]) rest s (by simpa using h)
      simp only [List.append_assoc, List.singleton_append, List.length_append, List.length_singleton] at this
      rw [this]
      simp

theorem getLast_byte {a : List Char} {x : Char} :
    ∃ b, getR (strBytes (a ++ [x])) (strLen (a ++ [x]) - 1) = .ok b ∧ (b = 92 ↔ x = '\\') := by
  have hne := String.utf8EncodeChar_ne_nil (c := x)
  obtain ⟨l, b, hl⟩ := List.eq_nil_or_concat (String.utf8EncodeChar x) |>.resolve_left hne
  refine ⟨b, ?_, ?_⟩
  · have : strBytes (a ++ [x]) = strBytes a ++ l ++ [b] := by simp [hl]
    rw [getR_eq_ok]
    unfold strLen
    rw [this]
    simp
  · have hmem : b ∈ String.utf8EncodeChar x := by rw [hl]; simp
    constructor
    · rintro rfl
      exact (byte_mem_encode (c := x) (b := 92) (by decide)).mp hmem
    · rintro rfl
      have he : String.utf8EncodeChar '\\' = [92] := by rw [encode_ascii (by decide)]; rfl
      rw [he] at hmem; simpa using hmem

/-- `Words::next`'s loop: it writes the first piece of `s` and counts its bytes. -/
theorem Words.nextLoop_eq (ws : List Char) : ∀ (fuel : Nat) (s : List Char), s.length < fuel →
    ∀ (pre rest : List Char) (e : Nat), strLen s ≤ rest.length →
    ∃ a rest', s = a ++ (takeWord s).2 ∧ rest'.length + (takeWord s).1.length = rest.length ∧
      (takeWord s).1.length ≤ strLen a ∧
      Words.nextLoop fuel ⟨pre ++ rest, pre.length, ws⟩ s e =
        .ok (⟨pre ++ (takeWord s).1 ++ rest', (pre ++ (takeWord s).1).length, ws⟩, e + strLen a) := by
  intro fuel
  induction fuel with
  | zero => intro s h; omega
  | succ fuel ih =>
    intro s hfuel pre rest e hrest
    unfold Words.nextLoop
    rcases span_space s with hns | ⟨a, t, rfl, hns⟩
    · have hlen := length_le_strLen s
      rw [memchr_none hns]
      dsimp only
      rw [Words.alloc_eq s pre rest ws (by omega), takeWord_noSpace hns]
      refine ⟨s, rest.drop s.length, by simp, by simp; omega, hlen, ?_⟩
      simp
    · rw [memchr_some hns]
      rcases List.eq_nil_or_concat' a with rfl | ⟨a', x, rfl⟩
      · refine ⟨[], rest, by simp [takeWord], by simp [takeWord], by simp [takeWord], ?_⟩
        simp [takeWord]
      · obtain ⟨b, hb, hbx⟩ := getLast_byte (a := a') (x := x)
        have hpos : 0 < strLen (a' ++ [x]) := by have := utf8Size_pos x; simp; omega
        obtain ⟨k, hk⟩ : ∃ k, strLen (a' ++ [x]) = k + 1 := ⟨strLen (a' ++ [x]) - 1, by omega⟩
        have hb' : getR (strBytes (a' ++ [x] ++ ' ' :: t)) (strLen (a' ++ [x]) - 1) = .ok b := by
          rw [getR_eq_ok] at hb ⊢
          rw [strBytes_append, List.getElem?_append_left (by have h2 := hpos; unfold strLen at h2 ⊢; omega)]
          exact hb
        rw [hk] at hb' ⊢
        change ∃ a rest', _ ∧ _ ∧ _ ∧ (getR _ (k + 1 - 1) >>= _) = _
        rw [hb', Res.bind_ok]
        by_cases hx : x = '\\'
        · subst hx
          have hb92 : b = 92 := hbx.mpr rfl
          subst hb92
          rw [if_pos (by decide)]
          have hxs : ('\\' : Char).utf8Size = 1 := utf8Size_ascii (by decide)
          have hsp : (' ' : Char).utf8Size = 1 := utf8Size_ascii (by decide)
          have hka : k = strLen a' := by simp [hxs] at hk; omega
          have hto : strToR (a' ++ ['\\'] ++ ' ' :: t) (k + 1 - 1) = .ok a' := by
            rw [Nat.add_sub_cancel, hka, List.append_assoc]; exact strToR_append _ _
          have hfrom : strFromR (a' ++ ['\\'] ++ ' ' :: t) (k + 1 + 1) = .ok t := by
            have h1 : a' ++ ['\\'] ++ ' ' :: t = (a' ++ ['\\', ' ']) ++ t := by simp
            have h2 : k + 1 + 1 = strLen (a' ++ ['\\', ' ']) := by simp [hxs, hsp, hka]
            rw [h1, h2]; exact strFromR_append _ _
          have hla := length_le_strLen a'
          have hstr : strLen (a' ++ ['\\'] ++ ' ' :: t) = strLen a' + 2 + strLen t := by simp [hxs, hsp]; omega
          rw [hto, Res.bind_ok, Words.alloc_eq a' pre rest ws (by omega), Res.bind_ok,
            Words.alloc_eq [' '] (pre ++ a') (rest.drop a'.length) ws (by simp; omega), Res.bind_ok, hfrom, Res.bind_ok]
          simp only [List.mem_append, not_or] at hns
          have htw : takeWord (a' ++ ['\\'] ++ ' ' :: t) = (a' ++ ' ' :: (takeWord t).1, (takeWord t).2) := by
            rw [List.append_assoc]; exact takeWord_escaped hns.1
          obtain ⟨a2, rest', h1, h2, h3, h4⟩ := ih t (by simp at hfuel; omega) (pre ++ a' ++ [' '])
            ((rest.drop a'.length).drop 1) (e + (k + 1 + 1)) (by simp; omega)
          refine ⟨a' ++ ['\\', ' '] ++ a2, rest', ?_, ?_, ?_, ?_⟩
          · rw [htw]; simp; exact h1
          · rw [htw]; simp at h2 ⊢; omega
          · rw [htw]; simp [hxs, hsp]; omega
          · rw [htw]
            simp only [List.length_singleton]
            rw [h4]
            simp [hxs, hsp, hka]
            omega
        · have hb92 : b ≠ 92 := fun h => hx (hbx.mp h)
          rw [if_neg (by simpa using hb92)]
          have hto : strToR (a' ++ [x] ++ ' ' :: t) (k + 1) = .ok (a' ++ [x]) := by
            rw [← hk]; exact strToR_append _ _
          have hla := length_le_strLen (a' ++ [x])
          have hstr : strLen (a' ++ [x] ++ ' ' :: t) = strLen (a' ++ [x]) + strLen (' ' :: t) := strLen_append _ _
          rw [hto, Res.bind_ok, Words.alloc_eq (a' ++ [x]) pre rest ws (by omega), Res.bind_ok]
          have htw := takeWord_space (t := t) hns (by simpa using hx)
          refine ⟨a' ++ [x], rest.drop (a' ++ [x]).length, ?_, ?_, ?_, ?_⟩
          · rw [htw]
          · rw [htw]; simp only [List.length_drop]; omega
          · rw [htw]; exact hla
          · rw [htw]; rfl

/-- `Words::next` on a string that does not start with a space. -/
theorem Words.next_cons {c : Char} {s : List Char} (hc : c ≠ ' ') {pre rest : List Char}
    (hrest : strLen (c :: s) ≤ rest.length) :
    ∃ a rest', c :: s = a ++ (takeWord (c :: s)).2 ∧ 0 < (takeWord (c :: s)).1.length ∧
      (takeWord (c :: s)).1.length ≤ strLen a ∧
      rest'.length + (takeWord (c :: s)).1.length = rest.length ∧
      Words.next ⟨pre ++ rest, pre.length, c :: s⟩ =
        .ok (some (takeWord (c :: s)).1,
          ⟨pre ++ (takeWord (c :: s)).1 ++ rest', (pre ++ (takeWord (c :: s)).1).length,
            (takeWord (c :: s)).2.dropWhile (· == ' ')⟩) := by
  obtain ⟨a, rest', h1, h2, h3, h4⟩ := Words.nextLoop_eq (c :: s) ((c :: s).length + 1) (c :: s) (by omega) pre rest 0
    hrest
  refine ⟨a, rest', h1, List.length_pos_iff.mpr (takeWord_nonempty hc), h3, h2, ?_⟩
  unfold Words.next
  simp only [List.isEmpty_cons, Bool.false_eq_true, if_false]
  rw [h4, Res.bind_ok]
  dsimp only
  have hfrom : strFromR (c :: s) (0 + strLen a) = .ok (takeWord (c :: s)).2 := by
    rw [Nat.zero_add]
    conv_lhs => rw [h1]
    rw [← h1]
    have := strFromR_append a (takeWord (c :: s)).2
    rw [← h1] at this
    exact this
  rw [hfrom, Res.bind_ok, stripLeadingSpaces_eq, Res.bind_ok]
  have hsl : sliceR (pre ++ (takeWord (c :: s)).1 ++ rest') pre.length (pre ++ (takeWord (c :: s)).1).length =
      .ok (takeWord (c :: s)).1 := by
    unfold sliceR
    rw [if_pos (by simp)]
    congr 1
    rw [List.append_assoc, List.drop_take, List.drop_left]
    simp
  rw [hsl, Res.bind_ok]
  rfl

/-! ### Patterns -/

theorem splitBang_eq (w : List Char) :
    splitBang w = if Pattern.startsWith w '!' = true then (true, w.tail) else (false, w) := by
  unfold Pattern.startsWith
  cases w with
  | nil => rfl
  | cons c w =>
    by_cases hc : c = '!'
    · subst hc; rfl
    · rw [if_neg (by simpa using hc), splitBang]
      intro w' h
      simp only [List.cons.injEq] at h
      exact hc h.1

theorem splitSigil_eq (w : List Char) :
    splitSigil w = if Pattern.startsWith w '\'' = true then (.quote, w.tail)
      else if Pattern.startsWith w '^' = true then (.caret, w.tail) else (.none, w) := by
  unfold Pattern.startsWith
  cases w with
  | nil => rfl
  | cons c w =>
    by_cases hc : c = '\''
    · subst hc; rfl
    · by_cases hc2 : c = '^'
      · subst hc2; rfl
      · rw [if_neg (by simpa using hc), if_neg (by simpa using hc2), splitSigil]
        · intro w' h
          simp only [List.cons.injEq] at h
          exact hc h.1
        · intro w' h
          simp only [List.cons.injEq] at h
          exact hc2 h.1

theorem sliceFromR_tail {α} {w : List α} (h : w ≠ []) : sliceFromR w 1 = .ok w.tail := by
  cases w with
  | nil => exact absurd rfl h
  | cons c w => rfl

theorem sliceToR_dropLast {α} (w : List α) : sliceToR w (w.length - 1) = .ok w.dropLast := by
  unfold sliceToR
  rw [if_pos (by omega), List.dropLast_eq_take]

theorem splitDollar_eq (w : List Char) :
    splitDollar w = if (Pattern.endsWith w '$' && decide (w.length > 1)) = true then (true, w.dropLast)
      else (false, w) := by
  unfold splitDollar Pattern.endsWith
  have : (w.getLast? = some '$' ∧ w ≠ ['$']) ↔
      ((w.getLast? == some '$' && decide (w.length > 1)) = true) := by
    simp only [Bool.and_eq_true, beq_iff_eq, decide_eq_true_eq]
    constructor
    · rintro ⟨h1, h2⟩
      refine ⟨h1, ?_⟩
      match w, h1, h2 with
      | [], h1, _ => simp at h1
      | [x], h1, h2 => simp at h1; subst h1; exact absurd rfl h2
      | _ :: _ :: _, _, _ => simp
    · rintro ⟨h1, h2⟩
      refine ⟨h1, ?_⟩
      rintro rfl
      simp at h2
  simp only [this]

theorem startsWith_ne {w : List Char} {c : Char} (h : Pattern.startsWith w c = true) : w ≠ [] := by
  rintro rfl
  simp [Pattern.startsWith] at h

theorem res_ite_bind {α β} (c : Prop) [Decidable c] (A B : Res α) (K : α → Res β) :
    (if c then A else B) >>= K = if c then A >>= K else B >>= K := by
  split <;> rfl

/-- The end of `Pattern::parse`, on pure data. -/
def mkOpt (U : Unicode) (inv : Bool) (mt : MatchType) (t : List Char) : Option Pattern :=
  if t = [] then none else some (mkPattern U inv mt t)

/-- `Pattern::parse` on a non-empty word. -/
theorem Pattern.parse_eq (U : Unicode) {w : List Char} (h : w ≠ []) : Pattern.parse U w = .ok (wordPattern U w) := by
  have h1 : Res.assert (!w.isEmpty) = .ok () := by
    cases w with
    | nil => exact absurd rfl h
    | cons c w => rfl
  have hfin : ∀ (inv : Bool) (mt : MatchType) (t : List Char),
      (if t.isEmpty = true then (pure none : Res (Option Pattern)) else pure (some {
        isInverse := inv, matchType := mt, text := t, hasUppercase := t.any U.isUppercase,
        leadingSpaces := (t.takeWhile (· == ' ')).length,
        trailingSpaces := (t.reverse.takeWhile (· == ' ')).length })) = .ok (mkOpt U inv mt t) := by
    intro inv mt t
    unfold mkOpt
    cases t with
    | nil => rfl
    | cons c t => rfl
  have hsig : ∀ (inv : Bool) (mt : MatchType) (t : List Char),
      (if Pattern.startsWith t '\'' = true then
        (sliceFromR t 1 >>= fun x => pure (if (!inv) = true then MatchType.exact else MatchType.fuzzy, x) :
          Res (MatchType × List Char))
      else if Pattern.startsWith t '^' = true then
        (sliceFromR t 1 >>= fun x =>
          pure (if (mt == .suffixExact) = true then MatchType.equalExact else MatchType.prefixExact, x))
      else pure (mt, t)) =
      .ok ((match (splitSigil t).1 with
        | .quote => if inv then .fuzzy else .exact
        | .caret => if mt = .suffixExact then .equalExact else .prefixExact
        | .none => mt), (splitSigil t).2) := by
    intro inv mt t
    rw [splitSigil_eq]
    by_cases h1 : Pattern.startsWith t '\'' = true
    · rw [if_pos h1, if_pos h1, sliceFromR_tail (startsWith_ne h1)]
      cases inv <;> rfl
    · rw [if_neg h1, if_neg h1]
      by_cases h2 : Pattern.startsWith t '^' = true
      · rw [if_pos h2, if_pos h2, sliceFromR_tail (startsWith_ne h2)]
        cases mt <;> rfl
      · rw [if_neg h2, if_neg h2]; rfl
  have hdol : ∀ (mt : MatchType) (t : List Char),
      (if (Pattern.endsWith t '$' && decide (t.length > 1)) = true then
        (sliceToR t (t.length - 1) >>= fun x => pure (MatchType.suffixExact, x) : Res (MatchType × List Char))
      else pure (mt, t)) =
      .ok (if (splitDollar t).1 then .suffixExact else mt, (splitDollar t).2) := by
    intro mt t
    rw [splitDollar_eq]
    by_cases h1 : (Pattern.endsWith t '$' && decide (t.length > 1)) = true
    · rw [if_pos h1, if_pos h1, sliceToR_dropLast]; rfl
    · rw [if_neg h1, if_neg h1]; rfl
  have hbang : (if Pattern.startsWith w '!' = true then
        (sliceFromR w 1 >>= fun x => pure (true, MatchType.exact, x) : Res (Bool × MatchType × List Char))
      else pure (false, MatchType.fuzzy, w)) =
      .ok ((splitBang w).1, (if (splitBang w).1 then .exact else .fuzzy), (splitBang w).2) := by
    rw [splitBang_eq]
    by_cases h1 : Pattern.startsWith w '!' = true
    · rw [if_pos h1, if_pos h1, sliceFromR_tail (startsWith_ne h1)]; rfl
    · rw [if_neg h1, if_neg h1]; rfl
  have hmain : Pattern.parse U w = (do
      Res.assert (!w.isEmpty)
      let x ← (if Pattern.startsWith w '!' = true then
          (sliceFromR w 1 >>= fun x => pure (true, MatchType.exact, x) : Res (Bool × MatchType × List Char))
        else pure (false, MatchType.fuzzy, w))
      let y ← (if (Pattern.endsWith x.2.2 '$' && decide (x.2.2.length > 1)) = true then
          (sliceToR x.2.2 (x.2.2.length - 1) >>= fun x => pure (MatchType.suffixExact, x) : Res (MatchType × List Char))
        else pure (x.2.1, x.2.2))
      let z ← (if Pattern.startsWith y.2 '\'' = true then
          (sliceFromR y.2 1 >>= fun t => pure (if (!x.1) = true then MatchType.exact else MatchType.fuzzy, t) :
            Res (MatchType × List Char))
        else if Pattern.startsWith y.2 '^' = true then
          (sliceFromR y.2 1 >>= fun t =>
            pure (if (y.1 == .suffixExact) = true then MatchType.equalExact else MatchType.prefixExact, t))
        else pure (y.1, y.2))
      if z.2.isEmpty = true then (pure none : Res (Option Pattern)) else pure (some {
        isInverse := x.1, matchType := z.1, text := z.2, hasUppercase := z.2.any U.isUppercase,
        leadingSpaces := (z.2.takeWhile (· == ' ')).length,
        trailingSpaces := (z.2.reverse.takeWhile (· == ' ')).length })) := by
    unfold Pattern.parse
    simp only [res_ite_bind]
  rw [hmain, h1, Res.bind_ok, hbang, Res.bind_ok]
  dsimp only
  rw [hdol, Res.bind_ok]
  dsimp only
  rw [hsig, Res.bind_ok]
  dsimp only
  rw [hfin]
  congr 1
  unfold mkOpt wordPattern
  dsimp only
  congr 2
  congr 1
  generalize (splitBang w).1 = inv
  generalize (splitDollar (splitBang w).2).1 = dol
  generalize (splitSigil (splitDollar (splitBang w).2).2).1 = sg
  cases sg <;> cases inv <;> cases dol <;> rfl

/-! ### Conditions -/

/-- The patterns of the current condition, the stashed first pattern of the next one, and the words left. -/
def takeCond (U : Unicode) : Bool → List (List Char) → List Pattern × Option Pattern × List (List Char)
  | _, [] => ([], none, [])
  | lfo, w :: ws =>
    if w = ['|'] then takeCond U false ws
    else match wordPattern U w with
      | none => takeCond U lfo ws
      | some p => if lfo then ([], some p, ws) else (p :: (takeCond U true ws).1, (takeCond U true ws).2)

/-- Room invariant: with `n` patterns found and `s` left, out of a query of `L` bytes. -/
def Room (L n : Nat) (s : List Char) : Prop := (s ≠ [] → 2 * n + strLen s ≤ L) ∧ 2 * n ≤ L + 1

theorem strLen_dropWhile (s : List Char) : strLen (s.dropWhile (· == ' ')) ≤ strLen s := by
  conv_rhs => rw [← List.takeWhile_append_dropWhile (p := (· == ' ')) (l := s), strLen_append]
  omega

theorem head_dropWhile (s : List Char) : (s.dropWhile (· == ' ')).head? ≠ some ' ' := by
  induction s with
  | nil => simp
  | cons c s ih =>
    rw [List.dropWhile_cons]
    split
    · exact ih
    · rename_i h; simpa using h

/-- After a word there are at least two bytes less, or nothing is left. -/
theorem room_step {L n : Nat} {c : Char} {s a : List Char} (h : c :: s = a ++ (takeWord (c :: s)).2)
    (ha : 0 < strLen a) (hr : Room L n (c :: s)) :
    Room L (n + 1) ((takeWord (c :: s)).2.dropWhile (· == ' ')) ∧
      Room L n ((takeWord (c :: s)).2.dropWhile (· == ' ')) := by
  have h0 := hr.1 (by simp)
  rw [h, strLen_append] at h0
  have hd := strLen_dropWhile (takeWord (c :: s)).2
  have hkey : (takeWord (c :: s)).2.dropWhile (· == ' ') ≠ [] →
      strLen ((takeWord (c :: s)).2.dropWhile (· == ' ')) + 1 ≤ strLen (takeWord (c :: s)).2 := by
    intro hne
    rcases pieces_takeWord (c :: s) with ⟨h1, _⟩ | ⟨t, h1, _⟩
    · rw [h1] at hne; simp at hne
    · rw [h1]
      have : (' ' :: t).dropWhile (· == ' ') = t.dropWhile (· == ' ') := by rw [List.dropWhile_cons]; rfl
      rw [this]
      have h2 := strLen_dropWhile t
      have h3 := utf8Size_pos ' '
      simp only [strLen_cons]; omega
  refine ⟨⟨fun hne => ?_, by omega⟩, ⟨fun hne => ?_, by omega⟩⟩
  · have := hkey hne; omega
  · have := hkey hne; omega

/-- `Patterns::next`'s loop. -/
theorem patternsLoop_eq (U : Unicode) (L : Nat) : ∀ (fuel : Nat) (s : List Char), s.length < fuel →
    s.head? ≠ some ' ' → ∀ (pre rest : List Char) (P R : List Pattern) (lfo : Bool),
    strLen s ≤ rest.length → Room L P.length s → L / 2 + 1 ≤ P.length + R.length →
    ∃ (pre' rest' s' : List Char) (R' : List Pattern),
      strLen s' ≤ rest'.length ∧ s'.head? ≠ some ' ' ∧ pre'.length + rest'.length = pre.length + rest.length ∧
      words s' = (takeCond U lfo (words s)).2.2 ∧
      R'.length + (takeCond U lfo (words s)).1.length = R.length ∧
      Room L (P.length + (takeCond U lfo (words s)).1.length + (takeCond U lfo (words s)).2.1.toList.length) s' ∧
      Patterns.nextLoop U fuel ⟨P ++ R, P.length, ⟨pre ++ rest, pre.length, s⟩, none⟩ lfo =
        .ok ⟨P ++ (takeCond U lfo (words s)).1 ++ R', (P ++ (takeCond U lfo (words s)).1).length,
          ⟨pre' ++ rest', pre'.length, s'⟩, (takeCond U lfo (words s)).2.1⟩ := by
  intro fuel
  induction fuel with
  | zero => intro s h; omega
  | succ fuel ih =>
    intro s hfuel hs pre rest P R lfo hrest hroom hR
    unfold Patterns.nextLoop
    cases s with
    | nil =>
      refine ⟨pre, rest, [], R, hrest, hs, rfl, rfl, by simp [words, pieces, takeCond], ?_, ?_⟩
      · simpa [words, pieces, takeCond] using hroom
      · simp [words, pieces, takeCond, Words.next]
    | cons c s =>
      have hc : c ≠ ' ' := by simpa using hs
      obtain ⟨a, rest1, ha, hpos, hlen, hrest1, hnext⟩ := Words.next_cons hc (pre := pre) hrest
      obtain ⟨hr1, hr0⟩ := room_step ha (by omega) hroom
      have hne := takeWord_nonempty (s := s) hc
      have hwords := words_step (s := s) hc
      have hhead := head_dropWhile (takeWord (c :: s)).2
      have hsl : strLen (c :: s) = strLen a + strLen (takeWord (c :: s)).2 := by
        conv_lhs => rw [ha, strLen_append]
      have hd := strLen_dropWhile (takeWord (c :: s)).2
      have hl1 : ((takeWord (c :: s)).2.dropWhile (· == ' ')).length < fuel := by
        have h1 : (c :: s).length = a.length + (takeWord (c :: s)).2.length := by
          conv_lhs => rw [ha, List.length_append]
        have h2 : ((takeWord (c :: s)).2.dropWhile (· == ' ')).length ≤ (takeWord (c :: s)).2.length :=
          (List.dropWhile_suffix _).length_le
        have h3 : 0 < a.length := by
          cases a with
          | nil => rw [strLen_nil] at hlen; omega
          | cons x a => simp
        omega
      dsimp only
      rw [hnext, Res.bind_ok]
      dsimp only
      rw [hwords]
      generalize hW : (takeWord (c :: s)).1 = w at *
      generalize hS : (takeWord (c :: s)).2.dropWhile (· == ' ') = s1 at *
      have hbuf : (pre ++ w ++ rest1).length = (pre ++ rest).length := by simp; omega
      have hlr : (pre ++ w).length + rest1.length = pre.length + rest.length := by simp; omega
      by_cases hbar : w = ['|']
      · rw [if_neg (by simp [hbar])]
        obtain ⟨pre', rest', s', R', h1, h2, h3, h4, h5, h6, h7⟩ :=
          ih s1 hl1 hhead (pre ++ w) rest1 P R false (by omega) hr0 hR
        simp only [takeCond, if_pos hbar]
        exact ⟨pre', rest', s', R', h1, h2, by omega, h4, h5, h6, h7⟩
      · rw [if_pos (by simp [hbar]), Pattern.parse_eq U hne, Res.bind_ok]
        simp only [takeCond, if_neg hbar]
        cases hp : wordPattern U w with
        | none =>
          dsimp only
          obtain ⟨pre', rest', s', R', h1, h2, h3, h4, h5, h6, h7⟩ :=
            ih s1 hl1 hhead (pre ++ w) rest1 P R lfo (by omega) hr0 hR
          exact ⟨pre', rest', s', R', h1, h2, by omega, h4, h5, h6, h7⟩
        | some p =>
          dsimp only
          cases lfo with
          | true =>
            simp only [if_true]
            refine ⟨pre ++ w, rest1, s1, R, by omega, hhead, hlr, rfl, by simp, by simpa using hr1, ?_⟩
            simp
          | false =>
            simp only [Bool.false_eq_true, if_false]
            have hPR : 0 < R.length := by
              have := hr1.2; have := hroom.1 (by simp); have := hsl; omega
            cases R with
            | nil => simp at hPR
            | cons r R =>
              have hset := setR_append P [] R r p
              simp only [List.nil_append, List.length_nil, Nat.add_zero] at hset
              unfold Patterns.alloc
              dsimp only
              rw [hset]
              simp only [Res.bind_ok, Res.pure_def]
              obtain ⟨pre', rest', s', R', h1, h2, h3, h4, h5, h6, h7⟩ :=
                ih s1 hl1 hhead (pre ++ w) rest1 (P ++ [p]) R true (by omega) (by simpa using hr1)
                  (by simp at hR ⊢; omega)
              refine ⟨pre', rest', s', R', h1, h2, by omega, h4, by simp; omega, ?_, ?_⟩
              · have : P.length + (p :: (takeCond U true (words s1)).1).length =
                  (P ++ [p]).length + (takeCond U true (words s1)).1.length := by simp; omega
                rw [this]; exact h6
              · have e1 : (P ++ [p]).length = P.length + 1 := by simp
                rw [e1] at h7
                simp only [List.append_assoc, List.singleton_append] at h7 ⊢
                exact h7

/-- The tokens of a stashed pattern. -/
def stashTok : Option Pattern → List Token
  | none => []
  | some p => [.pat p]

theorem tokens_cons_bar (U : Unicode) (ws : List (List Char)) : tokens U (['|'] :: ws) = .bar :: tokens U ws := by
  simp [tokens]

theorem tokens_cons_none (U : Unicode) {w : List Char} (ws : List (List Char)) (h : w ≠ ['|'])
    (hp : wordPattern U w = none) : tokens U (w :: ws) = tokens U ws := by
  simp [tokens, h, hp]

theorem tokens_cons_some (U : Unicode) {w : List Char} {p : Pattern} (ws : List (List Char)) (h : w ≠ ['|'])
    (hp : wordPattern U w = some p) : tokens U (w :: ws) = .pat p :: tokens U ws := by
  simp [tokens, h, hp]

theorem groups_takeCond (U : Unicode) (ws : List (List Char)) :
    (∀ p, groups (.pat p :: tokens U ws) = (p :: (takeCond U true ws).1) ::
      groups (stashTok (takeCond U true ws).2.1 ++ tokens U (takeCond U true ws).2.2)) ∧
    (((takeCond U false ws).1 = [] ∧ groups (tokens U ws) = [] ∧ (takeCond U false ws).2.1 = none) ∨
      ((takeCond U false ws).1 ≠ [] ∧ groups (tokens U ws) = (takeCond U false ws).1 ::
        groups (stashTok (takeCond U false ws).2.1 ++ tokens U (takeCond U false ws).2.2))) := by
  induction ws with
  | nil => simp [tokens, groups, takeCond, stashTok]
  | cons w ws ih =>
    obtain ⟨ihA, ihB⟩ := ih
    by_cases hbar : w = ['|']
    · subst hbar
      rw [tokens_cons_bar]
      simp only [takeCond, if_true]
      constructor
      · intro p
        rcases ihB with ⟨h1, h2, h3⟩ | ⟨h1, h2⟩
        · have : takeCond U false ws = ([], none, (takeCond U false ws).2.2) := by
            rw [← h1, ← h3]
          have hg : groups (tokens U (takeCond U false ws).2.2) = [] := by
            have : ∀ ws : List (List Char), (takeCond U false ws).1 = [] → (takeCond U false ws).2.2 = [] := by
              intro ws
              induction ws with
              | nil => simp [takeCond]
              | cons w ws ih =>
                simp only [takeCond]
                split
                · exact ih
                · split
                  · exact ih
                  · simp
            rw [this ws h1]; rfl
          rw [h1, h3]
          simp [groups, h2, stashTok, hg]
        · simp [groups, h2]
      · simp only [groups]
        exact ihB
    · cases hp : wordPattern U w with
      | none =>
        rw [tokens_cons_none U ws hbar hp]
        simp only [takeCond, if_neg hbar, hp]
        exact ⟨ihA, ihB⟩
      | some q =>
        rw [tokens_cons_some U ws hbar hp]
        simp only [takeCond, if_neg hbar, hp, if_true, Bool.false_eq_true, if_false]
        constructor
        · intro p
          rw [groups]
          simp [stashTok]
        · right
          exact ⟨by simp, ihA q⟩

/-- `Patterns::next`. -/
theorem patternsItem_eq (U : Unicode) (L : Nat) (s : List Char) (hs : s.head? ≠ some ' ') (pre rest : List Char)
    (P R : List Pattern) (st : Option Pattern) (hrest : strLen s ≤ rest.length)
    (hroom : Room L (P.length + st.toList.length) s) (hR : L / 2 + 1 ≤ P.length + R.length) :
    ∃ (pre' rest' s' : List Char) (P' R' : List Pattern) (st' : Option Pattern),
      strLen s' ≤ rest'.length ∧ s'.head? ≠ some ' ' ∧ pre'.length + rest'.length = pre.length + rest.length ∧
      R'.length + P'.length = R.length ∧ Room L (P.length + P'.length + st'.toList.length) s' ∧
      ((P' = [] ∧ groups (stashTok st ++ tokens U (words s)) = []) ∨
        (P' ≠ [] ∧ groups (stashTok st ++ tokens U (words s)) =
          P' :: groups (stashTok st' ++ tokens U (words s')))) ∧
      Patterns.nextItem U ⟨P ++ R, P.length, ⟨pre ++ rest, pre.length, s⟩, st⟩ =
        .ok (if P' = [] then none else some P',
          ⟨P ++ P' ++ R', (P ++ P').length, ⟨pre' ++ rest', pre'.length, s'⟩, st'⟩) := by
  have hslice : ∀ (P' R' : List Pattern), sliceR (P ++ P' ++ R') P.length (P ++ P').length = .ok P' := by
    intro P' R'
    unfold sliceR
    rw [if_pos (by simp)]
    congr 1
    rw [List.append_assoc, List.drop_take, List.drop_left]
    simp
  cases st with
  | none =>
    obtain ⟨pre', rest', s', R', h1, h2, h3, h4, h5, h6, h7⟩ :=
      patternsLoop_eq U L (s.length + 1) s (by omega) hs pre rest P R false hrest (by simpa using hroom) hR
    refine ⟨pre', rest', s', _, R', _, h1, h2, h3, h5, h6, ?_, ?_⟩
    · simp only [stashTok, List.nil_append]
      rw [h4]
      rcases (groups_takeCond U (words s)).2 with ⟨g1, g2, g3⟩ | ⟨g1, g2⟩
      · exact Or.inl ⟨g1, g2⟩
      · exact Or.inr ⟨g1, g2⟩
    · unfold Patterns.nextItem
      dsimp only
      rw [Res.pure_def, Res.bind_ok]
      dsimp only
      rw [h7, Res.bind_ok]
      dsimp only
      by_cases he : (takeCond U false (words s)).1 = []
      · rw [if_pos (by simp [he]), if_pos he]; rfl
      · have : 0 < (takeCond U false (words s)).1.length := List.length_pos_iff.mpr he
        rw [if_neg (by simp; omega), if_neg he, hslice, Res.bind_ok]; rfl
  | some p =>
    have hPR : 0 < R.length := by
      have := hroom.2; simp at this; omega
    cases R with
    | nil => simp at hPR
    | cons r R =>
      obtain ⟨pre', rest', s', R', h1, h2, h3, h4, h5, h6, h7⟩ :=
        patternsLoop_eq U L (s.length + 1) s (by omega) hs pre rest (P ++ [p]) R true hrest
          (by simpa using hroom) (by simp at hR ⊢; omega)
      refine ⟨pre', rest', s', p :: (takeCond U true (words s)).1, R', (takeCond U true (words s)).2.1,
        h1, h2, h3, by simp; omega, ?_, ?_, ?_⟩
      · have : P.length + (p :: (takeCond U true (words s)).1).length =
          (P ++ [p]).length + (takeCond U true (words s)).1.length := by simp; omega
        rw [this]; exact h6
      · right
        refine ⟨by simp, ?_⟩
        rw [h4]
        exact (groups_takeCond U (words s)).1 p
      · have hset := setR_append P [] R r p
        simp only [List.nil_append, List.length_nil, Nat.add_zero] at hset
        unfold Patterns.nextItem Patterns.alloc
        dsimp only
        rw [hset]
        simp only [Res.bind_ok, Res.pure_def]
        have e1 : (P ++ [p]).length = P.length + 1 := by simp
        rw [e1] at h7
        simp only [List.append_assoc, List.singleton_append] at h7
        rw [h7, Res.bind_ok]
        dsimp only
        rw [if_neg (by simp), if_neg (by simp)]
        have := hslice (p :: (takeCond U true (words s)).1) R'
        simp only [List.append_assoc, List.cons_append] at this ⊢
        rw [this, Res.bind_ok]

/-- The loop of `FzfParser::parse`. -/
theorem FzfParser.parseLoop_eq (U : Unicode) (L : Nat) : ∀ (fuel : Nat) (s : List Char), s.head? ≠ some ' ' →
    ∀ (pre rest : List Char) (P R : List Pattern) (st : Option Pattern) (C D : List Condition),
    R.length < fuel → strLen s ≤ rest.length → Room L (P.length + st.toList.length) s →
    L / 2 + 1 ≤ P.length + R.length → L / 2 + 1 ≤ C.length + D.length → C.length ≤ P.length →
    ∃ (p' : Patterns) (D' : List Condition),
      p'.words.buf.length = pre.length + rest.length ∧
      p'.buf.length = P.length + R.length ∧
      D'.length + (groups (stashTok st ++ tokens U (words s))).length = D.length ∧
      FzfParser.parseLoop U fuel ⟨P ++ R, P.length, ⟨pre ++ rest, pre.length, s⟩, st⟩ (C ++ D) C.length =
        .ok (p', C ++ groups (stashTok st ++ tokens U (words s)) ++ D',
          (C ++ groups (stashTok st ++ tokens U (words s))).length) := by
  intro fuel
  induction fuel with
  | zero => intro s hs pre rest P R st C D h; omega
  | succ fuel ih =>
    intro s hs pre rest P R st C D hfuel hrest hroom hR hD hC
    obtain ⟨pre', rest', s', P', R', st', h1, h2, h3, h4, h5, h6, h7⟩ :=
      patternsItem_eq U L s hs pre rest P R st hrest hroom hR
    unfold FzfParser.parseLoop
    rw [h7, Res.bind_ok]
    rcases h6 with ⟨hP, hg⟩ | ⟨hP, hg⟩
    · rw [if_pos hP, hg]
      refine ⟨_, D, ?_, ?_, by simp, by simp; rfl⟩
      · simp; omega
      · simp; omega
    · rw [if_neg hP]
      dsimp only
      have hPl : 0 < P'.length := List.length_pos_iff.mpr hP
      have hDpos : 0 < D.length := by have := h5.2; omega
      cases D with
      | nil => simp at hDpos
      | cons d D =>
        have hset := setR_append C [] D d P'
        simp only [List.nil_append, List.length_nil, Nat.add_zero] at hset
        rw [hset, Res.bind_ok]
        obtain ⟨p', D', i1, i2, i3, i4⟩ := ih s' h2 pre' rest' (P ++ P') R' st' (C ++ [P']) D (by omega) h1
          (by simpa using h5) (by simp; omega) (by simp at hD ⊢; omega) (by simp; omega)
        rw [hg]
        refine ⟨p', D', by omega, by simp at i2; omega, by simp at i3 ⊢; omega, ?_⟩
        simp only [List.length_append, List.length_singleton, List.append_assoc, List.singleton_append,
          List.length_cons, List.cons_append, List.length_nil, List.nil_append, Nat.zero_add] at i4 ⊢
        rw [i4]

theorem newExtended_eq {cs : List Condition} (h : ∀ c ∈ cs, c ≠ []) : FzfQuery.newExtended cs = .ok (collapse cs) := by
  unfold FzfQuery.newExtended
  match cs, h with
  | [], _ => rfl
  | [[]], h => exact absurd rfl (h [] (by simp))
  | [[p]], _ =>
    by_cases hp : p.matchType = .fuzzy
    · simp [collapse, hp, getR, Res.unwrap, Res.bind_ok]
    · simp [collapse, hp, getR, Res.unwrap, Res.bind_ok]
  | [p :: q :: ps], _ => simp [collapse, getR, Res.unwrap, Res.bind_ok]
  | c :: d :: cs, _ => simp [collapse]

theorem groups_ne_nil (ts : List Token) : ∀ c ∈ groups ts, c ≠ [] := by
  induction ts with
  | nil => simp [groups]
  | cons t ts ih =>
    cases t with
    | bar => exact ih
    | pat p =>
      unfold groups
      split
      · rename_i g gs h1 h2
        intro c hc
        rw [h2] at ih
        rcases List.mem_cons.mp hc with rfl | hc
        · simp
        · exact ih c (List.mem_cons_of_mem _ hc)
      · intro c hc
        rcases List.mem_cons.mp hc with rfl | hc
        · simp
        · exact ih c hc

theorem length_grow {α} (l : List α) (n : Nat) (d : α) :
    (if l.length < n then resize l n d else l).length = max l.length n := by
  split
  · simp [resize]; omega
  · omega

/-- `FzfParser::parse` never panics and returns the specified query, whatever the state of the parser. -/
theorem FzfParser.parse_eq (U : Unicode) (self : FzfParser) (q : List Char) :
    ∃ self' : FzfParser, self'.chars.length = max self.chars.length (strLen q) ∧
      FzfParser.parse U self q = .ok (self', query U q) := by
  unfold FzfParser.parse Patterns.new Words.new
  dsimp only
  rw [stripLeadingSpaces_eq]
  simp only [Res.bind_ok, Res.pure_def]
  have hch := length_grow self.chars (strLen q) charDefault
  have hco := length_grow self.conditions (strLen q / 2 + 1) []
  have hpa := length_grow self.patterns (strLen q / 2 + 1) Pattern.default
  generalize (if self.chars.length < strLen q then resize self.chars (strLen q) charDefault else self.chars) = chars
    at *
  generalize (if self.conditions.length < strLen q / 2 + 1 then resize self.conditions (strLen q / 2 + 1) []
    else self.conditions) = conds at *
  generalize (if self.patterns.length < strLen q / 2 + 1 then resize self.patterns (strLen q / 2 + 1) Pattern.default
    else self.patterns) = pats at *
  have hd := strLen_dropWhile q
  obtain ⟨p', D', h1, h2, h3, h4⟩ := FzfParser.parseLoop_eq U (strLen q) (pats.length + 1) (q.dropWhile (· == ' '))
    (head_dropWhile q) [] chars [] pats none [] conds (by omega) (by omega)
    ⟨fun _ => by simpa using hd, by simp⟩ (by simp; omega) (by simp; omega) (by simp)
  simp only [List.nil_append, List.length_nil, stashTok, words_dropWhile] at h4
  rw [h4, Res.bind_ok]
  dsimp only
  have hsl : sliceToR (groups (tokens U (words q)) ++ D') (groups (tokens U (words q))).length =
      .ok (groups (tokens U (words q))) := by
    unfold sliceToR
    rw [if_pos (by simp)]
    simp
  rw [hsl, Res.bind_ok, newExtended_eq (groups_ne_nil _), Res.bind_ok]
  exact ⟨_, by simpa [hch] using h1, rfl⟩

/-! ### `parse_not_extended` -/

theorem writeChars_ok : ∀ (q pre rest : List Char), q.length ≤ rest.length →
    FzfParser.writeChars (pre ++ rest) q pre.length = .ok (pre ++ q ++ rest.drop q.length, (pre ++ q).length) := by
  intro q
  induction q with
  | nil => intro pre rest _; simp [FzfParser.writeChars]
  | cons c q ih =>
    intro pre rest h
    cases rest with
    | nil => simp at h
    | cons r rest =>
      have hs := setR_append pre [] rest r c
      simp only [List.nil_append, List.length_nil, Nat.add_zero] at hs
      rw [FzfParser.writeChars, hs, Res.bind_ok]
      have := ih (pre ++ [c]) rest (by simpa using h)
      simp only [List.append_assoc, List.singleton_append, List.length_append, List.length_singleton] at this
      rw [this]
      simp

theorem writeChars_panic : ∀ (q chars : List Char) (n : Nat), chars.length < n + q.length → n ≤ chars.length →
    FzfParser.writeChars chars q n = .panic := by
  intro q
  induction q with
  | nil => intro chars n h1 h2; simp at h1; omega
  | cons c q ih =>
    intro chars n h1 h2
    rw [FzfParser.writeChars]
    unfold setR
    by_cases hn : n < chars.length
    · rw [if_pos hn, Res.bind_ok]
      exact ih _ _ (by simp at h1 ⊢; omega) (by simp; omega)
    · rw [if_neg hn]; rfl

theorem FzfParser.parseNotExtended_ok (U : Unicode) (self : FzfParser) (q : List Char)
    (h : q.length ≤ self.chars.length) :
    ∃ self' : FzfParser, self'.chars.length = self.chars.length ∧
      FzfParser.parseNotExtended U self q = .ok (self', rawQuery U q) := by
  unfold FzfParser.parseNotExtended
  have := writeChars_ok q [] self.chars h
  simp only [List.nil_append, List.length_nil] at this
  rw [this, Res.bind_ok]
  dsimp only
  have hsl : sliceToR (q ++ self.chars.drop q.length) q.length = .ok q := by
    unfold sliceToR
    rw [if_pos (by simp)]
    simp
  rw [hsl, Res.bind_ok]
  refine ⟨{ self with chars := q ++ self.chars.drop q.length }, by simp; omega, rfl⟩

theorem FzfParser.parseNotExtended_panic (U : Unicode) (self : FzfParser) (q : List Char)
    (h : self.chars.length < q.length) : FzfParser.parseNotExtended U self q = .panic := by
  unfold FzfParser.parseNotExtended
  rw [writeChars_panic q self.chars 0 (by omega) (by omega)]
  rfl

end Norm
