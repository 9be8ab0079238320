import Verif.Proofs.Conditions
import Verif.SpecWritable

/-!
# Words for patterns, strings for queries -/

namespace Norm

open Spec

variable {U : Unicode}

theorem getLast_caret {t : List Char} (ht : t ≠ []) : ('^' :: t).getLast? = t.getLast? := by
  cases t with
  | nil => exact absurd rfl ht
  | cons c t => rw [List.getLast?_cons_cons]

/-- The decoration of `wordOf`. -/
theorem wordOf_decorates {p : Pattern} (h : Writable U p) : ∃ sg d, Decorates (wordOf p) p.isInverse sg d p.text ∧
    kind p.isInverse d sg = p.matchType ∧ (d = false ↔ NoDollar p) := by
  obtain ⟨⟨hne, -⟩, h1, h2, h3, -⟩ := h
  unfold NoSigil NoDollar at *
  unfold wordOf
  cases hk : p.matchType <;> cases hi : p.isInverse <;> simp only [hk, hi] at h1 h2 h3 ⊢ <;> simp at h1 h2 h3
  · exact ⟨.none, false, ⟨by simp [Sigil.chars], fun _ => h2, by simp, fun _ => by simpa [Sigil.chars] using h3, fun _ => h1⟩, rfl, by simp⟩
  · exact ⟨.quote, true, ⟨by simp [Sigil.chars], by simp, by simp [Sigil.chars], by simp, by simp⟩, rfl, by simp⟩
  · exact ⟨.quote, true, ⟨by simp [Sigil.chars], by simp, by simp [Sigil.chars], by simp, by simp⟩, rfl, by simp⟩
  · exact ⟨.none, false, ⟨by simp [Sigil.chars], by simp, by simp, fun _ => by simpa [Sigil.chars] using h3, fun _ => h1⟩, rfl, by simp⟩
  · refine ⟨.caret, false, ⟨by simp [Sigil.chars], by simp, by simp, fun _ h => ?_, by simp⟩, rfl, by simp⟩
    simp only [Sigil.chars, List.singleton_append, getLast_caret hne] at h
    exact absurd h h3
  · refine ⟨.caret, false, ⟨by simp [Sigil.chars], by simp, by simp, fun _ h => ?_, by simp⟩, rfl, by simp⟩
    simp only [Sigil.chars, List.singleton_append, getLast_caret hne] at h
    exact absurd h h3
  · refine ⟨.none, true, ⟨by simp [Sigil.chars], fun _ => ?_, by simpa [Sigil.chars] using hne, by simp, fun _ => h1⟩, rfl, by simp⟩
    rw [List.head?_append_of_ne_nil _ hne]
    exact h2
  · exact ⟨.none, true, ⟨by simp [Sigil.chars], by simp, by simpa [Sigil.chars] using hne, by simp, fun _ => h1⟩, rfl, by simp⟩
  · exact ⟨.caret, true, ⟨by simp [Sigil.chars], by simp, by simp [Sigil.chars], by simp, by simp⟩, rfl, by simp⟩
  · exact ⟨.caret, true, ⟨by simp [Sigil.chars], by simp, by simp [Sigil.chars], by simp, by simp⟩, rfl, by simp⟩

theorem wordOf_ne {p : Pattern} (h : Writable U p) : wordOf p ≠ [] ∧ wordOf p ≠ ['|'] := by
  have hne := h.ok.1
  have hb := h.bar
  unfold wordOf
  cases hk : p.matchType <;> cases hi : p.isInverse <;> simp [hk, hi] at hb ⊢ <;> first | exact ⟨hne, hb⟩ | skip
  rcases hc : p.text with _ | ⟨c, _ | ⟨d, t⟩⟩ <;> simp_all

theorem wordOf_pattern {p : Pattern} (h : Writable U p) : wordPattern U (wordOf p) = some p := by
  obtain ⟨sg, d, h1, h2, -⟩ := wordOf_decorates h
  rw [wordPattern_of_decorates h1, if_neg h.ok.1, h2, ← h.ok.2]

theorem wordOf_last {p : Pattern} (h : Writable U p) (hl : ¬ LastOnly p) : (wordOf p).getLast? ≠ some '\\' := by
  obtain ⟨sg, d, h1, -, h3⟩ := wordOf_decorates h
  rw [h1.word]
  cases d with
  | true => simp
  | false =>
    have hd := h3.mp rfl
    simp only [Bool.false_eq_true, if_false, List.append_nil]
    rw [List.getLast?_append_of_ne_nil _ (by simp [h.ok.1]), List.getLast?_append_of_ne_nil _ h.ok.1]
    exact fun h4 => hl ⟨hd, h4⟩

/-- The pattern of a word is writable. -/
theorem decorates_writable {w text : List Char} {inv d : Bool} {sg : Sigil} (h : Decorates w inv sg d text) (ht : text ≠ [])
    (hw : w ≠ ['|']) : Writable U (mkPattern U inv (kind inv d sg) text) ∧
      (LastOnly (mkPattern U inv (kind inv d sg) text) → w.getLast? = some '\\') := by
  obtain ⟨rfl, h1, h2, h3, h4⟩ := h
  have hd : NoDollar (mkPattern U inv (kind inv d sg) text) → d = false := by
    unfold NoDollar mkPattern kind
    cases inv <;> cases d <;> cases sg <;> simp
  have hs : NoSigil (mkPattern U inv (kind inv d sg) text) → sg = .none := by
    unfold NoSigil mkPattern kind
    cases inv <;> cases d <;> cases sg <;> simp
  refine ⟨⟨⟨ht, rfl⟩, fun h => h4 (hs h), fun h hi => ?_, fun h hl => ?_, fun h hi => ?_⟩, fun h => ?_⟩
  · obtain rfl := hs h
    obtain rfl : inv = false := hi
    have := h1 rfl
    simp only [Bool.false_eq_true, if_false, List.nil_append, Sigil.chars] at this
    rwa [List.head?_append_of_ne_nil _ ht] at this
  · obtain rfl := hd h
    have hl : text.getLast? = some '$' := hl
    have := h3 rfl (by rw [List.getLast?_append_of_ne_nil _ ht]; exact hl)
    cases sg with
    | none => exact ⟨this, by cases inv <;> simp [mkPattern, kind]⟩
    | quote => simp [Sigil.chars] at this
    | caret => simp [Sigil.chars] at this
  · obtain rfl : inv = false := hi
    have hk : kind false d sg = .fuzzy := h
    rintro rfl
    cases sg <;> cases d <;> simp [kind] at hk
    simp [Sigil.chars] at hw
  · obtain rfl := hd h.1
    have := h.2
    simp only [Bool.false_eq_true, if_false, List.append_nil]
    rw [List.getLast?_append_of_ne_nil _ (by simp [ht]), List.getLast?_append_of_ne_nil _ ht]
    exact this

/-! ### Tokens for conditions -/

/-- The tokens of a condition. -/
def condTokens (c : List Pattern) : List Token := (c.map Token.pat).intersperse .bar

/-- A word for a token. -/
def tokenWord : Token → List Char
  | .bar => ['|']
  | .pat p => wordOf p

theorem map_intersperse {α β} (f : α → β) (a : α) (l : List α) : (l.intersperse a).map f = (l.map f).intersperse (f a) := by
  induction l with
  | nil => rfl
  | cons x l ih =>
    cases l with
    | nil => rfl
    | cons y l => simp only [List.intersperse_cons_cons, List.map_cons] at ih ⊢; rw [ih]

theorem condWords_eq (c : List Pattern) : condWords c = (condTokens c).map tokenWord := by
  unfold condWords condTokens
  rw [map_intersperse, List.map_map]
  rfl

theorem condTokens_head {c : List Pattern} : (condTokens c).head? ≠ some .bar := by
  unfold condTokens
  rcases c with _ | ⟨p, _ | ⟨p', c⟩⟩ <;> simp

theorem groups_cond {c : List Pattern} (hc : c ≠ []) (ts : List Token) (ht : ts.head? ≠ some .bar) :
    groups (condTokens c ++ ts) = c :: groups ts := by
  induction c with
  | nil => exact absurd rfl hc
  | cons p c ih =>
    cases c with
    | nil =>
      show groups (.pat p :: ts) = _
      rw [groups]
      split
      · rename_i h _; exact absurd h ht
      · rfl
    | cons p' c =>
      have ih := ih (by simp)
      show groups (.pat p :: .bar :: (condTokens (p' :: c) ++ ts)) = _
      rw [groups, groups, ih]
      rfl

theorem flatMap_head {cs : List (List Pattern)} (h : ∀ c ∈ cs, c ≠ []) : (cs.flatMap condTokens).head? ≠ some .bar := by
  cases cs with
  | nil => simp
  | cons c cs =>
    rw [List.flatMap_cons, List.head?_append_of_ne_nil]
    · exact condTokens_head
    · have := h c (by simp)
      unfold condTokens
      rcases c with _ | ⟨p, _ | ⟨p', c⟩⟩ <;> simp_all

theorem groups_conds {cs : List (List Pattern)} (h : ∀ c ∈ cs, c ≠ []) : groups (cs.flatMap condTokens) = cs := by
  induction cs with
  | nil => rfl
  | cons c cs ih =>
    have h' : ∀ c ∈ cs, c ≠ [] := fun c hc => h c (by simp [hc])
    rw [List.flatMap_cons, groups_cond (h c (by simp)) _ (flatMap_head h'), ih h']

/-- The last token is the last pattern. -/
theorem condTokens_last {c : List Pattern} (hc : c ≠ []) : ∃ l p, condTokens c = l ++ [.pat p] := by
  induction c with
  | nil => exact absurd rfl hc
  | cons p c ih =>
    cases c with
    | nil => exact ⟨[], p, rfl⟩
    | cons p' c =>
      obtain ⟨l, x, h⟩ := ih (by simp)
      refine ⟨.pat p :: .bar :: l, x, ?_⟩
      show .pat p :: .bar :: condTokens (p' :: c) = _
      rw [h]
      rfl

theorem conds_last {cs : List (List Pattern)} (h : ∀ c ∈ cs, c ≠ []) (hn : cs ≠ []) :
    ∃ l p, cs.flatMap condTokens = l ++ [.pat p] := by
  obtain ⟨cs', c, rfl⟩ := List.eq_nil_or_concat cs |>.resolve_left hn
  simp only [List.concat_eq_append] at *
  obtain ⟨l, p, hl⟩ := condTokens_last (h c (by simp))
  exact ⟨cs'.flatMap condTokens ++ l, p, by rw [List.flatMap_append]; simp [hl]⟩

theorem tokens_words {ts : List Token} (h : ∀ p, .pat p ∈ ts → Writable U p) : tokens U (ts.map tokenWord) = ts := by
  induction ts with
  | nil => rfl
  | cons x ts ih =>
    have ih := ih fun p hp => h p (List.mem_cons_of_mem _ hp)
    cases x with
    | bar => exact (tokens_cons_bar U _).trans (by rw [ih])
    | pat p =>
      have hw := h p (by simp)
      exact (tokens_cons_some U _ (wordOf_ne hw).2 (wordOf_pattern hw)).trans (by rw [ih])

theorem mem_pats {ts : List Token} {p : Pattern} : p ∈ pats ts ↔ .pat p ∈ ts := by
  unfold pats
  rw [List.mem_filterMap]
  constructor
  · rintro ⟨x, hx, h⟩
    cases x with
    | bar => cases h
    | pat y => cases h; exact hx
  · exact fun h => ⟨_, h, rfl⟩

theorem query_written {cs : List (List Pattern)} (hn : ∀ c ∈ cs, c ≠ []) (hw : ∀ p ∈ cs.flatten, Writable U p)
    (hl : ∀ p ∈ cs.flatten.dropLast, ¬ LastOnly p) : query U (written cs) = collapse cs := by
  by_cases h0 : cs = []
  · subst h0; rfl
  have hg := groups_conds hn
  have hp : cs.flatten = pats (cs.flatMap condTokens) := by rw [← groups_pats, hg]
  obtain ⟨l, x, hx⟩ := conds_last hn h0
  have he : cs.flatMap condWords = (cs.flatMap condTokens).map tokenWord := by
    rw [List.map_flatMap]
    exact congrArg (cs.flatMap ·) (funext condWords_eq)
  have hdl : ∀ p, .pat p ∈ l → ¬ LastOnly p := by
    intro p hm
    refine hl p ?_
    rw [hp, hx, pats_append]
    show p ∈ (pats l ++ [x]).dropLast
    rw [List.dropLast_concat]
    exact mem_pats.mpr hm
  have hwt : ∀ p, .pat p ∈ cs.flatMap condTokens → Writable U p := fun p hm => hw p (by rw [hp]; exact mem_pats.mpr hm)
  have hne : ∀ t ∈ cs.flatMap condTokens, tokenWord t ≠ [] := by
    intro t ht
    cases t with
    | bar => simp [tokenWord]
    | pat p => exact (wordOf_ne (hwt p ht)).1
  have h1 : pieces (written cs) = cs.flatMap condWords := by
    unfold written
    rw [he]
    refine pieces_of_render _ (by simp [hx]) ?_
    rw [hx, List.map_append, List.map_singleton, List.dropLast_concat]
    intro w hw'
    obtain ⟨t, ht, rfl⟩ := List.mem_map.mp hw'
    cases t with
    | bar => simp [tokenWord]
    | pat p => exact wordOf_last (hwt p (by rw [hx]; exact List.mem_append_left _ ht)) (hdl p ht)
  have h2 : words (written cs) = (cs.flatMap condTokens).map tokenWord := by
    unfold words
    rw [h1, he, List.filter_eq_self]
    intro w hw'
    obtain ⟨t, ht, rfl⟩ := List.mem_map.mp hw'
    simpa using hne t ht
  unfold query
  rw [h2, tokens_words hwt, hg]

/-! ### Patterns of a string -/

theorem mem_dropLast_filterMap {α β} {f : α → Option β} {l : List α} {y : β} (h : y ∈ (l.filterMap f).dropLast) :
    ∃ x ∈ l.dropLast, f x = some y := by
  rcases List.eq_nil_or_concat l with rfl | ⟨l', a, rfl⟩
  · simp at h
  · rw [List.concat_eq_append] at h ⊢
    rw [List.dropLast_concat]
    rw [List.filterMap_append] at h
    refine List.mem_filterMap.mp ?_
    cases ha : f a with
    | none =>
      rw [show List.filterMap f [a] = [] by simp [ha], List.append_nil] at h
      exact List.dropLast_subset _ h
    | some b =>
      rw [show List.filterMap f [a] = [b] by simp [ha], List.dropLast_concat] at h
      exact h

theorem pats_pieces (t : List Char) : pats (tokens U (words t)) =
    (pieces t).filterMap fun w => if w = ['|'] ∨ w = [] then none else wordPattern U w := by
  unfold pats tokens words
  rw [List.filterMap_filterMap, List.filterMap_filter]
  congr 1
  funext w
  by_cases h' : w = []
  · simp [h']
  · have : (!w.isEmpty) = true := by cases w <;> simp_all
    by_cases h : w = ['|']
    · simp [h]
    · rw [if_neg (show ¬ (w = ['|'] ∨ w = []) by simp [h, h']), if_pos this, if_neg h]
      cases wordPattern U w <;> rfl

theorem word_writable {w : List Char} {p : Pattern} (h : (if w = ['|'] ∨ w = [] then none else wordPattern U w) = some p) :
    Writable U p ∧ (LastOnly p → w.getLast? = some '\\') := by
  split at h
  · cases h
  · rename_i hw
    have hd := decorates_exists w
    rw [wordPattern_of_decorates hd] at h
    split at h
    · cases h
    · rename_i ht
      cases h
      exact decorates_writable hd ht fun h => hw (Or.inl h)

theorem query_writable (t : List Char) : (∀ c ∈ conditions (query U t), c ≠ []) ∧
    (∀ p ∈ (conditions (query U t)).flatten, Writable U p) ∧ ∀ p ∈ (conditions (query U t)).flatten.dropLast, ¬ LastOnly p := by
  unfold query
  rw [conditions_collapse]
  refine ⟨groups_ne_nil _, ?_, ?_⟩
  · rw [groups_pats, pats_pieces]
    intro p hp
    obtain ⟨w, _, h⟩ := List.mem_filterMap.mp hp
    exact (word_writable h).1
  · rw [groups_pats, pats_pieces]
    intro p hp hl
    obtain ⟨w, hw, h⟩ := mem_dropLast_filterMap hp
    exact pieces_dropLast t w hw ((word_writable h).2 hl)

end Norm
