import Verif.Proofs.Conditions
import Verif.Proofs.Search

/-!
# What appending characters to a query string does to the query -/

namespace Norm

open Spec

variable {U : Unicode} {a : Algo} {st : Settings} {q q' : FzfQuery} {s t u : List Char}

/-! ### Pieces -/

theorem pieces_append_space (t u : List Char) (h : t.getLast? ≠ some '\\') :
    pieces (t ++ ' ' :: u) = pieces t ++ pieces u := by
  have hc : ∀ (c : Char) (x y : List (List Char)), x ≠ [] → consHead c (x ++ y) = consHead c x ++ y := by
    intro c x y hx
    cases x with
    | nil => exact absurd rfl hx
    | cons w ws => rfl
  have htail : ∀ (c : Char) (s : List Char), (c :: s).getLast? ≠ some '\\' → s.getLast? ≠ some '\\' := by
    intro c s h1 h2
    cases s with
    | nil => simp at h2
    | cons d s => rw [List.getLast?_cons_cons] at h1; exact h1 h2
  induction t using pieces.induct with
  | case1 => simp [pieces]
  | case2 s ih =>
    simp only [List.cons_append]
    rw [pieces, pieces, ih (htail _ _ (htail _ _ h)), hc _ _ _ (pieces_ne_nil s)]
  | case3 s ih =>
    simp only [List.cons_append]
    rw [pieces, pieces, ih (htail _ _ h), List.cons_append]
  | case4 c s h1 h2 ih =>
    have hsp : c ≠ ' ' := by rintro rfl; exact h2 rfl
    have hb : ¬ (c = '\\' ∧ s.head? = some ' ') := by
      rintro ⟨rfl, h3⟩
      obtain ⟨s', rfl⟩ := List.head?_eq_some_iff.mp h3
      exact h1 s' rfl rfl
    simp only [List.cons_append]
    rw [pieces_cons_of hsp hb, pieces_cons_of hsp, ih (htail _ _ h), hc _ _ _ (pieces_ne_nil s)]
    rintro ⟨rfl, h3⟩
    cases s with
    | nil => simp at h
    | cons d s => exact hb ⟨rfl, h3⟩

theorem pieces_noSpace (h : ' ' ∉ u) : pieces u = [u] := by
  have e : escape u = u := by
    unfold escape
    induction u with
    | nil => rfl
    | cons c u ih =>
      simp only [List.mem_cons, not_or] at h
      rw [List.flatMap_cons, ih h.2, if_neg (fun e => h.1 e.symm)]
      rfl
  have := pieces_escape u
  rwa [e] at this

theorem pieces_append_last (h : ' ' ∉ u) (t : List Char) :
    ∀ ps w, pieces t = ps ++ [w] → pieces (t ++ u) = ps ++ [w ++ u] := by
  have hl : ∀ s : List Char, ∃ ps w, pieces s = ps ++ [w] := fun s =>
    ⟨_, _, (List.dropLast_append_getLast (pieces_ne_nil s)).symm⟩
  have hhead : ∀ (s : List Char), (s ++ u).head? = some ' ' → s.head? = some ' ' := by
    intro s hs
    cases s with
    | nil =>
      exfalso
      obtain ⟨_, rfl⟩ := List.head?_eq_some_iff.mp hs
      simp at h
    | cons => exact hs
  have step : ∀ (c : Char) (s : List Char), (∀ ps w, pieces s = ps ++ [w] → pieces (s ++ u) = ps ++ [w ++ u]) →
      ∀ ps w, consHead c (pieces s) = ps ++ [w] → consHead c (pieces (s ++ u)) = ps ++ [w ++ u] := by
    intro c s ih ps w hw
    obtain ⟨ps', w', e⟩ := hl s
    rw [ih _ _ e]
    rw [e] at hw
    cases ps' with
    | nil =>
      simp only [List.nil_append, consHead] at hw ⊢
      obtain ⟨rfl, h2⟩ := List.append_inj' (s₁ := []) hw rfl
      cases h2
      rfl
    | cons v vs =>
      simp only [List.cons_append, consHead] at hw ⊢
      obtain ⟨rfl, h2⟩ := List.append_inj' (s₁ := (c :: v) :: vs) hw rfl
      cases h2
      rfl
  induction t using pieces.induct with
  | case1 =>
    intro ps w hw
    obtain ⟨rfl, h2⟩ := List.append_inj' (s₁ := []) (t₁ := [[]]) hw rfl
    cases h2
    simpa using pieces_noSpace h
  | case2 s ih =>
    intro ps w hw
    simp only [List.cons_append]
    rw [pieces] at hw ⊢
    exact step _ _ ih _ _ hw
  | case3 s ih =>
    intro ps w hw
    simp only [List.cons_append]
    rw [pieces] at hw ⊢
    obtain ⟨ps', w', e⟩ := hl s
    rw [ih _ _ e]
    rw [e] at hw
    obtain ⟨rfl, h2⟩ := List.append_inj' (s₁ := [] :: ps') hw rfl
    cases h2
    rfl
  | case4 c s h1 h2 ih =>
    intro ps w hw
    have hsp : c ≠ ' ' := by rintro rfl; exact h2 rfl
    have hb : ¬ (c = '\\' ∧ s.head? = some ' ') := by
      rintro ⟨rfl, h3⟩
      obtain ⟨s', rfl⟩ := List.head?_eq_some_iff.mp h3
      exact h1 s' rfl rfl
    simp only [List.cons_append]
    rw [pieces_cons_of hsp hb] at hw
    rw [pieces_cons_of hsp (fun hh => hb ⟨hh.1, hhead s hh.2⟩)]
    exact step _ _ ih _ _ hw

/-! ### Conditions -/

theorem tokens_pieces (ps : List (List Char)) :
    tokens U (ps.filter (fun w => !w.isEmpty)) = tokens U ps := by
  unfold tokens
  rw [List.filterMap_filter]
  congr 1
  funext w
  cases w with
  | nil => simp [wordPattern, splitBang, splitDollar, splitSigil]
  | cons c w => simp

theorem groups_append (x y : List Token) (hx : x.getLast? ≠ some .bar) (hy : y.head? ≠ some .bar) :
    groups (x ++ y) = groups x ++ groups y := by
  rcases List.eq_nil_or_concat x with rfl | ⟨x, b, rfl⟩
  · rfl
  · cases y with
    | nil => simp [groups]
    | cons c y =>
      cases b with
      | bar => simp at hx
      | pat p =>
        cases c with
        | bar => simp at hy
        | pat p' => simpa using groups_split x p p' y

/-- The last pattern is the last of the last condition. -/
theorem groups_last (x : List Token) : ∃ G g, ∀ p, groups (x ++ [.pat p]) = G ++ [g ++ [p]] := by
  induction x with
  | nil => exact ⟨[], [], fun p => rfl⟩
  | cons b x ih =>
    obtain ⟨G, g, h⟩ := ih
    cases b with
    | bar => exact ⟨G, g, fun p => by simpa [groups] using h p⟩
    | pat r =>
      cases x with
      | nil =>
        refine ⟨[[r]], [], fun p => ?_⟩
        simp [groups]
      | cons b x =>
        cases b with
        | pat r' =>
          refine ⟨[r] :: G, g, fun p => ?_⟩
          have := h p
          simp only [List.cons_append] at this ⊢
          rw [groups, this]
          simp
        | bar =>
          cases G with
          | nil =>
            refine ⟨[], r :: g, fun p => ?_⟩
            have := h p
            simp only [List.cons_append, List.nil_append] at this ⊢
            rw [groups, this]
            simp
          | cons g₀ G =>
            refine ⟨(r :: g₀) :: G, g, fun p => ?_⟩
            have := h p
            simp only [List.cons_append] at this ⊢
            rw [groups, this]
            simp

/-- Conjunction of disjunctions. -/
def CondsMatch (U : Unicode) (st : Settings) (cs : List (List Pattern)) (s : List Char) : Prop :=
  ∀ c ∈ cs, ∃ p ∈ c, PatternMatches U st p s

theorem queryMatches_collapse {cs : List (List Pattern)} (ht : ∀ c ∈ cs, ∀ p ∈ c, p.text ≠ [])
    (hn : ∀ p, collapse cs = .notExtended p → p.isInverse = false) :
    QueryMatches U st (collapse cs) s ↔ CondsMatch U st cs s := by
  cases hc : collapse cs with
  | extended cs' =>
    have : cs' = cs := by have := conditions_collapse cs; rw [hc] at this; exact this
    rw [this]; rfl
  | notExtended p =>
    have e : [[p]] = cs := by have := conditions_collapse cs; rw [hc] at this; exact this
    have hi := hn p hc
    subst e
    have h1 : p.text ≠ [] := ht [p] (by simp) p (by simp)
    constructor
    · rintro (h | h)
      · exact absurd h h1
      · intro c hc
        obtain rfl := List.mem_singleton.mp hc
        exact ⟨p, by simp, by rw [PatternMatches, hi]; exact h⟩
    · intro h
      obtain ⟨p', hp', h2⟩ := h [p] (by simp)
      obtain rfl := List.mem_singleton.mp hp'
      rw [PatternMatches, hi] at h2
      exact Or.inr h2

theorem groups_text (ws : List (List Char)) : ∀ c ∈ groups (tokens U ws), ∀ p ∈ c, p.text ≠ [] := by
  intro c hc p hp
  have := (groups_mem c hc).2 p hp
  obtain ⟨w, _, hw⟩ := List.mem_filterMap.mp this
  split at hw
  · simp at hw
  · obtain ⟨p', h1, h2⟩ := Option.map_eq_some_iff.mp hw
    cases h2
    exact (wordPattern_ok h1).1

/-! ### Texts -/

theorem forall₂_append_left {R : Char → Char → Prop} : ∀ {x y m : List Char}, List.Forall₂ R (x ++ y) m →
    ∃ m₁ m₂, m = m₁ ++ m₂ ∧ List.Forall₂ R x m₁
  | [], y, m, _ => ⟨[], m, rfl, .nil⟩
  | c :: x, y, _, .cons h h' =>
    let ⟨m₁, m₂, e, h1⟩ := forall₂_append_left h'
    ⟨_ :: m₁, m₂, by rw [e]; rfl, .cons h h1⟩

theorem Substring.append_left {R : Char → Char → Prop} {v : List Char} : Substring R (t ++ v) s → Substring R t s := by
  rintro ⟨i, x, m, y, rfl, hi, h⟩
  obtain ⟨m₁, m₂, rfl, h1⟩ := forall₂_append_left h
  exact ⟨i, x, m₁, m₂ ++ y, by simp, hi, h1⟩

theorem leading_split (s : List Char) : ∃ r, s = List.replicate (leading s) ' ' ++ r := by
  refine ⟨s.dropWhile (· = ' '), ?_⟩
  have h : s.takeWhile (· = ' ') = List.replicate (leading s) ' ' := by
    refine List.eq_replicate_iff.mpr ⟨rfl, fun c hc => ?_⟩
    have := List.all_eq_true.mp (List.all_takeWhile (p := (· = ' ')) (l := s)) c hc
    simpa using this
  rw [← h, List.takeWhile_append_dropWhile]

theorem forall₂_replicate {R : Char → Char → Prop} {c : Char} (h : R c c) (n : Nat) :
    List.Forall₂ R (List.replicate n c) (List.replicate n c) := by
  induction n with
  | zero => exact .nil
  | succ n ih => exact .cons h ih

theorem PrefixMatch.append_left {R : Char → Char → Prop} (hR : R ' ' ' ') {v : List Char} :
    PrefixMatch R (t ++ v) s → PrefixMatch R t s := by
  rintro ⟨j, m, y, hs, hl, h⟩
  by_cases hn : (t.takeWhile (· = ' ')).length = t.length
  · have e1 : leading t = t.length := hn
    have e2 : leading (t ++ v) = t.length + leading v := by
      rw [leading, List.takeWhile_append, if_pos hn, List.length_append]; rfl
    obtain ⟨x, hx⟩ := leading_split t
    have hx : t = List.replicate t.length ' ' := by
      have h3 : x = [] := by
        have := congrArg List.length hx
        rw [List.length_append, List.length_replicate, e1] at this
        exact List.length_eq_zero_iff.mp (by omega)
      rw [h3, List.append_nil, e1] at hx
      exact hx
    obtain ⟨r, hr⟩ := leading_split s
    refine ⟨j + leading v, List.replicate t.length ' ', r, ?_, by omega, ?_⟩
    · rw [← List.replicate_add]
      have : leading s = j + leading v + t.length := by omega
      rwa [this] at hr
    · have := forall₂_replicate hR t.length
      rwa [← hx] at this ⊢
  · have e2 : leading (t ++ v) = leading t := by
      rw [leading, List.takeWhile_append, if_neg hn]; rfl
    obtain ⟨m₁, m₂, rfl, h1⟩ := forall₂_append_left h
    exact ⟨j, m₁, m₂ ++ y, by rw [hs]; simp, by rw [hl, e2], h1⟩

/-- A longer text is compared no less strictly. -/
theorem cmp_append {v : List Char} {x c : Char} (h : Cmp U st (t ++ v) x c) : Cmp U st t x c := by
  unfold Cmp at h ⊢
  cases hs : sensitive U st.caseSensitivity (t ++ v) with
  | true => rw [hs] at h; exact CharMatches.insensitive _ h
  | false =>
    have : sensitive U st.caseSensitivity t = false := by
      unfold sensitive at hs ⊢
      cases hcs : st.caseSensitivity with
      | sensitive => rw [hcs] at hs; cases hs
      | insensitive => rfl
      | smart =>
        rw [hcs] at hs
        simp only [List.any_eq_false] at hs ⊢
        exact fun x hx => hs x (List.mem_append_left _ hx)
    rw [this]; rw [hs] at h; exact h

/-- Characters appended to a word that is not negated and has text and no `$`. -/
theorem decorates_append {w text : List Char} {sg : Sigil} (h : Decorates w false sg false text) (ht : text ≠ [])
    (u : List Char) : ∃ v dol, Decorates (w ++ u) false sg dol (text ++ v) := by
  have hw : w = sg.chars ++ text := by simpa using h.word
  obtain ⟨c, x, rfl⟩ := List.exists_cons_of_ne_nil ht
  have hb : (w ++ u).head? ≠ some '!' := by
    have := h.bang rfl
    rw [hw] at this ⊢
    cases hsg : sg.chars with
    | nil => rw [hsg] at this; exact this
    | cons d y => rw [hsg] at this; exact this
  have hsig : ∀ v, sg = .none → (c :: x ++ v).head? ≠ some '\'' ∧ (c :: x ++ v).head? ≠ some '^' :=
    fun v e => h.sigil_max e
  rcases List.eq_nil_or_concat u with rfl | ⟨u, d, rfl⟩
  · exact ⟨[], false, by simpa using h⟩
  · by_cases hd : d = '$'
    · subst hd
      refine ⟨u, true, ?_, fun _ => hb, ?_, by simp, hsig u⟩
      · rw [hw]; simp
      · simp
    · refine ⟨u.concat d, false, ?_, fun _ => hb, by simp, ?_, hsig _⟩
      · rw [hw]; simp
      · intro _ h2
        exfalso
        rw [← List.append_assoc, List.concat_eq_append, ← List.append_assoc, List.getLast?_concat] at h2
        exact hd (Option.some.inj h2)

/-- Appending to the text of a pattern and a `$` to the word makes it match less. -/
theorem rawMatches_append {v : List Char} {sg : Sigil} {dol : Bool}
    (h : RawMatches U st (mkPattern U false (kind false dol sg) (t ++ v)) s) :
    RawMatches U st (mkPattern U false (kind false false sg) t) s := by
  have h : TextMatches (Cmp U st (t ++ v)) (kind false dol sg) (t ++ v) s := h
  have h := TextMatches.imp (R' := Cmp U st t) (fun x c hx => cmp_append hx) h
  show TextMatches (Cmp U st t) (kind false false sg) t s
  cases sg with
  | none =>
    have hs : Subseq (Cmp U st t) (t ++ v) s := by
      cases dol with
      | false => exact h
      | true => exact Substring.toSubseq (SuffixMatch.toSubstring h)
    exact Subseq.sublist (List.sublist_append_left t v) hs
  | quote => exact Substring.append_left h
  | caret =>
    have hs : PrefixMatch (Cmp U st t) (t ++ v) s := by
      cases dol with
      | false => exact h
      | true => exact EqualMatch.toPrefix h
    exact PrefixMatch.append_left (CharMatches.refl ..) hs

/-! ### Narrower queries -/

theorem narrower_of (hq' : QueryOk U q') (hq : QueryOk U q)
    (h : ∀ s, QueryMatches U st q' s → QueryMatches U st q s) : Narrower U a st q' q := by
  intro s d hd
  obtain ⟨d₁, h1, h2⟩ := decision (fresh_reachable (U := U) a st) hq' s
  obtain ⟨d₂, h3, h4⟩ := decision (fresh_reachable (U := U) a st) hq s
  cases returns_unique hd h1
  obtain ⟨d', rfl⟩ := Option.isSome_iff_exists.mp (h4.mpr (h s (h2.mp rfl)))
  exact ⟨d', h3⟩

theorem query_eq_pieces {ps : List (List Char)} (h : pieces t = ps) : query U t = collapse (groups (tokens U ps)) := by
  rw [query, words, tokens_pieces, h]

/-- More conditions match less. -/
theorem queryMatches_more {x y : List Token} (hx : ∃ ws, x = tokens U ws) (hxy : ∃ ws, x ++ y = tokens U ws)
    (h1 : x.getLast? ≠ some .bar) (h2 : y.head? ≠ some .bar)
    (hn : ∀ p, collapse (groups x) = .notExtended p → p.isInverse = false)
    (h : QueryMatches U st (collapse (groups (x ++ y))) s) : QueryMatches U st (collapse (groups x)) s := by
  obtain ⟨ws, hx⟩ := hx
  obtain ⟨ws', hxy⟩ := hxy
  have ht : ∀ c ∈ groups x, ∀ p ∈ c, p.text ≠ [] := by rw [hx]; exact groups_text ws
  have ht' : ∀ c ∈ groups (x ++ y), ∀ p ∈ c, p.text ≠ [] := by rw [hxy]; exact groups_text ws'
  have e := groups_append x y h1 h2
  by_cases hy : groups y = []
  · rwa [e, hy, List.append_nil] at h
  · by_cases hx0 : groups x = []
    · rw [queryMatches_collapse ht hn, hx0]
      intro c hc
      cases hc
    · rw [queryMatches_collapse ht hn]
      have hn' : ∀ p, collapse (groups (x ++ y)) = .notExtended p → p.isInverse = false := by
        intro p hp
        exfalso
        have := conditions_collapse (groups (x ++ y))
        rw [hp, e] at this
        have := congrArg List.length this
        rw [List.length_append] at this
        have h3 := List.length_pos_iff.mpr hy
        have h4 := List.length_pos_iff.mpr hx0
        simp [conditions] at this
        omega
      rw [queryMatches_collapse ht' hn', e] at h
      exact fun c hc => h c (List.mem_append_left _ hc)

/-- A stricter last pattern matches less. -/
theorem queryMatches_last {x : List Token} {p p' : Pattern} (hx : ∃ ws, x ++ [.pat p] = tokens U ws)
    (hx' : ∃ ws, x ++ [.pat p'] = tokens U ws) (hi : p.isInverse = false) (hi' : p'.isInverse = false)
    (hp : PatternMatches U st p' s → PatternMatches U st p s)
    (h : QueryMatches U st (collapse (groups (x ++ [.pat p']))) s) :
    QueryMatches U st (collapse (groups (x ++ [.pat p]))) s := by
  obtain ⟨ws, hx⟩ := hx
  obtain ⟨ws', hx'⟩ := hx'
  have ht : ∀ c ∈ groups (x ++ [.pat p]), ∀ p ∈ c, p.text ≠ [] := by rw [hx]; exact groups_text ws
  have ht' : ∀ c ∈ groups (x ++ [.pat p']), ∀ p ∈ c, p.text ≠ [] := by rw [hx']; exact groups_text ws'
  obtain ⟨G, g, e⟩ := groups_last x
  have lone : ∀ p₀, p₀.isInverse = false → ∀ p₁, collapse (groups (x ++ [.pat p₀])) = .notExtended p₁ →
      p₁.isInverse = false := by
    intro p₀ h0 p₁ h1
    have h2 := conditions_collapse (groups (x ++ [.pat p₀]))
    rw [h1, e] at h2
    have h2 : [[p₁]] = G ++ [g ++ [p₀]] := h2
    have h3 := (List.append_inj' (s₁ := []) h2 rfl).2
    have h4 : [p₁] = g ++ [p₀] := (List.cons.inj h3).1
    have h5 := (List.append_inj' (s₁ := []) h4 rfl).2
    rw [(List.cons.inj h5).1]
    exact h0
  rw [queryMatches_collapse ht (lone p hi), e]
  rw [queryMatches_collapse ht' (lone p' hi'), e] at h
  intro c hc
  rcases List.mem_append.mp hc with hc | hc
  · exact h c (List.mem_append_left _ hc)
  · obtain rfl := List.mem_singleton.mp hc
    obtain ⟨p₀, h0, h1⟩ := h (g ++ [p']) (by simp)
    rcases List.mem_append.mp h0 with h0 | h0
    · exact ⟨p₀, List.mem_append_left _ h0, h1⟩
    · obtain rfl := List.mem_singleton.mp h0
      exact ⟨p, by simp, hp h1⟩

/-! ### Searching among results -/

theorem hits_among (hn : Narrower U a st q' q) {l : List (List Char)} {r r' : List (List Char × FzfDistance)}
    (h : Hits U a st q l r) (h' : Hits U a st q' l r') : Hits U a st q' (r.map (·.1)) r' := by
  induction h generalizing r' with
  | nil => cases h'; exact .nil
  | hit hd _ ih =>
    cases h' with
    | hit hd' h' => exact .hit hd' (ih h')
    | miss hd' h' => exact .miss hd' (ih h')
  | miss hd _ ih =>
    cases h' with
    | hit hd' h' =>
      obtain ⟨d', h1⟩ := hn _ _ hd'
      cases returns_unique hd h1
    | miss hd' h' => exact ih h'

end Norm
