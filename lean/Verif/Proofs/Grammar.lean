import Verif.Proofs.Api

/-!
# Facts about the query grammar

Words, sigils and conditions of `SpecQuery`, characterised by equations between strings. -/

set_option linter.unusedSimpArgs false

namespace Norm

open Spec

/-! ### Sigils -/

theorem splitBang_spec {w core : List Char} {inv : Bool} (h : w = (if inv then ['!'] else []) ++ core)
    (hb : inv = false → w.head? ≠ some '!') : splitBang w = (inv, core) := by
  subst h
  cases inv with
  | true => rfl
  | false =>
    simp only [Bool.false_eq_true, if_false, List.nil_append, forall_const] at hb ⊢
    unfold splitBang
    split
    · simp at hb
    · rfl

theorem splitDollar_spec {core : List Char} {d : Bool} (hp : d = true → core ≠ [])
    (hm : d = false → core.getLast? = some '$' → core = ['$']) :
    splitDollar (core ++ (if d then ['$'] else [])) = (d, core) := by
  unfold splitDollar
  cases d with
  | true => simp [hp rfl]
  | false =>
    simp only [forall_const] at hm
    simp only [Bool.false_eq_true, if_false, List.append_nil]
    rw [if_neg (fun h => h.2 (hm h.1))]

theorem splitSigil_spec {sg : Sigil} {text : List Char}
    (h : sg = .none → text.head? ≠ some '\'' ∧ text.head? ≠ some '^') : splitSigil (sg.chars ++ text) = (sg, text) := by
  cases sg with
  | quote => rfl
  | caret => rfl
  | none =>
    have h := h rfl
    simp only [Sigil.chars, List.nil_append]
    unfold splitSigil
    split
    · simp at h
    · simp at h
    · rfl

/-- The decomposition of a word into sigils and text exists. -/
theorem decorates_exists (w : List Char) :
    Decorates w (splitBang w).1 (splitSigil (splitDollar (splitBang w).2).2).1 (splitDollar (splitBang w).2).1
      (splitSigil (splitDollar (splitBang w).2).2).2 := by
  have hs : ∀ c, (splitSigil c).1.chars ++ (splitSigil c).2 = c := by
    intro c; unfold splitSigil; split <;> rfl
  have hd : ∀ r, (splitDollar r).2 ++ (if (splitDollar r).1 then ['$'] else []) = r := by
    intro r; unfold splitDollar
    split
    · rename_i h
      obtain ⟨h1, h2⟩ := h
      obtain ⟨ys, rfl⟩ := List.getLast?_eq_some_iff.mp h1
      simp
    · simp
  have hb : (if (splitBang w).1 then ['!'] else []) ++ (splitBang w).2 = w := by
    unfold splitBang; split <;> simp
  constructor
  · rw [hs, List.append_assoc, hd, hb]
  · intro h
    unfold splitBang at h
    split at h
    · simp at h
    · rename_i hne
      intro h2
      obtain ⟨ys, rfl⟩ := List.head?_eq_some_iff.mp h2
      exact hne ys rfl
  · rw [hs]
    intro h
    unfold splitDollar at h ⊢
    split at h
    · rename_i h1
      rw [if_pos h1]
      obtain ⟨ys, h3⟩ := List.getLast?_eq_some_iff.mp h1.1
      rw [h3] at h1 ⊢
      intro h4; simp at h4; subst h4; simp at h1
    · simp at h
  · rw [hs]
    intro h
    unfold splitDollar at h ⊢
    split at h
    · simp at h
    · rename_i h1
      rw [if_neg h1]
      intro h2
      by_contra h3; exact h1 ⟨h2, h3⟩
  · intro h
    unfold splitSigil at h ⊢
    split at h <;> simp at h ⊢
    rename_i h1 h2
    constructor
    · intro h3; obtain ⟨ys, h4⟩ := List.head?_eq_some_iff.mp h3; exact h1 ys h4
    · intro h3; obtain ⟨ys, h4⟩ := List.head?_eq_some_iff.mp h3; exact h2 ys h4

/-- A decomposition of a word determines the pattern. -/
theorem wordPattern_of_decorates {U : Unicode} {w text : List Char} {inv d : Bool} {sg : Sigil}
    (h : Decorates w inv sg d text) :
    wordPattern U w = if text = [] then none else some (mkPattern U inv (kind inv d sg) text) := by
  have h1 := splitBang_spec (core := (sg.chars ++ text) ++ (if d then ['$'] else [])) (by
    rw [← List.append_assoc]; exact h.word) h.bang
  have h2 := splitDollar_spec h.dollar_pos h.dollar_max
  have h3 := splitSigil_spec h.sigil_max
  unfold wordPattern
  simp only [h1, h2, h3]

theorem decorates_unique {w t t' : List Char} {i i' d d' : Bool} {sg sg' : Sigil}
    (h : Decorates w i sg d t) (h' : Decorates w i' sg' d' t') : i = i' ∧ sg = sg' ∧ d = d' ∧ t = t' := by
  have key : ∀ {i d sg t}, Decorates w i sg d t →
      ((splitBang w).1, (splitSigil (splitDollar (splitBang w).2).2).1, (splitDollar (splitBang w).2).1,
      (splitSigil (splitDollar (splitBang w).2).2).2) = (i, sg, d, t) := by
    intro i d sg t h
    have h1 := splitBang_spec (core := (sg.chars ++ t) ++ (if d then ['$'] else [])) (by
      rw [← List.append_assoc]; exact h.word) h.bang
    have h2 := splitDollar_spec h.dollar_pos h.dollar_max
    have h3 := splitSigil_spec h.sigil_max
    simp only [h1, h2, h3]
  have := (key h).symm.trans (key h')
  simpa using this

theorem wordPattern_ok {U : Unicode} {w : List Char} {p : Pattern} (h : wordPattern U w = some p) : PatternOk U p := by
  unfold wordPattern at h
  dsimp only at h
  split at h
  · simp at h
  · rename_i ht
    obtain rfl := Option.some.inj h
    exact ⟨ht, rfl⟩

/-! ### Conditions -/

theorem groups_mem {ts : List Token} : ∀ c ∈ groups ts, c ≠ [] ∧ ∀ p ∈ c, Token.pat p ∈ ts := by
  fun_induction groups ts with
  | case1 => simp
  | case2 ts ih =>
    intro c hc
    exact ⟨(ih c hc).1, fun p hp => List.mem_cons_of_mem _ ((ih c hc).2 p hp)⟩
  | case3 p ts g gs h2 h1 ih =>
    intro c hc
    rw [h2] at ih
    rcases List.mem_cons.mp hc with rfl | hc
    · refine ⟨by simp, ?_⟩
      intro q hq
      rcases List.mem_cons.mp hq with rfl | hq
      · simp
      · exact List.mem_cons_of_mem _ ((ih g (by simp)).2 q hq)
    · have := ih c (by simp [hc])
      exact ⟨this.1, fun q hq => List.mem_cons_of_mem _ (this.2 q hq)⟩
  | case4 p ts h ih =>
    intro c hc
    rcases List.mem_cons.mp hc with rfl | hc
    · simp
    · exact ⟨(ih c hc).1, fun q hq => List.mem_cons_of_mem _ ((ih c hc).2 q hq)⟩

theorem query_ok (U : Unicode) (s : List Char) : QueryOk U (query U s) := by
  have h : ∀ c ∈ groups (tokens U (words s)), c ≠ [] ∧ ∀ p ∈ c, PatternOk U p := by
    intro c hc
    obtain ⟨h1, h2⟩ := groups_mem c hc
    refine ⟨h1, fun p hp => ?_⟩
    have := h2 p hp
    simp only [tokens, List.mem_filterMap] at this
    obtain ⟨w, _, hw⟩ := this
    split at hw
    · simp at hw
    · cases hp' : wordPattern U w with
      | none => rw [hp'] at hw; simp at hw
      | some p' =>
        rw [hp'] at hw
        simp at hw
        subst hw
        exact wordPattern_ok hp'
  unfold query
  generalize groups (tokens U (words s)) = cs at h
  unfold collapse
  split
  · rename_i p
    split
    · rename_i hk
      have := (h [p] (by simp)).2 p (by simp)
      unfold QueryOk
      rw [← hk]; exact this.2
    · exact h
  · exact h

theorem raw_ok (U : Unicode) (s : List Char) : QueryOk U (rawQuery U s) := rfl

/-- The patterns of the tokens. -/
theorem groups_flatten (ts : List Token) :
    (groups ts).flatten = ts.filterMap (fun t => match t with | .bar => none | .pat p => some p) := by
  fun_induction groups ts with
  | case1 => rfl
  | case2 ts ih => rw [ih]; rfl
  | case3 p ts g gs h2 h1 ih =>
    rw [h2] at ih
    simp only [List.flatten_cons, List.filterMap_cons, List.cons_append] at ih ⊢
    rw [ih]
  | case4 p ts h ih =>
    simp only [List.flatten_cons, List.filterMap_cons, List.cons_append, List.nil_append]
    rw [ih]

theorem groups_pat_head (p : Pattern) (ts : List Token) : ∃ g G, groups (.pat p :: ts) = (p :: g) :: G := by
  rw [groups.eq_def]
  dsimp only
  split
  · exact ⟨_, _, rfl⟩
  · exact ⟨_, _, rfl⟩

theorem groups_ne_of_pat {x : List Token} {p : Pattern} (h : .pat p ∈ x) : groups x ≠ [] := by
  intro h0
  have := groups_flatten x
  rw [h0] at this
  simp only [List.flatten_nil] at this
  have hm : p ∈ x.filterMap (fun t => match t with | .bar => none | .pat p => some p) :=
    List.mem_filterMap.mpr ⟨_, h, rfl⟩
  rw [← this] at hm
  simp at hm

/-- Without a bar between them, two patterns are in different conditions. -/
theorem groups_split (x : List Token) (p q : Pattern) (y : List Token) :
    groups (x ++ .pat p :: .pat q :: y) = groups (x ++ [.pat p]) ++ groups (.pat q :: y) := by
  induction x with
  | nil =>
    simp only [List.nil_append]
    conv_lhs => rw [groups.eq_def]
    simp [groups]
  | cons t x ih =>
    cases t with
    | bar => simpa [groups] using ih
    | pat r =>
      simp only [List.cons_append]
      have hne : groups (x ++ [.pat p]) ≠ [] := groups_ne_of_pat (p := p) (by simp)
      rw [groups, groups, ih]
      obtain ⟨g, G, hg⟩ : ∃ g G, groups (x ++ [.pat p]) = g :: G := List.exists_cons_of_ne_nil hne
      rw [hg]
      cases x with
      | nil => simp
      | cons t' x' => cases t' <;> simp

theorem groups_bars (k : Nat) (y : List Token) : groups (List.replicate k .bar ++ y) = groups y := by
  induction k with
  | zero => rfl
  | succ k ih => simpa [List.replicate_succ, groups] using ih

/-- With bars between them, two patterns are in the same condition. -/
theorem groups_join (x : List Token) (p q : Pattern) (k : Nat) (y : List Token) :
    ∃ G g g' G', groups (x ++ [.pat p]) = G ++ [g ++ [p]] ∧ groups (.pat q :: y) = (q :: g') :: G' ∧
      groups (x ++ .pat p :: (List.replicate (k + 1) .bar ++ .pat q :: y)) = G ++ (g ++ p :: q :: g') :: G' := by
  obtain ⟨g', G', hq⟩ := groups_pat_head q y
  induction x with
  | nil =>
    refine ⟨[], [], g', G', rfl, hq, ?_⟩
    simp only [List.nil_append]
    conv_lhs => rw [groups.eq_def]
    dsimp only
    rw [groups_bars, hq]
    simp [List.replicate_succ]
  | cons t x ih =>
    obtain ⟨G, g, g'', G'', h1, h2, h3⟩ := ih
    rw [hq] at h2
    obtain ⟨h4, h5⟩ := List.cons.inj h2
    obtain rfl := (List.cons.inj h4).2
    subst h5
    cases t with
    | bar => exact ⟨G, g, g', G', by simpa [groups] using h1, hq, by simpa [groups] using h3⟩
    | pat r =>
      simp only [List.cons_append]
      have e : ∀ z, groups (.pat r :: z) = match z.head?, groups z with
        | some .bar, g :: gs => (r :: g) :: gs
        | _, gs => [r] :: gs := fun _ => rfl
      rw [e, e (x ++ Token.pat p :: (List.replicate (k + 1) Token.bar ++ Token.pat q :: y)), h1, h3]
      have hhead : ∀ z : List Token, (x ++ Token.pat p :: z).head? = (x ++ [Token.pat p]).head? := by
        intro z; cases x <;> rfl
      rw [hhead (List.replicate (k + 1) Token.bar ++ Token.pat q :: y)]
      cases hx : (x ++ [Token.pat p]).head? with
      | none => cases x <;> simp at hx
      | some t =>
        cases t with
        | pat r' => exact ⟨[r] :: G, g, g', G', by simp, hq, by simp⟩
        | bar =>
          cases G with
          | nil => exact ⟨[], r :: g, g', G', by simp, hq, by simp⟩
          | cons G0 Gs => exact ⟨(r :: G0) :: Gs, g, g', G', by simp, hq, by simp⟩

/-! ### Words -/

theorem escape_cons (c : Char) (t : List Char) :
    escape (c :: t) = (if c = ' ' then ['\\', ' '] else [c]) ++ escape t := rfl

theorem intercalate_consHead (c : Char) (ps : List (List Char)) (hp : ps ≠ []) :
    [' '].intercalate ((consHead c ps).map escape) =
      (if c = ' ' then ['\\', ' '] else [c]) ++ [' '].intercalate (ps.map escape) := by
  cases ps with
  | nil => simp at hp
  | cons w ws =>
    simp only [consHead, List.map_cons, escape_cons]
    cases ws <;> simp [List.intercalate]

theorem pieces_ne_nil (s : List Char) : pieces s ≠ [] := by
  fun_induction pieces s with
  | case1 => simp
  | case2 s ih => cases h : pieces s <;> simp [consHead]
  | case3 s ih => simp
  | case4 c s h1 h2 ih => cases h : pieces s <;> simp [consHead]

/-- Nothing is lost: the pieces, with their spaces escaped and joined by spaces, are the query. -/
theorem pieces_render (s : List Char) : [' '].intercalate ((pieces s).map escape) = s := by
  fun_induction pieces s with
  | case1 => rfl
  | case2 s ih => rw [intercalate_consHead _ _ (pieces_ne_nil s), ih]; simp
  | case3 s ih =>
    cases h : pieces s with
    | nil => exact absurd h (pieces_ne_nil s)
    | cons w ws =>
      rw [h] at ih
      conv_rhs => rw [← ih]
      simp [List.intercalate, escape]
  | case4 c s h1 h2 ih =>
    rw [intercalate_consHead _ _ (pieces_ne_nil s), ih]
    have : c ≠ ' ' := fun h => h2 h
    simp [this]

theorem pieces_cons_of {c : Char} {s : List Char} (hc : c ≠ ' ') (h : ¬ (c = '\\' ∧ s.head? = some ' ')) :
    pieces (c :: s) = consHead c (pieces s) := by
  rw [pieces.eq_def]
  split
  · rename_i h1; cases h1
  · rename_i h1
    obtain ⟨rfl, rfl⟩ := List.cons.inj h1
    exact absurd ⟨rfl, rfl⟩ h
  · rename_i h1
    exact absurd (List.cons.inj h1).1 hc
  · rename_i h1
    obtain ⟨rfl, rfl⟩ := List.cons.inj h1
    rfl

theorem escape_head (t : List Char) : (escape t).head? ≠ some ' ' := by
  cases t with
  | nil => simp [escape]
  | cons c t =>
    rw [escape_cons]
    by_cases h : c = ' ' <;> simp [h]

theorem pieces_escape_append (w z : List Char) (h : z.head? = some ' ' → w.getLast? ≠ some '\\') :
    ∀ v ws, pieces z = v :: ws → pieces (escape w ++ z) = (w ++ v) :: ws := by
  induction w with
  | nil => intro v ws hz; simpa [escape] using hz
  | cons c w ih =>
    intro v ws hz
    have ih := ih (by
      intro hh h2
      have := h hh
      cases w with
      | nil => simp at h2
      | cons d w => rw [List.getLast?_cons_cons] at this; exact this h2) v ws hz
    by_cases hc : c = ' '
    · subst hc
      simp only [escape_cons, if_true, List.cons_append, List.nil_append]
      rw [pieces, ih]
      rfl
    · simp only [escape_cons, hc, if_false, List.cons_append, List.nil_append]
      rw [pieces_cons_of hc, ih]
      · rfl
      · rintro ⟨rfl, h2⟩
        cases w with
        | nil =>
          simp only [escape, List.flatMap_nil, List.nil_append] at h2
          exact h h2 (by simp)
        | cons d w =>
          have h3 := escape_head (d :: w)
          cases he : escape (d :: w) with
          | nil => rw [escape_cons] at he; by_cases hd : d = ' ' <;> simp [hd] at he
          | cons e es => rw [he] at h2 h3; simp at h2 h3; exact h3 h2

theorem pieces_escape (w : List Char) : pieces (escape w) = [w] := by
  have := pieces_escape_append w [] (by simp) [] [] rfl
  simpa using this

/-- The pieces are determined by the string. -/
theorem pieces_of_render : ∀ (ps : List (List Char)), ps ≠ [] → (∀ p ∈ ps.dropLast, p.getLast? ≠ some '\\') →
    pieces ([' '].intercalate (ps.map escape)) = ps := by
  intro ps
  induction ps with
  | nil => simp
  | cons w ps ih =>
    intro _ h
    cases ps with
    | nil => simpa [List.intercalate] using pieces_escape w
    | cons w' ps =>
      have e : [' '].intercalate ((w :: w' :: ps).map escape) =
          escape w ++ (' ' :: [' '].intercalate ((w' :: ps).map escape)) := by
        simp [List.intercalate]
      rw [e]
      have ih := ih (by simp) (fun p hp => h p (by simp at hp ⊢; right; exact hp))
      rw [pieces_escape_append w _ (fun _ => h w (by simp)) [] (w' :: ps)]
      · simp
      · rw [pieces, ih]

theorem pieces_dropLast (s : List Char) : ∀ p ∈ (pieces s).dropLast, p.getLast? ≠ some '\\' := by
  have hc : ∀ (c : Char) (ps : List (List Char)), ps ≠ [] → (∀ p ∈ ps.dropLast, p.getLast? ≠ some '\\') →
      (c = '\\' → ∀ w ws, ps = [] :: w :: ws → False) →
      ∀ p ∈ (consHead c ps).dropLast, p.getLast? ≠ some '\\' := by
    intro c ps hne h1 h2 p hp
    cases ps with
    | nil => simp at hne
    | cons w ws =>
      cases ws with
      | nil => simp [consHead] at hp
      | cons w' ws =>
        simp only [consHead, List.dropLast_cons_cons, List.mem_cons] at hp h1
        rcases hp with rfl | hp
        · cases w with
          | nil =>
            intro h3
            simp at h3
            exact h2 h3 w' ws rfl
          | cons d w => rw [List.getLast?_cons_cons]; exact h1 _ (Or.inl rfl)
        · exact h1 p (Or.inr hp)
  fun_induction pieces s with
  | case1 => simp
  | case2 s ih => exact hc _ _ (pieces_ne_nil s) ih (by simp)
  | case3 s ih =>
    intro p hp
    cases h : pieces s with
    | nil => rw [h] at hp; simp at hp
    | cons w ws =>
      rw [h] at hp ih
      simp only [List.dropLast_cons_cons, List.mem_cons] at hp
      rcases hp with rfl | hp
      · simp
      · exact ih p hp
  | case4 c s h1 h2 ih =>
    refine hc _ _ (pieces_ne_nil s) ih ?_
    rintro rfl w ws hw
    -- a first piece that is empty means that the string starts with a space
    have hr := pieces_render s
    rw [hw] at hr
    have : s = ' ' :: [' '].intercalate ((w :: ws).map escape) := by
      rw [← hr]; simp [List.intercalate, escape]
    exact h1 _ rfl this

theorem words_escape {t : List Char} (h : t ≠ []) : words (escape t) = [t] := by
  cases t with
  | nil => simp at h
  | cons c t => simp [words, pieces_escape]

end Norm
