import Verif.Props.State
import Verif.Props.Memory
import Verif.Props.Usize

/-!
# After a panic

Property C81: a panic that is caught does no harm. The states that a panicking call may leave behind are those of `Unwound`,
`UnwoundParser` and `UnwoundHeap`: whatever it had written to the buffers is still there, and some of them may have grown.
All properties about histories of calls hold of histories with such calls; here is what that comes to. -/

namespace Norm.Props
open Spec Usize

variable {B : Build} {U : Unicode} {a : Algo} {m m' m₀ : Metric} {st : Settings} {P P' P₀ : FzfParser} {t s : List Char}
  {q : FzfQuery}

/-! ### Metrics -/

/-- **C81.** A metric on which a call panicked returns what any metric with its settings returns, for instance a new one. -/
theorem C81_metric (hm : Reachable U a m st) (hu : Unwound m m') (h₀ : Reachable U a m₀ st)
    (hq : Parsed U t q ∨ ParsedRaw U t q) (s : List Char) (buf : List Range) :
    ∃ d buf', Returns U m' q s d ∧ Returns U m₀ q s d ∧ ReturnsRanges U m' q s buf buf' d ∧
      ReturnsRanges U m₀ q s buf buf' d :=
  C28_history_independent (hm.unwound hu) h₀ hq s buf

/-- **C81**, in a build: after a call that panicked for want of room, `distance` returns what it returns of any metric with the
same settings, and panics exactly when it does there. -/
theorem C81_distance (hB : BuildOk B) (hm : ReachableIn B U a m' st) (h₀ : ReachableIn B U a m₀ st) (hq : QueryIn B U q)
    (hs : InMemory B s) :
    (Usize.metricDistance B U q s m' = .panic ∧ Usize.metricDistance B U q s m₀ = .panic) ∨
      ∃ d m₁ m₂, Usize.metricDistance B U q s m' = .ok (m₁, d) ∧ Usize.metricDistance B U q s m₀ = .ok (m₂, d) ∧
        Returns U m₀ q s d := by
  by_cases hf : CallFits B U a st q s
  · obtain ⟨m₁, d, h1, h2⟩ := C79_distance_partial hB hm hq hs hf
    obtain ⟨m₂, d', h3, h4⟩ := C79_distance_partial hB h₀ hq hs hf
    obtain ⟨hok, _⟩ := queryIn hB hq
    have e1 := (returns_iff (reachableIn hB hm).1 hok).mp ⟨m₁, h2⟩
    have e2 := (returns_iff (reachableIn hB h₀).1 hok).mp ⟨m₂, h4⟩
    rw [← e2] at e1
    subst e1
    exact .inr ⟨d, m₁, m₂, h1, h3, m₂, h4⟩
  · exact .inl ⟨(C79_distance_room (buf := []) hB hm hq hs hf (Nat.zero_le _)).1,
      (C79_distance_room (buf := []) hB h₀ hq hs hf (Nat.zero_le _)).1⟩

/-- **C81**, in a build: what `distance_and_ranges` returns after a call that panicked, if it returns. -/
theorem C81_distance_and_ranges (hB : BuildOk B) (hm : ReachableIn B U a m' st) (h₀ : Reachable U a m₀ st) (hq : QueryIn B U q)
    (hs : InMemory B s) {buf buf' : List Range} (hbuf : buf.length ≤ B.limit .range) {d : Option FzfDistance} {m₁ : Metric}
    (h : Usize.metricDistanceAndRanges B U q s buf m' = .ok (m₁, buf', d)) : ReturnsRanges U m₀ q s buf buf' d := by
  obtain ⟨hok, _⟩ := queryIn hB hq
  rcases C78_distance_and_ranges hB hm hq hs hbuf with h1 | h1
  · rw [h] at h1
    exact (returnsRanges_iff h₀ hok).mpr ((returnsRanges_iff (reachableIn hB hm).1 hok).mp ⟨m₁, h1.symm⟩)
  · rw [h] at h1; cases h1

/-! ### Parsers -/

/-- **C81.** A parser on which a call panicked returns the same queries as any parser. `parse_not_extended` still takes every
string that it took before. -/
theorem C81_parser (hP : ReachableParser U P) (hu : UnwoundParser P P') (h₀ : ReachableParser U P₀) (t : List Char) :
    (∃ q P₁ P₂, P'.parse U t = .ok (P₁, q) ∧ P₀.parse U t = .ok (P₂, q)) ∧
    ∀ q P₁, P.parseNotExtended U t = .ok (P₁, q) → ∃ P₂, P'.parseNotExtended U t = .ok (P₂, q) := by
  constructor
  · obtain ⟨P₁, q, h1⟩ := C25_parse_total U P' t
    obtain ⟨P₂, q', h2⟩ := C25_parse_total U P₀ t
    obtain rfl : q = q' := (C29_parse_history_independent (t := t)).1 ⟨P', P₁, hP.unwound hu, h1⟩ ⟨P₀, P₂, h₀, h2⟩
    exact ⟨q, P₁, P₂, h1, h2⟩
  · intro q P₁ h1
    have hl : t.length ≤ P.chars.length := by
      by_contra hl
      rw [FzfParser.parseNotExtended_panic U P t (by omega)] at h1
      cases h1
    obtain ⟨P₂, _, h2⟩ := FzfParser.parseNotExtended_ok U P' t (Nat.le_trans hl hu.chars)
    obtain rfl := (C29_parse_history_independent (t := t)).2 ⟨P, P₁, hP, h1⟩ ⟨P', P₂, hP.unwound hu, h2⟩
    exact ⟨P₂, h2⟩

/-- **C81**, in a build: after a call that panicked, `parse` returns what it returns on any parser, and panics exactly when it
does there. -/
theorem C81_parse (hB : BuildOk B) (hP : ReachableParserIn B U P') (h₀ : ReachableParserIn B U P₀) (ht : InMemory B t) :
    (Usize.parse B U P' t = .panic ∧ Usize.parse B U P₀ t = .panic) ∨
      ∃ q P₁ P₂, Usize.parse B U P' t = .ok (P₁, q) ∧ Usize.parse B U P₀ t = .ok (P₂, q) ∧ Parsed U t q := by
  by_cases hf : ParseFits B t
  · obtain ⟨P₁, q, h1, h2⟩ := C79_parse_partial hB hP hf
    obtain ⟨P₂, q', h3, h4⟩ := C79_parse_partial hB h₀ hf
    have p1 : Parsed U t q := ⟨P', P₁, (parserIn hB hP).1, h2⟩
    obtain rfl : q = q' := (C29_parse_history_independent (t := t)).1 p1 ⟨P₀, P₂, (parserIn hB h₀).1, h4⟩
    exact .inr ⟨q, P₁, P₂, h1, h3, p1⟩
  · exact .inl ⟨C79_parse_room hB hP ht hf, C79_parse_room hB h₀ ht hf⟩

/-! ### Exactly what a panicking call leaves of a parser -/

/-- **C81.** The states of `UnwoundParser` include what `parse` leaves when it panics, and what `parse_not_extended` does. -/
theorem C81_parse_leaves (hB : BuildOk B) (hP : ReachableParserIn B U P) (t : List Char) :
    UnwoundParser P (Usize.parseLeaves B P t) ∧ ParserFits B (Usize.parseLeaves B P t) ∧
    UnwoundParser P (parseNotExtendedLeaves P t) ∧ ParserFits B (parseNotExtendedLeaves P t) := by
  obtain ⟨_, hi⟩ := parserIn hB hP
  have h1 := hi.chars
  have h2 := hi.patterns
  have h3 := hi.conditions
  have hw := writeCharsLeaves_length t P.chars 0
  refine ⟨?_, ?_, ⟨Nat.le_of_eq hw.symm, Nat.le_refl _, Nat.le_refl _⟩, ⟨Nat.le_trans (Nat.le_of_eq hw) h1, h2, h3⟩⟩
  all_goals
    unfold Usize.parseLeaves
    split
    · first | exact ⟨Nat.le_refl _, Nat.le_refl _, Nat.le_refl _⟩ | exact ⟨h1, h2, h3⟩
    · rename_i cs hc
      have h4 := ensure_len hc h1
      split
      · first | exact ⟨h4.1, Nat.le_refl _, Nat.le_refl _⟩ | exact ⟨h4.2, h2, h3⟩
      · rename_i ds hd
        rw [Res.bind_eq_ok] at hd
        obtain ⟨n, _, hd⟩ := hd
        have h5 := ensure_len hd h3
        first | exact ⟨h4.1, Nat.le_refl _, h5.1⟩ | exact ⟨h4.2, h2, h5.2⟩

/-! ### Memory -/

variable {w : World} {i j : Nat} {h' : Heap} {R R' : FzfParserR}

/-- **C81.** A call that panics leaves no dangling reference that is ever followed: the next `parse` returns, and its query
reads as what the string stands for, whatever is done with other parsers (which may also panic). -/
theorem C81_memory (hw : ReachableWorld U w) (hR : w.parsers i = some R) (hu : UnwoundHeap w.heap R h' R') (moves : Moves)
    (t : List Char) :
    ∃ h₂ R₂ q v, R'.parse U h' moves t = .ok (h₂, R₂, q) ∧ Parsed U t v ∧
      ∀ w', Steps U i ⟨h₂, update (update w.parsers i (some R')) i (some R₂)⟩ w' → QueryReads w'.heap q v :=
  C62_parse (.step hw (.unwound hR hu)) (update_eq ..) moves t

/-- **C81.** The queries of other parsers read the same after the panic. -/
theorem C81_others (hw : ReachableWorld U w) (hR : w.parsers i = some R) (hij : i ≠ j) {Q Q' : FzfParserR} {moves : Moves}
    {h₁ : Heap} {x : FzfQueryR} (hQ : w.parsers j = some Q) (hp : Q.parse U w.heap moves t = .ok (h₁, Q', x))
    (hu : UnwoundHeap h₁ R h' R') : ∃ v, Parsed U t v ∧ QueryReads h₁ x v ∧ QueryReads h' x v := by
  obtain ⟨h₂, Q₂, x₂, v, h1, hv, h2⟩ := C62_parse hw hQ moves t
  rw [hp] at h1
  cases h1
  have hR' : (update w.parsers j (some Q')) i = some R := (update_ne _ _ hij).trans hR
  exact ⟨v, hv, h2 _ .refl, h2 _ (.step .refl hij (.unwound hR' hu))⟩

/-- **C81.** The states of `UnwoundHeap` include those in which the characters, or the characters and the conditions, have
grown. -/
theorem C81_grow_leaves (hw : ReachableWorld U w) (hR : w.parsers i = some R) {mv mv' : Bool} {n n' b b' : Nat} {h₁ h₂ : Heap}
    (h1 : w.heap.growChars mv R.chars n = .ok (h₁, b)) (hn : ∀ l, w.heap.chars R.chars = some l → l.length ≤ n)
    (h2 : h₁.growConditions mv' R.conditions n' = .ok (h₂, b')) (hn' : ∀ l, w.heap.conditions R.conditions = some l → l.length ≤ n') :
    UnwoundHeap w.heap R h₁ { R with chars := b } ∧ UnwoundHeap w.heap R h₂ { R with chars := b, conditions := b' } := by
  obtain ⟨cs, ps, ds, hl⟩ := (reachable_winv hw).live i R hR
  have hn := hn cs hl.chars
  have hn' := hn' ds hl.conditions
  have same : ∀ {α : Type} {m m' : Nat → Option (List α)} {b : Nat} {l : List α} (k k' : Nat), m' = m → m b = some l →
      UnwoundVec k k' m m' b b := fun {α m m' b l} k k' e h => .inPlace h (Nat.le_refl _) rfl (by
    rw [e]; funext c; unfold update; split
    · rename_i hc; rw [hc, h]
    · rfl)
  unfold Heap.growChars at h1
  rw [hl.chars] at h1
  have hc : w.heap.next ≤ h₁.next ∧ h₁.patterns = w.heap.patterns ∧ h₁.conditions = w.heap.conditions ∧
      ∀ k, h₁.next ≤ k → UnwoundVec w.heap.next k w.heap.chars h₁.chars R.chars b := by
    cases mv with
    | true =>
      obtain ⟨rfl, rfl⟩ := Prod.mk.inj (Res.ok.inj h1)
      exact ⟨Nat.le_succ _, rfl, rfl, fun k hk =>
        .moved hl.chars (l' := resize cs n charDefault) (by rw [resize_length hn]; exact hn) (Nat.le_refl _) hk rfl⟩
    | false =>
      obtain ⟨rfl, rfl⟩ := Prod.mk.inj (Res.ok.inj h1)
      exact ⟨Nat.le_refl _, rfl, rfl, fun k hk =>
        .inPlace hl.chars (l' := resize cs n charDefault) (by rw [resize_length hn]; exact hn) rfl rfl⟩
  obtain ⟨c1, c2, c3, c4⟩ := hc
  refine ⟨⟨c1, c4 _ (Nat.le_refl _), same _ _ c2 hl.patterns, same _ _ c3 hl.conditions⟩, ?_⟩
  unfold Heap.growConditions at h2
  rw [c3, hl.conditions] at h2
  cases mv' with
  | true =>
    obtain ⟨rfl, rfl⟩ := Prod.mk.inj (Res.ok.inj h2)
    exact ⟨Nat.le_succ_of_le c1, c4 _ (Nat.le_succ _), same _ _ c2 hl.patterns,
      .moved hl.conditions (l' := resize ds n' Ref.empty) (by rw [resize_length hn']; exact hn') c1 (Nat.lt_succ_self _) rfl⟩
  | false =>
    obtain ⟨rfl, rfl⟩ := Prod.mk.inj (Res.ok.inj h2)
    exact ⟨c1, c4 _ (Nat.le_refl _), same _ _ c2 hl.patterns,
      .inPlace hl.conditions (l' := resize ds n' Ref.empty) (by rw [resize_length hn']; exact hn') rfl
        (by unfold Heap.setConditions; rw [c3])⟩

/-! ### Concrete cases -/

/-- `parse_not_extended` of 65 characters panics on a new parser, which it leaves with 64 of them. `parse` then works as
before. -/
example : FzfParser.new.parseNotExtended Concrete.U (List.replicate 65 'a') = .panic ∧
    Usize.parseNotExtendedLeaves FzfParser.new (List.replicate 65 'a') = { FzfParser.new with chars := List.replicate 64 'a' } ∧
    ∃ q P₁ P₂, ({ FzfParser.new with chars := List.replicate 64 'a' } : FzfParser).parse Concrete.U "x 'y".toList = .ok (P₁, q) ∧
      FzfParser.new.parse Concrete.U "x 'y".toList = .ok (P₂, q) := by
  refine ⟨FzfParser.parseNotExtended_panic _ _ _ (by decide), by decide +kernel, ?_⟩
  exact (C81_parser (P' := { FzfParser.new with chars := List.replicate 64 'a' }) .new
    ⟨by decide, Nat.le_refl _, Nat.le_refl _⟩ .new _).1

/-- As the small build, but with room for 1000 characters and conditions. -/
def unevenBuild : Build := ⟨16, true, fun e => match e with | .char | .condition => 1000 | _ => 256⟩

theorem uneven_ok : BuildOk unevenBuild := by
  refine ⟨fun e => ?_, fun e => ?_⟩ <;> cases e <;> simp [unevenBuild]

/-- In it `parse` panics on 600 characters because the patterns cannot grow; the characters and the conditions have grown. The
same string panics again, and another is parsed as on a new parser. -/
example : Usize.parse unevenBuild Concrete.U FzfParser.new (List.replicate 600 'a') = .panic ∧
    (Usize.parseLeaves unevenBuild FzfParser.new (List.replicate 600 'a')).chars.length = 600 ∧
    (Usize.parseLeaves unevenBuild FzfParser.new (List.replicate 600 'a')).conditions.length = 301 ∧
    (Usize.parseLeaves unevenBuild FzfParser.new (List.replicate 600 'a')).patterns.length = 64 ∧
    Usize.parse unevenBuild Concrete.U (Usize.parseLeaves unevenBuild FzfParser.new (List.replicate 600 'a')) (List.replicate 600 'a') =
      .panic ∧
    ∃ q P₁ P₂, Usize.parse unevenBuild Concrete.U (Usize.parseLeaves unevenBuild FzfParser.new (List.replicate 600 'a'))
        "x 'y".toList = .ok (P₁, q) ∧ Usize.parse unevenBuild Concrete.U FzfParser.new "x 'y".toList = .ok (P₂, q) := by
  have hm : InMemory unevenBuild (List.replicate 600 'a') := by show strLen _ < 2 ^ 15; decide +kernel
  have hp : Usize.parse unevenBuild Concrete.U FzfParser.new (List.replicate 600 'a') = .panic :=
    C79_parse_room uneven_ok .new hm fun h => by
      have : strLen (List.replicate 600 'a') / 2 + 1 ≤ 256 := h.2.1
      revert this
      decide +kernel
  obtain ⟨h1, h2, _, _⟩ := C81_parse_leaves (U := Concrete.U) uneven_ok .new (List.replicate 600 'a')
  have hr := ReachableParserIn.parseUnwound .new hm hp h1 h2
  refine ⟨hp, by decide +kernel, by decide +kernel, by decide +kernel, ?_, ?_⟩
  · rcases C81_parse uneven_ok hr .new hm with h | ⟨_, _, _, _, h, _⟩
    · exact h.1
    · rw [hp] at h; cases h
  · rcases C81_parse (t := "x 'y".toList) uneven_ok hr .new (by show strLen _ < 2 ^ 15; decide +kernel) with h | ⟨q, P₁, P₂, h3, h4, _⟩
    · obtain ⟨_, _, h3, _⟩ := C79_parse_partial (U := Concrete.U) (t := "x 'y".toList) uneven_ok .new (by
        show _ ≤ 1000 ∧ _ ≤ 256 ∧ _ ≤ 1000; decide +kernel)
      rw [h.2] at h3; cases h3
    · exact ⟨q, P₁, P₂, h3, h4⟩

/-- The small build's `FzfV2` panics on 17 `a`s; whatever that leaves in its buffers, it then returns for `aä` what a new one
returns. -/
example (m' : Metric) (hu : Unwound (Metric.new .v2) m') (hf : MetricFits (smallBuild true) m') :
    (∃ m₁, Usize.metricDistance (smallBuild true) Concrete.U (Concrete.parse "aä") "xaxä".toList m' = .ok (m₁, some ⟨29⟩)) ∧
    Usize.metricDistance (smallBuild true) Concrete.U (Concrete.parse "aaaaaaaaaaaaaaaaa") "aaaaaaaaaaaaaaaaa".toList m' = .panic := by
  have of_map : ∀ {x : Res (Metric × Option FzfDistance)} {d}, x.mapR (·.2) = .ok d → ∃ m₁, x = .ok (m₁, d) := by
    intro x d h
    cases x with
    | panic => cases h
    | ok y => cases h; exact ⟨y.1, rfl⟩
  have to_panic : ∀ {x : Res (Metric × Option FzfDistance)}, x.mapR (·.2) = .panic → x = .panic := by
    intro x h
    cases x with
    | panic => rfl
    | ok y => cases h
  have q1 : QueryIn (smallBuild true) Concrete.U (Concrete.parse "aaaaaaaaaaaaaaaaa") :=
    ⟨_, .inl (small_parsed true "aaaaaaaaaaaaaaaaa" (by decide +kernel))⟩
  have s1 : InMemory (smallBuild true) "aaaaaaaaaaaaaaaaa".toList := by show strLen _ < 2 ^ 15; decide +kernel
  have e1 := to_panic (show smallDist true .v2 "aaaaaaaaaaaaaaaaa" "aaaaaaaaaaaaaaaaa" = .panic by decide +kernel)
  have q2 : QueryIn (smallBuild true) Concrete.U (Concrete.parse "aä") := ⟨_, .inl (small_parsed true "aä" (by decide +kernel))⟩
  have s2 : InMemory (smallBuild true) "xaxä".toList := by show strLen _ < 2 ^ 15; decide +kernel
  obtain ⟨m₂, e2⟩ := of_map (show smallDist true .v2 "aä" "xaxä" = .ok (some ⟨29⟩) by decide +kernel)
  have hr : ReachableIn (smallBuild true) Concrete.U .v2 m' defaultSettings := .distanceUnwound .new q1 s1 e1 hu hf
  constructor
  · rcases C81_distance (small_ok true) hr .new q2 s2 with h | ⟨d, m₁, m₃, h1, h2, _⟩
    · rw [h.2] at e2; cases e2
    · rw [e2] at h2; cases h2; exact ⟨m₁, h1⟩
  · rcases C81_distance (small_ok true) hr .new q1 s1 with h | ⟨_, _, _, _, h, _⟩
    · exact h.1
    · rw [e1] at h; cases h

/-- There are such buffers: here the scores have grown, and are full of leftovers. -/
example : ∃ m', Unwound (Metric.new .v2) m' ∧ MetricFits (smallBuild true) m' ∧ m' ≠ Metric.new .v2 := by
  refine ⟨.v2 { FzfV2.new with slab := { V2Slab.default with scoringMatrix := List.replicate 256 7 } },
    .v2 ?_ ?_ ?_ ?_ ?_ rfl rfl rfl, ?_, ?_⟩
  iterate 5 exact Nat.le_of_eq (by decide +kernel)
  · show _ ≤ 256 ∧ _ ≤ 256 ∧ _ ≤ 256 ∧ _ ≤ 256 ∧ _ ≤ 256
    decide +kernel
  · intro h
    have h := congrArg V2Slab.scoringMatrix (congrArg FzfV2.slab (Metric.v2.inj h))
    revert h
    decide +kernel

/-- The characters have been moved, and then the call panics: the next query refers to the new allocation. -/
example : ∃ h' h₂ R₂ q v, UnwoundHeap h0 P0 h' ⟨1, 0, 0⟩ ∧ h'.chars 0 = none ∧
    FzfParserR.parse Concrete.U h' ⟨1, 0, 0⟩ ⟨true, true, true⟩ "^ab".toList = .ok (h₂, R₂, q) ∧ Parsed Concrete.U "^ab".toList v ∧
    QueryReads h₂ q v := by
  obtain ⟨h', e⟩ : ∃ h', h0.growChars true P0.chars 100 = .ok (h', 1) := ⟨_, rfl⟩
  obtain ⟨h₂, b', e'⟩ : ∃ h₂ b', h'.growConditions false P0.conditions 64 = .ok (h₂, b') := by cases e; exact ⟨_, _, rfl⟩
  have hu := (C81_grow_leaves (i := 0) (R := P0) (one_parser Concrete.U) rfl e (fun l hl => by cases hl; decide) e'
    (fun l hl => by cases hl; decide)).1
  obtain ⟨h₃, R₂, q, v, h1, h2, h3⟩ := C81_memory (i := 0) (one_parser Concrete.U) rfl hu ⟨true, true, true⟩ "^ab".toList
  exact ⟨h', h₃, R₂, q, v, hu, by cases e; rfl, h1, h2, h3 _ .refl⟩

end Norm.Props
