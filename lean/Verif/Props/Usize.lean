import Verif.Proofs.UsizeMetric
import Verif.Proofs.StepsFamily
import Verif.Proofs.StepsLower
import Verif.Proofs.Typing
import Verif.Props.Concrete

/-!
# `usize` and the lengths of vectors

Properties C78 and C79: the library compiled with a `usize` of any width, with or without overflow checks, and with vectors
that can only get so long (`Model/Usize.lean`, `Model/UsizeParser.lean`), compared with the main model, in which numbers and
vectors are unbounded. -/

namespace Norm.Props
open Spec Usize

variable {B : Build} {U : Unicode} {P : FzfParser} {t s : List Char} {q : FzfQuery} {a : Algo} {m : Metric} {st : Settings}

/-! ### C78: exact, or a panic -/

/-- **C78.** What a program reaches in a build it reaches in the main model, of which the other properties are proved. -/
theorem C78_reachable (hB : BuildOk B) :
    (∀ P, ReachableParserIn B U P → ReachableParser U P) ∧ (∀ t q, ParsedIn B U t q → Parsed U t q) ∧
    (∀ t q, ParsedRawIn B U t q → ParsedRaw U t q) ∧ ∀ a m st, ReachableIn B U a m st → Reachable U a m st :=
  ⟨fun _ h => (parserIn hB h).1, fun _ _ h => parsedIn hB h, fun _ _ h => parsedRawIn hB h, fun _ _ _ h => (reachableIn hB h).1⟩

/-- **C78**, parsing: the exact result, or a panic. -/
theorem C78_parse (hB : BuildOk B) (hP : ReachableParserIn B U P) (t : List Char) :
    Usize.parse B U P t = P.parse U t ∨ Usize.parse B U P t = .panic := by
  obtain ⟨P', q, h1⟩ := C25_parse_total U P t
  rcases (parse_agree (P := True) (U := U) hB (half hB) (parserIn hB hP).2 (t := t) (Or.inl trivial)).cases h1 with h2 | h2
  · exact Or.inl h2.1
  · exact Or.inr h2.2

/-- **C78**, `parse_not_extended`: the same in every build. -/
theorem C78_parse_not_extended (hB : BuildOk B) (hP : ReachableParserIn B U P) (t : List Char) :
    Usize.parseNotExtended B U P t = P.parseNotExtended U t := parseNotExtended_eq hB (half hB) (parserIn hB hP).2 t

/-- **C78**, `distance`: the exact result, or a panic. -/
theorem C78_distance (hB : BuildOk B) (hm : ReachableIn B U a m st) (hq : QueryIn B U q) (hs : InMemory B s) :
    Usize.metricDistance B U q s m = m.distance U q s ∨ Usize.metricDistance B U q s m = .panic := by
  obtain ⟨hr, hi⟩ := reachableIn hB hm
  obtain ⟨hok, hlen⟩ := queryIn hB hq
  obtain ⟨_, _, h1⟩ := call hr hok s
  rcases (metricDistance_agree (P := True) hB hi (reachable_has hr).2 hlen hok (s := s) (Or.inl trivial) hs
    (fun _ => Or.inl trivial)).cases h1 with h2 | h2
  · exact Or.inl h2.1
  · exact Or.inr h2.2

/-- **C78**, `distance_and_ranges`: the exact result, or a panic. -/
theorem C78_distance_and_ranges (hB : BuildOk B) (hm : ReachableIn B U a m st) (hq : QueryIn B U q) (hs : InMemory B s)
    {buf : List Range} (hbuf : buf.length ≤ B.limit .range) :
    Usize.metricDistanceAndRanges B U q s buf m = m.distanceAndRanges U q s buf ∨
      Usize.metricDistanceAndRanges B U q s buf m = .panic := by
  obtain ⟨hr, hi⟩ := reachableIn hB hm
  obtain ⟨hok, hlen⟩ := queryIn hB hq
  obtain ⟨_, _, h1⟩ := callR hr hok s buf
  rcases (metricDistanceAndRanges_agree (P := True) hB hi (reachable_has hr).2 hbuf hlen hok (s := s) (Or.inl trivial) hs
    (fun _ => Or.inl trivial) (Or.inl trivial)).cases h1 with h2 | h2
  · exact Or.inl h2.1
  · exact Or.inr h2.2

/-! ### C79: no panic if there is room -/

/-- **C79**, parsing, if there is room. -/
theorem C79_parse_partial (hB : BuildOk B) (hP : ReachableParserIn B U P) (hf : ParseFits B t) :
    ∃ P' q, Usize.parse B U P t = .ok (P', q) ∧ P.parse U t = .ok (P', q) := by
  obtain ⟨P', q, h1⟩ := C25_parse_total U P t
  rcases (parse_agree (P := False) (U := U) hB (half hB) (parserIn hB hP).2 (t := t) (Or.inr hf)).cases h1 with h2 | h2
  · exact ⟨P', q, h2.1.trans h1, h1⟩
  · exact h2.1.elim

/-- The room asked for by `C79_parse_partial` is needed, whatever has been parsed before. -/
theorem C79_parse_room (hB : BuildOk B) (hP : ReachableParserIn B U P) (ht : InMemory B t) (hf : ¬ ParseFits B t) :
    Usize.parse B U P t = .panic := by
  cases h : Usize.parse B U P t with
  | panic => rfl
  | ok r => exact absurd (parse_fits hB (parserIn hB hP).2 ht h) hf

/-- **C79**, `distance`, if there is room. -/
theorem C79_distance_partial (hB : BuildOk B) (hm : ReachableIn B U a m st) (hq : QueryIn B U q) (hs : InMemory B s)
    (hf : CallFits B U a st q s) :
    ∃ m' d, Usize.metricDistance B U q s m = .ok (m', d) ∧ m.distance U q s = .ok (m', d) := by
  obtain ⟨hr, hi⟩ := reachableIn hB hm
  obtain ⟨hok, hlen⟩ := queryIn hB hq
  obtain ⟨m', _, h1⟩ := call hr hok s
  obtain ⟨rfl, hh⟩ := reachable_has hr
  by_cases he : q.isEmpty = true
  · refine ⟨m', _, ?_, h1⟩
    rw [metric_empty he]
    exact h1
  have hf := hf ((isEmpty_iff hok).mp (by simpa using he))
  rcases (metricDistance_agree (P := False) hB hi hh hlen hok (s := s) (Or.inr fun _ => hf.2) hs
    (fun h => Or.inr (hf.1 h))).cases h1 with h2 | h2
  · exact ⟨m', _, h2.1.trans h1, h1⟩
  · exact h2.1.elim

/-- **C79**, `distance_and_ranges`, if there is room, also for as many ranges as a candidate of that many bytes can have, one for
every other byte. -/
theorem C79_distance_and_ranges_partial (hB : BuildOk B) (hm : ReachableIn B U a m st) (hq : QueryIn B U q)
    (hs : InMemory B s) (hf : CallFits B U a st q s) {buf : List Range} (hbuf : buf.length + (strLen s + 1) / 2 ≤ B.limit .range) :
    ∃ m' buf' d, Usize.metricDistanceAndRanges B U q s buf m = .ok (m', buf', d) ∧
      m.distanceAndRanges U q s buf = .ok (m', buf', d) := by
  obtain ⟨hr, hi⟩ := reachableIn hB hm
  obtain ⟨hok, hlen⟩ := queryIn hB hq
  obtain ⟨m', _, h1⟩ := callR hr hok s buf
  obtain ⟨rfl, hh⟩ := reachable_has hr
  by_cases he : q.isEmpty = true
  · refine ⟨m', _, _, ?_, h1⟩
    rw [metric_empty_ranges he]
    exact h1
  have hf := hf ((isEmpty_iff hok).mp (by simpa using he))
  rcases (metricDistanceAndRanges_agree (P := False) hB hi hh (by omega) hlen hok (s := s) (Or.inr fun _ => hf.2) hs
    (fun h => Or.inr (hf.1 h)) (Or.inr hbuf)).cases h1 with h2 | h2
  · exact ⟨m', _, _, h2.1.trans h1, h1⟩
  · exact h2.1.elim

/-- The room asked for by `C79_distance_partial` is needed, whatever the metric was used for before: without it both functions
panic. -/
theorem C79_distance_room (hB : BuildOk B) (hm : ReachableIn B U a m st) (hq : QueryIn B U q) (hs : InMemory B s)
    (hf : ¬ CallFits B U a st q s) {buf : List Range} (hbuf : buf.length ≤ B.limit .range) :
    Usize.metricDistance B U q s m = .panic ∧ Usize.metricDistanceAndRanges B U q s buf m = .panic := by
  obtain ⟨hr, hi⟩ := reachableIn hB hm
  obtain ⟨hok, hlen⟩ := queryIn hB hq
  obtain ⟨_, _, h1⟩ := call hr hok s
  obtain ⟨_, _, h2⟩ := callR hr hok s buf
  obtain ⟨rfl, hh⟩ := reachable_has hr
  unfold CallFits at hf
  rw [Classical.not_imp] at hf
  obtain ⟨he, hf⟩ := hf
  have he := (isEmpty_iff hok).mpr he
  by_cases hc : strIsAscii s = false → strLen s ≤ B.limit .char
  · have hmf : ¬ MatricesFit B U m.algo st q s := fun h => hf ⟨hc, h he⟩
    constructor
    · rcases (metricDistance_agree (P := True) hB hi hh hlen hok (s := s) (Or.inl trivial) hs
        (fun _ => Or.inl trivial)).cases h1 with h | h
      · exact absurd h.2.2 hmf
      · exact h.2
    · rcases (metricDistanceAndRanges_agree (P := True) hB hi hh hbuf hlen hok (s := s) (Or.inl trivial) hs
        (fun _ => Or.inl trivial) (Or.inl trivial)).cases h2 with h | h
      · exact absurd h.2.2 hmf
      · exact h.2
  · rw [Classical.not_imp] at hc
    exact metric_unicode hi he hc.1 (by omega)

/-- `distance_and_ranges` also needs room for the ranges that it returns. -/
theorem C79_ranges_room (hB : BuildOk B) (hm : ReachableIn B U a m st) (hq : QueryIn B U q) (hs : InMemory B s)
    {buf buf' : List Range} (hbuf : buf.length ≤ B.limit .range) {d : Option FzfDistance} (hr : ReturnsRanges U m q s buf buf' d)
    (hf : B.limit .range < buf'.length) : Usize.metricDistanceAndRanges B U q s buf m = .panic := by
  obtain ⟨m', hr⟩ := hr
  obtain ⟨h0, hi⟩ := reachableIn hB hm
  obtain ⟨hok, hlen⟩ := queryIn hB hq
  rcases (metricDistanceAndRanges_agree (P := True) hB hi (reachable_has h0).2 hbuf hlen hok (s := s) (Or.inl trivial) hs
    (fun _ => Or.inl trivial) (Or.inl trivial)).cases hr with h | h
  · exact absurd h.2.1.2 (by simp only; omega)
  · exact h.2

/-- `FzfV1::distance` panics exactly on candidates that are not ASCII and have more bytes than there is room for characters. -/
theorem C79_v1_room (hB : BuildOk B) (hm : ReachableIn B U .v1 m st) (hq : QueryIn B U q) (he : ∃ p ∈ Spec.patterns q, p.text ≠ [])
    (hs : InMemory B s) :
    Usize.metricDistance B U q s m = .panic ↔ strIsAscii s = false ∧ B.limit .char < strLen s := by
  constructor
  · intro h
    by_contra hc
    obtain ⟨_, _, h1, _⟩ := C79_distance_partial hB hm hq hs fun _ => ⟨fun ha => by
      by_contra hl; exact hc ⟨ha, by omega⟩, nofun⟩
    rw [h] at h1
    cases h1
  · rintro ⟨h1, h2⟩
    refine (C79_distance_room (buf := []) hB hm hq hs (fun hf => ?_) (Nat.zero_le _)).1
    have := (hf he).1 h1
    omega

/-- Sizes that are always enough: the bytes of a candidate that is not ASCII, and for `FzfV2` the product of the lengths of a
fuzzy pattern and the candidate. -/
theorem C79_sizes (h1 : strIsAscii s = false → strLen s ≤ B.limit .char)
    (h2 : a = .v2 → ∀ p ∈ Spec.patterns q, p.matchType = .fuzzy → p.text.length ≠ 1 →
      p.text.length ≤ B.limit .index ∧ s.length ≤ B.limit .bonus ∧ p.text.length * s.length ≤ B.limit .score ∧
      p.text.length * s.length ≤ B.limit .index) : CallFits B U a st q s := by
  refine fun _ => ⟨h1, fun ha p hp hk hl => ?_⟩
  obtain ⟨h3, h4, h5, h6⟩ := h2 ha p (tried_mem hp) hk hl
  refine ⟨h3, fun _ w hw => ?_⟩
  obtain ⟨x, y, i, j, _, _, _, _, ⟨c, hc, _⟩, _, rfl⟩ := hw
  have hj : j < s.length := (List.getElem?_eq_some_iff.mp hc).1
  have hw : j + 1 - i ≤ s.length := by omega
  have := Nat.mul_le_mul_left p.text.length hw
  exact ⟨by omega, by omega, by omega⟩

/-- **C79 is false of the code**, however much memory there is: with a `usize` of 32 bits `FzfV2` panics on a query of 2¹⁴
`a`s and the same candidate, with 64 bits on 2³⁰ of them. The string is parsed without a panic. -/
theorem C79_false (U : Unicode) (debug : Bool) {bits : Nat} (h : bits = 32 ∨ bits = 64) :
    BuildOk (roomyBuild bits debug) ∧ ∃ n, (bits = 32 → n = 2 ^ 14) ∧ (bits = 64 → n = 2 ^ 30) ∧
      ∃ q, ParsedIn (roomyBuild bits debug) U (List.replicate n 'a') q ∧ InMemory (roomyBuild bits debug) (List.replicate n 'a') ∧
        (∃ m' d, (Metric.new .v2).distance U q (List.replicate n 'a') = .ok (m', some d)) ∧
        Usize.metricDistance (roomyBuild bits debug) U q (List.replicate n 'a') (Metric.new .v2) = .panic := by
  have hB := roomy_ok h debug
  refine ⟨hB, 2 ^ (bits / 2 - 2), by rintro rfl; rfl, by rintro rfl; rfl, ?_⟩
  have hn : 2 ≤ 2 ^ (bits / 2 - 2) := by rcases h with rfl | rfl <;> decide
  have hfit : ParseFits (roomyBuild bits debug) (List.replicate (2 ^ (bits / 2 - 2)) 'a') := by
    unfold ParseFits
    rw [replicate_strLen]
    rcases h with rfl | rfl <;> simp [roomyBuild, elemSize]
  have hmem : InMemory (roomyBuild bits debug) (List.replicate (2 ^ (bits / 2 - 2)) 'a') := by
    unfold InMemory
    rw [replicate_strLen]
    rcases h with rfl | rfl <;> simp [roomyBuild]
  have hbig : (roomyBuild bits debug).limit .score < 2 ^ (bits / 2 - 2) * 2 ^ (bits / 2 - 2) := by
    rcases h with rfl | rfl <;> simp [roomyBuild, elemSize]
  generalize 2 ^ (bits / 2 - 2) = n at *
  obtain ⟨P', q, h1, h2⟩ := C79_parse_partial (U := U) hB .new hfit
  have hp : ParsedIn (roomyBuild bits debug) U (List.replicate n 'a') q := ⟨_, P', .new, hmem, h1⟩
  have hq : q = .notExtended (mkPattern U false .fuzzy (List.replicate n 'a')) := by
    rw [(parsedIn hB hp).eq]
    exact query_one_fuzzy (w := List.replicate n 'a') (by
      have := words_escape (t := List.replicate n 'a') (by simp; omega)
      rwa [as_escape] at this) (as_not_bar n) (as_pattern U (by omega)) rfl
  subst hq
  have hmat : QueryMatches U defaultSettings (.notExtended (mkPattern U false .fuzzy (List.replicate n 'a')))
      (List.replicate n 'a') := Or.inr ⟨_, List.Sublist.refl _, forall₂_replicate (Norm.CharMatches.refl _ _ _) n⟩
  refine ⟨_, hp, hmem, ?_, ?_⟩
  · obtain ⟨m', _, h3⟩ := call (a := .v2) (.new (U := U)) (parsedIn hB hp).ok (List.replicate n 'a')
    have h4 := (result_isSome (a := .v2) (parsedIn hB hp).ok).mpr hmat
    obtain ⟨sc, h5⟩ := Option.isSome_iff_exists.mp h4
    rw [h5] at h3
    exact ⟨m', _, h3⟩
  · refine (C79_distance_room (buf := []) hB .new ⟨_, Or.inl hp⟩ hmem (fun hf => ?_) (Nat.zero_le _)).1
    have hne : List.replicate n 'a' ≠ [] := by simp; omega
    have h6 := ((hf ⟨_, List.mem_singleton.mpr rfl, hne⟩).2 rfl _ rfl rfl (by simp [mkPattern]; omega)).2
      (hmat.resolve_left hne) n ⟨'a', 'a', 0, n - 1, ?_, ?_, ⟨'a', ?_, Norm.CharMatches.refl _ _ _⟩, nofun,
        ⟨'a', ?_, Norm.CharMatches.refl _ _ _⟩, ?_, by omega⟩
    · have := h6.2.1
      simp only [mkPattern, List.length_replicate] at this
      omega
    · simp [mkPattern, List.head?_replicate]; omega
    · simp [mkPattern, List.getLast?_replicate]; omega
    · rw [List.getElem?_replicate]; simp; omega
    · rw [List.getElem?_replicate]; simp; omega
    · rintro k hk ⟨c, hc, _⟩
      rw [List.getElem?_replicate] at hc
      split at hc
      · omega
      · cases hc

/-! ### Concrete cases -/

/-- A `usize` of 16 bits, and vectors of at most 256 elements. -/
def smallBuild (debug : Bool) : Build := ⟨16, debug, fun _ => 256⟩

theorem small_ok (debug : Bool) : BuildOk (smallBuild debug) := by
  refine ⟨fun _ => ?_, fun _ => ?_⟩ <;> simp [smallBuild]

theorem small_parsed (debug : Bool) (t : String) (h : strLen t.toList ≤ 256) :
    ParsedIn (smallBuild debug) Concrete.U t.toList (Concrete.parse t) := by
  obtain ⟨P', q, h1, h2⟩ := C79_parse_partial (B := smallBuild debug) (U := Concrete.U) (t := t.toList) (small_ok debug) .new
    ⟨h, by simp [smallBuild]; omega, by simp [smallBuild]; omega⟩
  refine ⟨_, P', .new, by simp [InMemory, smallBuild]; omega, ?_⟩
  unfold Concrete.parse
  rw [h1, h2]

/-- What `distance` of a new metric returns in the small build. -/
def smallDist (debug : Bool) (a : Algo) (t s : String) : Res (Option FzfDistance) :=
  (Usize.metricDistance (smallBuild debug) Concrete.U (Concrete.parse t) s.toList (Metric.new a)).mapR (·.2)

/-- `distance` in the small build, of a string that needs a slab of characters. -/
example : smallDist true .v2 "aä" "xaxä" = .ok (some ⟨29⟩) ∧ smallDist false .v1 "aä" "xaxä" = .ok (some ⟨29⟩) := by decide +kernel
example (debug : Bool) (a : Algo) :
    Usize.metricDistance (smallBuild debug) Concrete.U (Concrete.parse "aä") "xaxä".toList (Metric.new a) =
      (Metric.new a).distance Concrete.U (Concrete.parse "aä") "xaxä".toList ∨
    Usize.metricDistance (smallBuild debug) Concrete.U (Concrete.parse "aä") "xaxä".toList (Metric.new a) = .panic :=
  C78_distance (small_ok debug) .new ⟨_, Or.inl (small_parsed debug "aä" (by decide +kernel))⟩ (by
    show strLen _ < 2 ^ 15; decide +kernel)
example (debug : Bool) (a : Algo) : ∃ m' d,
    Usize.metricDistance (smallBuild debug) Concrete.U (Concrete.parse "aä") "xaxä".toList (Metric.new a) = .ok (m', d) ∧
      (Metric.new a).distance Concrete.U (Concrete.parse "aä") "xaxä".toList = .ok (m', d) := by
  refine C79_distance_partial (small_ok debug) .new ⟨_, Or.inl (small_parsed debug "aä" (by decide +kernel))⟩ (by
    show strLen _ < 2 ^ 15; decide +kernel) (C79_sizes (fun _ => ?_) fun _ p hp _ _ => ?_)
  · show strLen _ ≤ 256; decide +kernel
  · have : p.text.length = 2 := by revert p; decide +kernel
    rw [this]
    show _ ≤ 256 ∧ _ ≤ 256 ∧ _ ≤ 256 ∧ _ ≤ 256
    decide +kernel

/-- A query of 17 characters needs 289 cells: `FzfV2` panics if it matches, and only then; `FzfV1` does not. -/
example : smallDist true .v2 "aaaaaaaaaaaaaaaaa" "aaaaaaaaaaaaaaaaa" = .panic ∧
    smallDist false .v2 "aaaaaaaaaaaaaaaaa" "aaaaaaaaaaaaaaaaa" = .panic ∧
    smallDist false .v2 "aaaaaaaaaaaaaaaaa" "aaaaaaaaaaaaaaaa" = .ok none ∧
    smallDist false .v1 "aaaaaaaaaaaaaaaaa" "aaaaaaaaaaaaaaaaa" = .ok (some ⟨452⟩) := by decide +kernel

/-- 129 characters of two bytes need 258 characters; a query of 257 needs 257. -/
example (debug : Bool) (a : Algo) (buf : List Range) (hbuf : buf.length ≤ 256) :
    (Usize.metricDistance (smallBuild debug) Concrete.U (Concrete.parse "a") (List.replicate 129 'ä') (Metric.new a) = .panic ∧
      Usize.metricDistanceAndRanges (smallBuild debug) Concrete.U (Concrete.parse "a") (List.replicate 129 'ä') buf (Metric.new a) = .panic) ∧
    Usize.parse (smallBuild debug) Concrete.U FzfParser.new (List.replicate 257 'a') = .panic := by
  constructor
  · refine C79_distance_room (small_ok debug) .new ⟨_, Or.inl (small_parsed debug "a" (by decide +kernel))⟩
      (by show strLen _ < 2 ^ 15; decide +kernel) (fun h => ?_) hbuf
    have : strLen (List.replicate 129 'ä') ≤ 256 := (h (by decide +kernel)).1 (by decide +kernel)
    revert this
    decide +kernel
  · refine C79_parse_room (small_ok debug) .new (by show strLen _ < 2 ^ 15; decide +kernel) fun h => ?_
    have : strLen (List.replicate 257 'a') ≤ 256 := h.1
    revert this
    decide +kernel

/-- What `distance_and_ranges` of a new metric returns in the small build, and how many ranges there are then. -/
def smallRanges (a : Algo) (n : Nat) (t s : String) : Res (Nat × Option FzfDistance) :=
  (Usize.metricDistanceAndRanges (smallBuild true) Concrete.U (Concrete.parse t) s.toList (List.replicate n ⟨0, 1⟩) (Metric.new a)).mapR
    fun x => (x.2.1.length, x.2.2)

/-- `axaxa` has up to three ranges: they fit after 253 others, and not after 254. -/
example (a : Algo) : smallRanges a 253 "aaa" "axaxa" = .ok (256, some ⟨62⟩) ∧ smallRanges a 254 "aaa" "axaxa" = .panic := by
  cases a <;> decide +kernel
example (a : Algo) : Usize.metricDistanceAndRanges (smallBuild true) Concrete.U (Concrete.parse "aaa") "axaxa".toList
    (List.replicate 254 ⟨0, 1⟩) (Metric.new a) = .panic := by
  obtain ⟨m', _, h⟩ := callR (a := a) (.new (U := Concrete.U)) (Concrete.parsed "aaa").ok "axaxa".toList (List.replicate 254 ⟨0, 1⟩)
  refine C79_ranges_room (small_ok true) .new ⟨_, Or.inl (small_parsed true "aaa" (by decide +kernel))⟩
    (by show strLen _ < 2 ^ 15; decide +kernel) (by show _ ≤ 256; decide +kernel) ⟨m', h⟩ ?_
  show 256 < _
  cases a <;> decide +kernel

/-- On a 64-bit system everything up to 2²⁵ bytes fits, both as a query and as a candidate. -/
example (debug : Bool) (t s : List Char) (ht : strLen t ≤ 2 ^ 25) (hs : strLen s ≤ 2 ^ 25) (a : Algo) (q : FzfQuery)
    (hq : ParsedIn (roomyBuild 64 debug) U t q) :
    ParseFits (roomyBuild 64 debug) t ∧ CallFits (roomyBuild 64 debug) U a st q s ∧ 2 ^ 25 + (strLen s + 1) / 2 ≤ (roomyBuild 64 debug).limit .range := by
  have h1 := length_le_strLen s
  have h2 := length_le_strLen t
  have h3 := (Checked.query_sizes U t).2
  rw [← (parsedIn (roomy_ok (Or.inr rfl) debug) hq).eq] at h3
  simp only [ParseFits, roomyBuild, elemSize]
  refine ⟨⟨by omega, by omega, by omega⟩, C79_sizes (fun _ => by simp only; omega) fun _ p hp _ _ => ?_, by omega⟩
  have h4 := h3 p hp
  have h5 : p.text.length * s.length ≤ 2 ^ 25 * 2 ^ 25 := Nat.mul_le_mul (by omega) (by omega)
  simp only
  refine ⟨by omega, by omega, by omega, by omega⟩

end Norm.Props
