import Verif.SpecRename
import Verif.Proofs.Outcome
import Verif.Proofs.Closest
import Verif.Proofs.Folding

/-!
# Helper lemmas: the same query and candidate in other characters -/

namespace Norm
open Spec

variable {U U' : Unicode} {st st' : Settings} {S : FzfScheme} {R R' : Char → Char → Prop} {f : Char → Char} {t s : List Char} {ps : List Nat}
  {a : Algo} {B : Nat → Int} {p : Pattern}

/-- The characters of `t` and `s` compare as before once `f` is applied. -/
def Compares (R R' : Char → Char → Prop) (f : Char → Char) (t s : List Char) : Prop := ∀ q ∈ t, ∀ c ∈ s, R q c ↔ R' (f q) (f c)

theorem at_map (h : Compares R R' f t s) {q : Char} (hq : q ∈ t) {i : Nat} :
    (∃ c, s[i]? = some c ∧ R q c) ↔ ∃ c, (s.map f)[i]? = some c ∧ R' (f q) c := by
  constructor
  · rintro ⟨c, hc, hR⟩
    exact ⟨f c, by simp [hc], (h q hq c (List.mem_of_getElem? hc)).mp hR⟩
  · rintro ⟨c, hc, hR⟩
    rw [List.getElem?_map, Option.map_eq_some_iff] at hc
    obtain ⟨x, hx, rfl⟩ := hc
    exact ⟨x, hx, (h q hq x (List.mem_of_getElem? hx)).mpr hR⟩

theorem spells_map (h : Compares R R' f t s) : List.Forall₂ (fun q i => ∃ c, s[i]? = some c ∧ R q c) t ps ↔
    List.Forall₂ (fun q i => ∃ c, (s.map f)[i]? = some c ∧ R' q c) (t.map f) ps := by
  induction t generalizing ps with
  | nil => simp
  | cons q t ih =>
    cases ps with
    | nil => simp
    | cons i ps =>
      rw [List.map_cons, List.forall₂_cons, List.forall₂_cons, ih fun q hq => h q (List.mem_cons_of_mem _ hq), at_map h List.mem_cons_self]

theorem alignment_map (h : Compares R R' f t s) : Alignment R t s ps ↔ Alignment R' (t.map f) (s.map f) ps :=
  ⟨fun ha => ⟨ha.increasing, (spells_map h).mp ha.spells⟩, fun ha => ⟨ha.increasing, (spells_map h).mpr ha.spells⟩⟩

theorem v1Chooses_map (h : Compares R R' f t s) : V1Chooses R t s ps ↔ V1Chooses R' (t.map f) (s.map f) ps := by
  have key := fun {ps} => alignment_map (ps := ps) h
  constructor
  · rintro ⟨h1, h2, h3, h4⟩
    exact ⟨key.mp h1, fun l hl ps' ha => h2 l hl ps' (key.mpr ha), fun f l hf hl ps' ha => h3 f l hf hl ps' (key.mpr ha),
      fun f hf ps' ha => h4 f hf ps' (key.mpr ha)⟩
  · rintro ⟨h1, h2, h3, h4⟩
    exact ⟨key.mpr h1, fun l hl ps' ha => h2 l hl ps' (key.mp ha), fun f l hf hl ps' ha => h3 f l hf hl ps' (key.mp ha),
      fun f hf ps' ha => h4 f hf ps' (key.mp ha)⟩

theorem hit_map (h : Compares R R' f t s) {r c : Nat} : (∃ q x, t[r]? = some q ∧ s[c]? = some x ∧ R q x) ↔
    ∃ q x, (t.map f)[r]? = some q ∧ (s.map f)[c]? = some x ∧ R' q x := by
  constructor
  · rintro ⟨q, x, hq, hx, hR⟩
    exact ⟨f q, f x, by simp [hq], by simp [hx], (h q (List.mem_of_getElem? hq) x (List.mem_of_getElem? hx)).mp hR⟩
  · rintro ⟨q, x, hq, hx, hR⟩
    rw [List.getElem?_map, Option.map_eq_some_iff] at hq hx
    obtain ⟨q, hq, rfl⟩ := hq
    obtain ⟨x, hx, rfl⟩ := hx
    exact ⟨q, x, hq, hx, (h q (List.mem_of_getElem? hq) x (List.mem_of_getElem? hx)).mpr hR⟩

theorem gridOf_map {G : Grid} (h : Compares R R' f t s) : GridOf R B t s G ↔ GridOf R' B (t.map f) (s.map f) G := by
  have key := fun {ps} => alignment_map (ps := ps) h
  constructor
  · intro hG
    refine ⟨fun r c => ?_, ?_, ?_, hG.bonus⟩
    · rw [hG.hit, hit_map h]
    · rw [List.length_map]
      exact ⟨key.mp hG.first.1, fun ps ha => hG.first.2 ps (key.mpr ha)⟩
    · obtain ⟨q, x, hq, hx, hR, hl⟩ := hG.last
      have hm := List.mem_of_getLast? hq
      refine ⟨f q, f x, by simp [hq], by simp [hx], (h q hm x (List.mem_of_getElem? hx)).mp hR, fun c y hc hy hR' => ?_⟩
      obtain ⟨z, hz, hRz⟩ := (at_map h hm).mpr ⟨y, hy, hR'⟩
      exact hl c z hc hz hRz
  · intro hG
    refine ⟨fun r c => ?_, ?_, ?_, hG.bonus⟩
    · rw [hG.hit, hit_map h]
    · have := hG.first
      rw [List.length_map] at this
      exact ⟨key.mpr this.1, fun ps ha => this.2 ps (key.mp ha)⟩
    · obtain ⟨q, x, hq, hx, hR, hl⟩ := hG.last
      rw [List.getLast?_map, Option.map_eq_some_iff] at hq
      obtain ⟨q, hq, rfl⟩ := hq
      have hm := List.mem_of_getLast? hq
      obtain ⟨z, hz, hRz⟩ := (at_map h hm).mpr ⟨x, hx, hR⟩
      refine ⟨q, z, hq, hz, hRz, fun c y hc hy hR' => ?_⟩
      exact hl c (f y) hc (by simp [hy]) ((h q hm y (List.mem_of_getElem? hy)).mp hR')

theorem v2Chooses_map {n : Int} (h : Compares R R' f t s) : V2Chooses R B t s ps n ↔ V2Chooses R' B (t.map f) (s.map f) ps n := by
  unfold V2Chooses
  refine or_congr ?_ ?_
  · constructor
    · rintro ⟨c, i, rfl, ⟨h1, h2⟩, h3⟩
      refine ⟨f c, i, rfl, ⟨(at_map h (by simp)).mp h1, fun j y hy hR => ?_⟩, h3⟩
      obtain ⟨z, hz, hRz⟩ := (at_map h (q := c) (by simp)).mpr ⟨y, hy, hR⟩
      exact h2 j z hz hRz
    · rintro ⟨c, i, hc, ⟨h1, h2⟩, h3⟩
      obtain ⟨d, rfl, rfl⟩ : ∃ d, t = [d] ∧ f d = c := by simpa [List.map_eq_singleton_iff] using hc
      refine ⟨d, i, rfl, ⟨(at_map h (by simp)).mpr h1, fun j y hy hR => ?_⟩, h3⟩
      obtain ⟨z, hz, hRz⟩ := (at_map h (q := d) (by simp)).mp ⟨y, hy, hR⟩
      exact h2 j z hz hRz
  · simp only [List.length_map, gridOf_map h]

theorem forall₂_map_mem {l : List Char} (h : Compares R R' f t s) (hl : ∀ c ∈ l, c ∈ s) :
    List.Forall₂ R t l ↔ List.Forall₂ R' (t.map f) (l.map f) := by
  induction t generalizing l with
  | nil => cases l <;> simp
  | cons q t ih =>
    cases l with
    | nil => simp
    | cons c l =>
      rw [List.map_cons, List.map_cons, List.forall₂_cons, List.forall₂_cons, h q List.mem_cons_self c (hl c List.mem_cons_self),
        ih (fun q hq => h q (List.mem_cons_of_mem _ hq)) fun c hc => hl c (List.mem_cons_of_mem _ hc)]

theorem occursAt_map (h : Compares R R' f t s) {i : Nat} : OccursAt R t s i ↔ OccursAt R' (t.map f) (s.map f) i := by
  constructor
  · rintro ⟨x, m, y, rfl, rfl, hm⟩
    exact ⟨x.map f, m.map f, y.map f, by simp, by simp, (forall₂_map_mem h (by simp +contextual)).mp hm⟩
  · rintro ⟨x, m, y, hs, rfl, hm⟩
    obtain ⟨l, y', rfl, hl, rfl⟩ := List.map_eq_append_iff.mp hs
    obtain ⟨x', m', rfl, rfl, rfl⟩ := List.map_eq_append_iff.mp hl
    exact ⟨x', m', y', rfl, by simp, (forall₂_map_mem h (by simp +contextual)).mpr hm⟩

theorem matchLen_map (h : Compares R R' f t s) {i l : Nat} : MatchLen R t s i l ↔ MatchLen R' (t.map f) (s.map f) i l := by
  unfold MatchLen
  refine and_congr (forall_congr' fun k => forall_congr' fun _ => hit_map h) ?_
  constructor
  · intro h1 q c hq hc hR
    obtain ⟨q, c, hq, hc, hR⟩ := (hit_map h).mpr ⟨q, c, hq, hc, hR⟩
    exact h1 q c hq hc hR
  · intro h1 q c hq hc hR
    obtain ⟨q, c, hq, hc, hR⟩ := (hit_map h).mp ⟨q, c, hq, hc, hR⟩
    exact h1 q c hq hc hR

theorem seenBy_map {seen : Nat → CharClass} (h : Compares R R' f t s) (hc : ∀ c ∈ s, classOf U' S (f c) = classOf U S c) :
    SeenBy U S R t s seen ↔ SeenBy U' S R' (t.map f) (s.map f) seen := by
  constructor
  · rintro ⟨h1, h2, h3, h4⟩
    refine ⟨h1, fun i c hi hm => ?_, fun i c hi hm hl => ?_, fun i l c hm hl hl' hi => ?_⟩
    all_goals
      rw [List.getElem?_map, Option.map_eq_some_iff] at hi
      obtain ⟨x, hx, rfl⟩ := hi
    · rw [hc x (List.mem_of_getElem? hx)]
      exact h2 i x hx ((matchLen_map h).mpr hm)
    · exact h3 i x hx ((matchLen_map h).mpr hm) (by simpa using hl)
    · rw [hc x (List.mem_of_getElem? hx)]
      exact h4 i l x ((matchLen_map h).mpr hm) hl (by simpa using hl') (by simpa using hx)
  · rintro ⟨h1, h2, h3, h4⟩
    refine ⟨h1, fun i c hi hm => ?_, fun i c hi hm hl => ?_, fun i l c hm hl hl' hi => ?_⟩
    · rw [← hc c (List.mem_of_getElem? hi)]
      exact h2 i (f c) (by simp [hi]) ((matchLen_map h).mp hm)
    · exact h3 i (f c) (by simp [hi]) ((matchLen_map h).mp hm) (by simpa using hl)
    · rw [← hc c (List.mem_of_getElem? hi)]
      exact h4 i l (f c) ((matchLen_map h).mp hm) hl (by simpa using hl') (by simp [hi])

theorem seenBonus_map {seen : Nat → CharClass} (hc : ∀ c ∈ s, classOf U' S (f c) = classOf U S c) :
    seenBonus U' S (s.map f) seen = seenBonus U S s seen := by
  funext i
  unfold seenBonus
  rw [List.getElem?_map]
  cases hi : s[i]? with
  | none => rfl
  | some c =>
    simp only [Option.map_some]
    rw [hc c (List.mem_of_getElem? hi)]

theorem posBonus_map (hc : ∀ c ∈ s, classOf U' S (f c) = classOf U S c) : posBonus U' S (s.map f) = posBonus U S s := by
  funext i
  unfold posBonus
  rw [List.getElem?_map]
  cases hi : s[i]? with
  | none => rfl
  | some c =>
    simp only [Option.map_some]
    rw [hc c (List.mem_of_getElem? hi)]
    congr 1
    unfold classBefore
    rw [← List.map_take, List.getLast?_map]
    cases hj : (s.take i).getLast? with
    | none => rfl
    | some d => simp only [Option.map_some]; exact hc d (List.mem_of_mem_take (List.mem_of_getLast? hj))

theorem leading_ren (hs : ∀ c ∈ s, f c = ' ' ↔ c = ' ') : leading (s.map f) = leading s := by
  unfold leading
  induction s with
  | nil => rfl
  | cons c s ih =>
    have h1 := hs c List.mem_cons_self
    have h2 := ih fun c hc => hs c (List.mem_cons_of_mem _ hc)
    simp only [List.map_cons, List.takeWhile_cons, h1]
    split
    · simp [h2]
    · rfl

theorem trailing_ren (hs : ∀ c ∈ s, f c = ' ' ↔ c = ' ') : trailing (s.map f) = trailing s := by
  unfold trailing
  rw [← List.map_reverse]
  exact leading_ren fun c hc => hs c (List.mem_reverse.mp hc)

theorem blockAt_map {k : MatchType} {i : Nat} (h : Compares R R' f t s) (hc : ∀ c ∈ s, classOf U' S (f c) = classOf U S c)
    (ht : ∀ c ∈ t, f c = ' ' ↔ c = ' ') (hs : ∀ c ∈ s, f c = ' ' ↔ c = ' ') :
    BlockAt U S R t s k i ↔ BlockAt U' S R' (t.map f) (s.map f) k i := by
  cases k
  · exact Iff.rfl
  · simp only [BlockAt, BestPlaced, seenBonus_map hc, ← occursAt_map h, ← seenBy_map h hc]
  all_goals simp only [BlockAt, ← occursAt_map h, leading_ren ht, leading_ren hs, trailing_ren ht, trailing_ren hs, List.length_map]

/-- The pure results of a fuzzy search. -/
theorem pureOf_map {eq eq' : CharEq} (hB : ∀ i, 0 ≤ B i) (ht : t ≠ []) (h : Compares (rel eq) (rel eq') f t s) :
    pureOf a B eq' (t.map f) (s.map f) = pureOf a B eq t s := by
  have ht' : t.map f ≠ [] := by simpa using ht
  apply Option.ext
  rintro ⟨ps, n⟩
  cases a with
  | v1 => simp only [pureOf, v1Result, Option.map_eq_some_iff, v1Align_chooses ht, v1Align_chooses ht', v1Chooses_map h]
  | v2 =>
    simp only [pureOf]
    rw [v2Result_chooses hB ht, v2Result_chooses hB ht', v2Chooses_map h]

theorem byteLen_map (hl : ∀ c ∈ s, (f c).utf8Size = c.utf8Size) : byteLen (s.map f) = byteLen s := by
  unfold byteLen
  rw [List.map_map]
  congr 1
  exact List.map_congr_left hl

theorem byteRange_map (hl : ∀ c ∈ s, (f c).utf8Size = c.utf8Size) (i j : Nat) : byteRange (s.map f) i j = byteRange s i j := by
  unfold byteRange
  rw [← List.map_take, ← List.map_take, byteLen_map fun c hc => hl c (List.mem_of_mem_take hc),
    byteLen_map fun c hc => hl c (List.mem_of_mem_take hc)]

/-- What a renaming of the characters of a pattern and a candidate has to keep. -/
structure KeepsCh (U U' : Unicode) (st st' : Settings) (f : Char → Char) (t s : List Char) : Prop where
  compares : Compares (Cmp U st t) (Cmp U' st' (t.map f)) f t s
  scheme : st'.scheme = st.scheme
  classes : ∀ c ∈ s, classOf U' st.scheme (f c) = classOf U st.scheme c
  spaces : ∀ c ∈ t ++ s, f c = ' ' ↔ c = ' '
  sizes : ∀ c ∈ s, (f c).utf8Size = c.utf8Size

theorem renamePattern_ok (hp : p.text ≠ []) : PatternOk U' (renamePattern U' f p) :=
  ⟨by simpa [renamePattern, mkPattern] using hp, rfl⟩

theorem pureHit_map (hp : PatternOk U p) (h : KeepsCh U U' st st' f p.text s) :
    (pureOf a (posBonus U' st'.scheme (s.map f)) (st'.eqOf (renamePattern U' f p)) (renamePattern U' f p).text (s.map f)) =
      pureOf a (posBonus U st.scheme s) (st.eqOf p) p.text s := by
  have hp' : PatternOk U' (renamePattern U' f p) := renamePattern_ok hp.1
  have hR : Compares (rel (st.eqOf p)) (rel (st'.eqOf (renamePattern U' f p))) f p.text s := by
    rw [rel_eqOf st hp.upper, rel_eqOf st' hp'.upper]
    exact h.compares
  rw [h.scheme, posBonus_map h.classes]
  exact pureOf_map (posBonus_nonneg U st.scheme s) hp.1 hR

theorem charRange_map (hl : ∀ c ∈ s, (f c).utf8Size = c.utf8Size) : charRange (s.map f) = charRange s :=
  funext fun i => byteRange_map hl i (i + 1)

theorem rawHit_map (hp : PatternOk U p) (h : KeepsCh U U' st st' f p.text s) :
    rawHit U' (pureOf a) st' (s.map f) (renamePattern U' f p) = rawHit U (pureOf a) st s p := by
  have hp' : PatternOk U' (renamePattern U' f p) := renamePattern_ok hp.1
  by_cases hk : p.matchType = .fuzzy
  · have hk' : (renamePattern U' f p).matchType = .fuzzy := hk
    unfold rawHit
    simp only [hk, hk']
    rw [pureHit_map hp h, charRange_map h.sizes]
  · have hk' : (renamePattern U' f p).matchType ≠ .fuzzy := hk
    have hb := fun i => blockAt_map (k := p.matchType) (i := i) h.compares h.classes (fun c hc => h.spaces c (by simp [hc]))
      (fun c hc => h.spaces c (by simp [hc]))
    cases hx : rawHit U (pureOf a) st s p with
    | none =>
      cases hy : rawHit U' (pureOf a) st' (s.map f) (renamePattern U' f p) with
      | none => rfl
      | some y =>
        obtain ⟨i, hi, -⟩ := rawHit_block hk' hp' hy
        rw [h.scheme] at hi
        have := (rawHit_isSome (accepts a) hp).mpr (blockAt_matches ((hb i).mpr hi))
        rw [hx] at this
        cases this
    | some x =>
      obtain ⟨i, hi, -, rfl⟩ := rawHit_block hk hp hx
      have hi' := (hb i).mp hi
      rw [← h.scheme] at hi'
      have := (rawHit_isSome (accepts a) hp').mpr (blockAt_matches hi')
      obtain ⟨y, hy⟩ := Option.isSome_iff_exists.mp this
      obtain ⟨j, hj, -, rfl⟩ := rawHit_block hk' hp' hy
      obtain rfl := blockAt_unique hp' hi' hj
      rw [hy, h.scheme, posBonus_map h.classes, show (renamePattern U' f p).text = p.text.map f from rfl, List.length_map, byteRange_map h.sizes]

theorem renameQuery_ok {q : FzfQuery} (hq : QueryOk U q) : QueryOk U' (renameQuery U' f q) := by
  cases q with
  | notExtended p =>
    have : p.matchType = .fuzzy := by rw [show p = _ from hq]; rfl
    show renamePattern U' f p = mkPattern U' _ .fuzzy _
    rw [← this]
    rfl
  | extended cs =>
    intro c hc
    obtain ⟨c, hm, rfl⟩ := List.mem_map.mp hc
    refine ⟨by simpa using (hq c hm).1, fun p hp => ?_⟩
    obtain ⟨p, hn, rfl⟩ := List.mem_map.mp hp
    exact renamePattern_ok ((hq c hm).2 p hn).1

theorem patHit_map (hp : PatternOk U p) (h : KeepsCh U U' st st' f p.text s) :
    patHit U' (pureOf a) st' (s.map f) (renamePattern U' f p) = patHit U (pureOf a) st s p := by
  unfold patHit
  rw [rawHit_map hp h]
  rfl

theorem condHit_map {c : List Pattern} (hc : ∀ p ∈ c, PatternOk U p ∧ KeepsCh U U' st st' f p.text s) :
    condHit U' (pureOf a) st' (s.map f) (c.map (renamePattern U' f)) = condHit U (pureOf a) st s c := by
  unfold condHit
  induction c with
  | nil => rfl
  | cons p c ih =>
    rw [List.map_cons, List.findSome?_cons, List.findSome?_cons, patHit_map (hc p (by simp)).1 (hc p (by simp)).2,
      ih fun p hp => hc p (by simp [hp])]

theorem condsHit_map {cs : List (List Pattern)} (hc : ∀ c ∈ cs, ∀ p ∈ c, PatternOk U p ∧ KeepsCh U U' st st' f p.text s) :
    condsHit U' (pureOf a) st' (s.map f) (cs.map (List.map (renamePattern U' f))) = condsHit U (pureOf a) st s cs := by
  induction cs with
  | nil => rfl
  | cons c cs ih =>
    rw [List.map_cons, condsHit, condsHit, condHit_map (hc c (by simp)), ih fun c h => hc c (by simp [h])]

theorem result_map {q : FzfQuery} (hq : QueryOk U q) (h : ∀ p ∈ patterns q, KeepsCh U U' st st' f p.text s) :
    result U' a st' (s.map f) (renameQuery U' f q) = result U a st s q := by
  cases q with
  | notExtended p =>
    unfold result queryHit
    have he : (renameQuery U' f (.notExtended p)).isEmpty = (FzfQuery.notExtended p).isEmpty := by
      simp [renameQuery, FzfQuery.isEmpty, Pattern.isEmpty, renamePattern, mkPattern]
    rw [he]
    split
    · rfl
    · rename_i hn
      have hp : PatternOk U p := by
        have hk : p.matchType = .fuzzy := by rw [show p = _ from hq]; rfl
        refine ⟨by simpa [FzfQuery.isEmpty, Pattern.isEmpty] using hn, ?_⟩
        rw [hk]
        exact hq
      have hk := h p (by simp [patterns])
      simp only [renameQuery]
      rw [pureHit_map hp hk, charRange_map hk.sizes]
  | extended cs =>
    have he : (renameQuery U' f (.extended cs)).isEmpty = (FzfQuery.extended cs).isEmpty := by
      simp [renameQuery, FzfQuery.isEmpty]
    unfold result queryHit
    rw [he]
    split
    · rfl
    · exact condsHit_map fun c hc p hp => ⟨(hq c hc).2 p hp, h p (List.mem_flatten.mpr ⟨c, hc, hp⟩)⟩

/-! ### The query -/

/-- `f` leaves alone the characters with a meaning in queries, and yields them for no others. -/
def Fixes (f : Char → Char) : Prop := ∀ x ∈ [' ', '\\', '!', '\'', '^', '$', '|'], ∀ c, f c = x ↔ c = x

theorem pieces_map (hf : Fixes f) (t : List Char) : pieces (t.map f) = (pieces t).map (List.map f) := by
  have hc : ∀ (c : Char) (ps : List (List Char)), consHead (f c) (ps.map (List.map f)) = (consHead c ps).map (List.map f) := by
    intro c ps; cases ps <;> rfl
  have hsp := hf ' ' (by simp)
  have hbs := hf '\\' (by simp)
  have h1 : f '\\' = '\\' := (hbs _).mpr rfl
  have h2 : f ' ' = ' ' := (hsp _).mpr rfl
  fun_induction pieces t with
  | case1 => rfl
  | case2 t ih => rw [List.map_cons, List.map_cons, h1, h2, pieces, ih, ← hc, h2]
  | case3 t ih =>
    rw [List.map_cons, h2, pieces, ih]
    rfl
  | case4 c t h3 h4 ih =>
    rw [List.map_cons, pieces_cons_of (c := f c), ih, hc]
    · intro h; exact h4 ((hsp c).mp h)
    · rintro ⟨h5, h6⟩
      have h5 := (hbs c).mp h5
      cases t with
      | nil => simp at h6
      | cons d t =>
        simp only [List.map_cons, List.head?_cons, Option.some.injEq] at h6
        exact h3 t h5 (by rw [(hsp d).mp h6])

theorem words_map (hf : Fixes f) (t : List Char) : words (t.map f) = (words t).map (List.map f) := by
  unfold words
  rw [pieces_map hf, List.filter_map]
  congr 1
  congr 1
  funext w
  cases w <;> rfl

theorem decorates_map {w text : List Char} {i d : Bool} {sg : Sigil} (hf : Fixes f) (h : Decorates w i sg d text) :
    Decorates (w.map f) i sg d (text.map f) := by
  have e1 := hf '!' (by simp)
  have e2 := hf '$' (by simp)
  have e3 := hf '\'' (by simp)
  have e4 := hf '^' (by simp)
  have hb : f '!' = '!' := (e1 _).mpr rfl
  have hd : f '$' = '$' := (e2 _).mpr rfl
  have hsg : sg.chars.map f = sg.chars := by
    cases sg with
    | none => rfl
    | quote => simp [Sigil.chars, (e3 _).mpr rfl]
    | caret => simp [Sigil.chars, (e4 _).mpr rfl]
  have hcore : sg.chars ++ text.map f = (sg.chars ++ text).map f := by
    rw [List.map_append, hsg]
  refine ⟨?_, ?_, ?_, ?_, ?_⟩
  · rw [h.word]
    cases i <;> cases d <;> simp [hsg, hd, hb]
  · intro hi
    have := h.bang hi
    cases w with
    | nil => simp
    | cons c w => simpa [e1] using this
  · intro hd; rw [hcore]; simpa using h.dollar_pos hd
  · intro hd hl
    rw [hcore] at hl ⊢
    have := h.dollar_max hd
    rw [List.getLast?_map] at hl
    obtain ⟨c, hc, hc'⟩ := Option.map_eq_some_iff.mp hl
    rw [e2] at hc'
    subst hc'
    rw [this hc]
    simp [(e2 _).mpr rfl]
  · intro hs
    have := h.sigil_max hs
    cases text with
    | nil => simp
    | cons c w => simpa [e3, e4] using this

theorem wordPattern_map (hf : Fixes f) (w : List Char) :
    wordPattern U' (w.map f) = (wordPattern U w).map (renamePattern U' f) := by
  have h := decorates_exists w
  rw [wordPattern_of_decorates h, wordPattern_of_decorates (decorates_map hf h)]
  simp only [List.map_eq_nil_iff]
  split <;> rfl

theorem tokens_map (hf : Fixes f) (ws : List (List Char)) :
    tokens U' (ws.map (List.map f)) = (tokens U ws).map (mapTok (renamePattern U' f)) := by
  have e := hf '|' (by simp)
  induction ws with
  | nil => rfl
  | cons w ws ih =>
    unfold tokens at ih ⊢
    rw [List.map_cons, List.filterMap_cons, List.filterMap_cons, ih, wordPattern_map (U := U) hf]
    have hb : w.map f = ['|'] ↔ w = ['|'] := by
      cases w with
      | nil => simp
      | cons c w => simp [e]
    by_cases hw : w = ['|']
    · rw [if_pos hw, if_pos (hb.mpr hw)]
      rfl
    · rw [if_neg hw, if_neg fun h => hw (hb.mp h)]
      cases wordPattern U w <;> rfl

theorem renameQuery_collapse (cs : List (List Pattern)) :
    renameQuery U' f (collapse cs) = collapse (cs.map (List.map (renamePattern U' f))) := by
  cases cs with
  | nil => rfl
  | cons c cs =>
    cases cs with
    | cons c' cs => cases c with
      | nil => rfl
      | cons p c => cases c <;> rfl
    | nil =>
      cases c with
      | nil => rfl
      | cons p c =>
        cases c with
        | cons p' c => rfl
        | nil =>
          have hk : (renamePattern U' f p).matchType = p.matchType := rfl
          simp only [List.map_cons, List.map_nil, collapse, hk]
          split <;> rfl

theorem query_map (hf : Fixes f) (t : List Char) : query U' (t.map f) = renameQuery U' f (query U t) := by
  unfold query
  rw [renameQuery_collapse, ← groups_map, words_map hf, tokens_map (U := U) hf]

theorem rawQuery_map (t : List Char) : rawQuery U' (t.map f) = renameQuery U' f (rawQuery U t) := rfl

/-! ### Exchanging letters and digits -/

theorem small_alphabet : ∀ c ∈ "abcdefghijklmnopqrstuvwxyz".toList, 97 ≤ c.toNat ∧ c.toNat ≤ 122 := by decide +kernel
theorem big_alphabet : ∀ c ∈ "ABCDEFGHIJKLMNOPQRSTUVWXYZ".toList, 65 ≤ c.toNat ∧ c.toNat ≤ 90 := by decide +kernel
theorem digit_alphabet : ∀ c ∈ "0123456789".toList, 48 ≤ c.toNat ∧ c.toNat ≤ 57 := by decide +kernel

/-- How `f` may change a character. -/
inductive Changes (c d : Char) : Prop
  | lower : (97 ≤ c.toNat ∧ c.toNat ≤ 122) → (97 ≤ d.toNat ∧ d.toNat ≤ 122) → Changes c d
  | upper : (65 ≤ c.toNat ∧ c.toNat ≤ 90) → (65 ≤ d.toNat ∧ d.toNat ≤ 90) → Changes c d
  | digit : (48 ≤ c.toNat ∧ c.toNat ≤ 57) → (48 ≤ d.toNat ∧ d.toNat ≤ 57) → Changes c d
  | same : d = c → Changes c d

theorem Spec.Exchanges.changes (h : Exchanges f) (c : Char) : Changes c (f c) := by
  by_cases h1 : c ∈ "abcdefghijklmnopqrstuvwxyz".toList
  · exact .lower (small_alphabet c h1) (small_alphabet _ (h.lower c h1))
  by_cases h2 : c ∈ "ABCDEFGHIJKLMNOPQRSTUVWXYZ".toList
  · exact .upper (big_alphabet c h2) (big_alphabet _ (h.upper c h2).1)
  by_cases h3 : c ∈ "0123456789".toList
  · exact .digit (digit_alphabet c h3) (digit_alphabet _ (h.digit c h3))
  exact .same (h.other c h1 h2 h3)

theorem lower_small {c : Char} (h : ¬ (65 ≤ c.toNat ∧ c.toNat ≤ 90)) : lower c = c :=
  lower_of_not (by simp only [isAsciiUpper, Bool.and_eq_false_iff, decide_eq_false_iff_not]; omega)

theorem Spec.Exchanges.lower_comm (h : Exchanges f) (c : Char) : Spec.lower (f c) = f (Spec.lower c) := by
  by_cases h2 : c ∈ "ABCDEFGHIJKLMNOPQRSTUVWXYZ".toList
  · exact (h.upper c h2).2
  have hc : Spec.lower c = c := by
    unfold Spec.lower
    have : ("ABCDEFGHIJKLMNOPQRSTUVWXYZ".toList.zip "abcdefghijklmnopqrstuvwxyz".toList).lookup c = none := by
      rw [List.lookup_eq_none_iff]
      intro p hp
      simp only [bne_iff_ne, ne_eq]
      rintro rfl
      exact h2 (List.of_mem_zip hp).1
    rw [this]
  have hs : f c = c → Spec.lower (f c) = f c := fun e => by rw [e, hc]
  rw [hc]
  by_cases h1 : c ∈ "abcdefghijklmnopqrstuvwxyz".toList
  · have := small_alphabet _ (h.lower c h1)
    exact lower_small (by omega)
  by_cases h3 : c ∈ "0123456789".toList
  · have := digit_alphabet _ (h.digit c h3)
    exact lower_small (by omega)
  · exact hs (h.other c h1 h2 h3)

theorem Spec.Exchanges.fold_comm (h : Exchanges f) (b : Bool) (c : Char) : fold b (f c) = f (fold b c) := by
  cases b
  · exact h.lower_comm c
  · rfl

theorem Spec.Exchanges.fixes (h : Exchanges f) : Fixes f := by
  intro x hx c
  have hn : ∀ x ∈ [' ', '\\', '!', '\'', '^', '$', '|'], x ∉ "abcdefghijklmnopqrstuvwxyz".toList ∧
      x ∉ "ABCDEFGHIJKLMNOPQRSTUVWXYZ".toList ∧ x ∉ "0123456789".toList := by decide +kernel
  obtain ⟨h1, h2, h3⟩ := hn x hx
  have hx := h.other x h1 h2 h3
  constructor
  · intro e
    exact h.injective _ _ (e.trans hx.symm)
  · rintro rfl
    exact hx

theorem Spec.Exchanges.classes (h : Exchanges f) (c : Char) : classOf U S (f c) = classOf U S c := by
  have e1 : 'a'.toNat = 97 := rfl
  have e2 : 'z'.toNat = 122 := rfl
  have e3 : 'A'.toNat = 65 := rfl
  have e4 : 'Z'.toNat = 90 := rfl
  have e5 : '0'.toNat = 48 := rfl
  have e6 : '9'.toNat = 57 := rfl
  have small : ∀ c : Char, 97 ≤ c.toNat ∧ c.toNat ≤ 122 → classOf U S c = .lower := by
    intro c hc
    unfold classOf
    rw [if_pos (by omega), if_pos (by omega)]
  have big : ∀ c : Char, 65 ≤ c.toNat ∧ c.toNat ≤ 90 → classOf U S c = .upper := by
    intro c hc
    unfold classOf
    rw [if_pos (by omega), if_neg (by omega), if_pos (by omega)]
  have dig : ∀ c : Char, 48 ≤ c.toNat ∧ c.toNat ≤ 57 → classOf U S c = .number := by
    intro c hc
    unfold classOf
    rw [if_pos (by omega), if_neg (by omega), if_neg (by omega), if_pos (by omega)]
  cases h.changes c with
  | lower h1 h2 => rw [small _ h1, small _ h2]
  | upper h1 h2 => rw [big _ h1, big _ h2]
  | digit h1 h2 => rw [dig _ h1, dig _ h2]
  | same h => rw [h]

theorem Spec.Exchanges.sizes (h : Exchanges f) (c : Char) : (f c).utf8Size = c.utf8Size := by
  have one : ∀ c : Char, c.toNat < 128 → c.utf8Size = 1 := by
    intro c hc
    exact utf8Size_ascii (decide_eq_true hc)
  cases h.changes c with
  | lower h1 h2 => rw [one _ (by omega), one _ (by omega)]
  | upper h1 h2 => rw [one _ (by omega), one _ (by omega)]
  | digit h1 h2 => rw [one _ (by omega), one _ (by omega)]
  | same h => rw [h]

theorem Spec.Exchanges.capital (h : Exchanges f) (hU : KnowsCapitals U) (c : Char) : U.isUppercase (f c) = U.isUppercase c := by
  have no : ∀ c : Char, c.toNat < 128 → ¬ (65 ≤ c.toNat ∧ c.toNat ≤ 90) → U.isUppercase c = false := by
    intro c h1 h2
    cases hc : U.isUppercase c with
    | false => rfl
    | true => exact absurd (big_alphabet c ((hU c h1).mp hc)) h2
  by_cases h1 : c ∈ "ABCDEFGHIJKLMNOPQRSTUVWXYZ".toList
  · have h2 := (h.upper c h1).1
    have b1 := big_alphabet _ h1
    have b2 := big_alphabet _ h2
    rw [(hU c (by omega)).mpr h1, (hU _ (by omega)).mpr h2]
  by_cases h2 : c ∈ "abcdefghijklmnopqrstuvwxyz".toList
  · have b1 := small_alphabet _ h2
    have b2 := small_alphabet _ (h.lower c h2)
    rw [no c (by omega) (by omega), no _ (by omega) (by omega)]
  by_cases h3 : c ∈ "0123456789".toList
  · have b1 := digit_alphabet _ h3
    have b2 := digit_alphabet _ (h.digit c h3)
    rw [no c (by omega) (by omega), no _ (by omega) (by omega)]
  · rw [h.other c h2 h1 h3]

theorem Spec.Exchanges.listed (h : Exchanges f) {c : Char} (hc : ∀ l, ¬ Listed c l) : ∀ l, ¬ Listed (f c) l := by
  have no : ∀ c : Char, c.toNat < 128 → ∀ l, ¬ Listed c l := by
    intro c hc l hl
    have := hl.range
    rw [isNormalized_ascii (decide_eq_true hc)] at this
    cases this
  cases h.changes c with
  | lower h1 h2 => exact no _ (by omega)
  | upper h1 h2 => exact no _ (by omega)
  | digit h1 h2 => exact no _ (by omega)
  | same h => rwa [h]

theorem Spec.Exchanges.keeps (h : Exchanges f) (hU : KnowsCapitals U) (hn : st.normalization = true → ∀ c ∈ s, ∀ l, ¬ Listed c l) (t : List Char) :
    KeepsCh U U st st f t s := by
  refine ⟨fun q hq c hc => ?_, rfl, fun c _ => h.classes c, fun c _ => h.fixes ' ' (by simp) c, fun c _ => h.sizes c⟩
  have hs : sensitive U st.caseSensitivity (t.map f) = sensitive U st.caseSensitivity t := by
    unfold sensitive
    cases st.caseSensitivity with
    | sensitive => rfl
    | insensitive => rfl
    | smart =>
      simp only [List.any_map]
      congr 1
      funext c
      exact h.capital hU c
  unfold Cmp CharMatches
  rw [hs, h.fold_comm, h.fold_comm]
  refine or_congr ⟨fun e => by rw [e], fun e => h.injective _ _ e⟩ ⟨?_, ?_⟩
  · rintro ⟨h1, l, h2, -⟩
    exact absurd h2 (hn h1 c hc l)
  · rintro ⟨h1, l, h2, -⟩
    exact absurd h2 (h.listed (hn h1 c hc) l)

/-! ### Another platform or version of Unicode -/

theorem renamePattern_id (hp : p = mkPattern U p.isInverse p.matchType p.text)
    (hu : ∀ c ∈ p.text, U'.isUppercase c = U.isUppercase c) : renamePattern U' id p = p := by
  conv_rhs => rw [hp]
  unfold renamePattern mkPattern
  rw [List.map_id]
  congr 1
  rw [Bool.eq_iff_iff, List.any_eq_true, List.any_eq_true]
  exact ⟨fun ⟨c, h1, h2⟩ => ⟨c, h1, (hu c h1) ▸ h2⟩, fun ⟨c, h1, h2⟩ => ⟨c, h1, (hu c h1) ▸ h2⟩⟩

theorem renameQuery_id {q : FzfQuery} (hq : QueryOk U q) (hu : ∀ p ∈ patterns q, ∀ c ∈ p.text, U'.isUppercase c = U.isUppercase c) :
    renameQuery U' id q = q := by
  cases q with
  | notExtended p =>
    have hk : p.matchType = .fuzzy := by rw [show p = _ from hq]; rfl
    show FzfQuery.notExtended _ = _
    rw [renamePattern_id (U := U) (by rw [hk]; exact hq) (hu p (by simp [patterns]))]
  | extended cs =>
    show FzfQuery.extended _ = _
    congr 1
    conv_rhs => rw [← List.map_id cs]
    refine List.map_congr_left fun c hc => ?_
    conv_rhs => rw [id, ← List.map_id c]
    exact List.map_congr_left fun p hp => renamePattern_id ((hq c hc).2 p hp).2 (hu p (List.mem_flatten.mpr ⟨c, hc, hp⟩))

theorem keeps_id (hu : ∀ c ∈ t, U'.isUppercase c = U.isUppercase c) (hc : ∀ c ∈ s, classOf U' st.scheme c = classOf U st.scheme c) :
    KeepsCh U U' st st id t s := by
  refine ⟨fun q _ c _ => ?_, rfl, hc, fun _ _ => Iff.rfl, fun _ _ => rfl⟩
  have hs : sensitive U' st.caseSensitivity t = sensitive U st.caseSensitivity t := by
    unfold sensitive
    cases st.caseSensitivity with
    | sensitive => rfl
    | insensitive => rfl
    | smart =>
      rw [Bool.eq_iff_iff]
      simp only [List.any_eq_true]
      exact ⟨fun ⟨c, h1, h2⟩ => ⟨c, h1, (hu c h1) ▸ h2⟩, fun ⟨c, h1, h2⟩ => ⟨c, h1, (hu c h1) ▸ h2⟩⟩
  unfold Cmp
  rw [List.map_id, hs]
  exact Iff.rfl

theorem result_id {q : FzfQuery} (hq : QueryOk U q) (hu : ∀ p ∈ patterns q, ∀ c ∈ p.text, U'.isUppercase c = U.isUppercase c)
    (hc : ∀ c ∈ s, classOf U' st.scheme c = classOf U st.scheme c) : result U' a st s q = result U a st s q := by
  have := result_map (a := a) (f := id) (U' := U') hq fun p hp => keeps_id (st := st) (s := s) (hu p hp) hc
  rwa [List.map_id, renameQuery_id hq hu] at this

/-! ### Other settings -/

theorem result_settings {q : FzfQuery} (hq : QueryOk U q) (hS : st'.scheme = st.scheme)
    (hc : ∀ p ∈ patterns q, ∀ x ∈ p.text, ∀ c ∈ s, Cmp U st p.text x c ↔ Cmp U st' p.text x c) :
    result U a st' s q = result U a st s q := by
  have := result_map (a := a) (f := id) (U' := U) (st' := st') (st := st) (s := s) hq fun p hp =>
    ⟨fun x hx c hm => by rw [List.map_id]; exact hc p hp x hx c hm, hS, fun c _ => by rw [id], fun _ _ => Iff.rfl, fun _ _ => rfl⟩
  rwa [List.map_id, renameQuery_id hq fun _ _ _ _ => rfl] at this

theorem classOf_ascii {c : Char} (h : c.toNat < 128) (hw : S = .path → c = '\\' → U'.windows = U.windows) :
    classOf U' S c = classOf U S c := by
  have hd : c ∈ delimiters U' S ↔ c ∈ delimiters U S := by
    cases S with
    | path =>
      simp only [delimiters]
      by_cases hb : c = '\\'
      · rw [hw rfl hb]
      · cases U'.windows <;> cases U.windows <;> simp [hb]
    | default => rfl
    | history => rfl
  unfold classOf
  simp only [if_pos h, hd]

end Norm
