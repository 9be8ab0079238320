import Verif.Proofs.Relations
import Verif.Proofs.V2Facts

/-!
# Helper lemmas about the ranges a call appends -/

set_option linter.unusedSimpArgs false

namespace Norm

open Spec

variable {U : Unicode} {a : Algo} {m m' : Metric} {st : Settings} {q : FzfQuery} {s t : List Char} {p : Pattern}

/-- The byte range of some characters of `s`. -/
def Slice (s : List Char) (r : Range) : Prop := ∃ i j, i < j ∧ j ≤ s.length ∧ r = byteRange s i j

theorem Slice.lt {r : Range} (h : Slice s r) : r.start < r.stop := by
  obtain ⟨i, j, h1, h2, rfl⟩ := h
  exact byteRange_nonempty h1 h2

theorem byteLen_take_le {i j : Nat} (h : i ≤ j) : byteLen (s.take i) ≤ byteLen (s.take j) := by
  obtain ⟨k, rfl⟩ := Nat.exists_eq_add_of_le h
  rw [List.take_add, byteLen_append]; omega

theorem pos_lt (a : Algo) {B : Nat → Int} {eq : CharEq} {p s : List Char} {x : List Nat × Int} (hp : p ≠ [])
    (h : pureOf a B eq p s = some x) : ∀ i ∈ x.1, i < s.length := by
  cases a with
  | v1 => exact (FzfV1.refines Unicode.mk').pos B eq p s x hp h
  | v2 => exact (FzfV2.refines Unicode.mk').pos B eq p s x hp h
where
  Unicode.mk' : Unicode := ⟨fun _ => false, fun _ => false, fun _ => false, fun _ => false, fun _ => false, false⟩

theorem slice_char {i : Nat} (h : i < s.length) : Slice s (charRange s i) := ⟨i, i + 1, by omega, by omega, rfl⟩

theorem rawHit_slice (hp : p.text ≠ []) {h : List Range × Int} (hh : rawHit U (pureOf a) st s p = some h) :
    ∀ r ∈ h.1, Slice s r := by
  have hpos := List.length_pos_iff.mpr hp
  have hblock : ∀ (o : Option Nat), (∀ a, o = some a → a + p.text.length ≤ s.length) →
      o.map (fun a => ([byteRange s a (a + p.text.length)],
        alignScore (posBonus U st.scheme s) (List.range' a p.text.length))) = some h → ∀ r ∈ h.1, Slice s r := by
    intro o ho he
    cases o with
    | none => simp at he
    | some a =>
      simp at he; subst he
      intro r hr
      simp at hr; subst hr
      exact ⟨a, _, by omega, ho a rfl, rfl⟩
  unfold rawHit at hh
  dsimp only at hh
  cases hm : p.matchType <;> rw [hm] at hh <;> simp only at hh
  · cases hx : pureOf a (posBonus U st.scheme s) (st.eqOf p) p.text s with
    | none => rw [hx] at hh; simp at hh
    | some x =>
      rw [hx] at hh; simp at hh; subst hh
      intro r hr
      simp at hr
      obtain ⟨i, hi, rfl⟩ := hr
      exact slice_char (pos_lt a hp hx i hi)
  · exact hblock _ (fun a ha => occursAt_lt (exactPos_occurs hp ha)) hh
  · exact hblock _ (fun a ha => prefixPos_le hp ha) hh
  · exact hblock _ (fun a ha => suffixPos_le ha) hh
  · exact hblock _ (fun a ha => equalPos_le hp ha) hh

theorem patHit_slice (hp : p.text ≠ []) {h : List Range × Int} (hh : patHit U (pureOf a) st s p = some h) :
    ∀ r ∈ h.1, Slice s r := by
  unfold patHit at hh
  split at hh
  · split at hh
    · simp at hh; subst hh; simp
    · simp at hh
  · exact rawHit_slice hp hh

theorem condsHit_slice {cs : List Condition} (hp : ∀ c ∈ cs, ∀ p ∈ c, p.text ≠ []) :
    ∀ r ∈ (condsHit U (pureOf a) st s cs).1, Slice s r := by
  induction cs with
  | nil => simp [condsHit]
  | cons c cs ih =>
    simp only [condsHit]
    cases hc : condHit U (pureOf a) st s c with
    | none => simp
    | some h =>
      obtain ⟨p, hpc, hh⟩ := List.exists_of_findSome?_eq_some hc
      intro r hr
      rcases List.mem_append.mp hr with hr | hr
      · exact patHit_slice (hp c (by simp) p hpc) hh r hr
      · exact ih (fun c hc => hp c (by simp [hc])) r hr

theorem result_slice (hq : QueryOk U q) : ∀ r ∈ (result U a st s q).1, Slice s r := by
  cases q with
  | notExtended p =>
    by_cases hp : p.text = []
    · simp [result, queryHit, FzfQuery.isEmpty, Pattern.isEmpty, hp]
    · rw [result_notExtended hp]
      cases hx : pureOf a (posBonus U st.scheme s) (st.eqOf p) p.text s with
      | none => simp
      | some x =>
        intro r hr
        simp only [List.mem_map] at hr
        obtain ⟨i, hi, rfl⟩ := hr
        exact slice_char (pos_lt a hp hx i hi)
  | extended cs =>
    rw [result_extended]
    exact condsHit_slice (queryOk_nonEmpty hq)

/-! ### Inserting -/

theorem slice_pinsert {l : List Range} {new : Range} (hs : Sep l) (hl : ∀ r ∈ l, Slice s r) (hn : Slice s new) :
    ∀ r ∈ pinsert l new, Slice s r := by
  intro r hr
  have hlt := (sep_pinsert hs hn.lt).1 r hr
  have h1 : ∃ i ≤ s.length, r.start = byteLen (s.take i) := by
    rcases pinsert_start l new r hr with h | ⟨y, hy, h⟩
    · obtain ⟨i, j, h1, h2, rfl⟩ := hn
      exact ⟨i, by omega, h⟩
    · obtain ⟨i, j, h1, h2, rfl⟩ := hl y hy
      exact ⟨i, by omega, h⟩
  have h2 : ∃ j ≤ s.length, r.stop = byteLen (s.take j) := by
    rcases pinsert_stop l new r hr with h | ⟨y, hy, h⟩
    · obtain ⟨i, j, h1, h2, rfl⟩ := hn
      exact ⟨j, by omega, h⟩
    · obtain ⟨i, j, h1, h2, rfl⟩ := hl y hy
      exact ⟨j, by omega, h⟩
  obtain ⟨i, hi, hi'⟩ := h1
  obtain ⟨j, hj, hj'⟩ := h2
  refine ⟨i, j, ?_, hj, ?_⟩
  · by_contra hc
    have := byteLen_take_le (s := s) (i := j) (j := i) (by omega)
    omega
  · cases r; simp only at hi' hj'; rw [hi', hj']; rfl

theorem insertAll_slice {rs : List Range} : ∀ {l : List Range}, Sep l → (∀ r ∈ l, Slice s r) → (∀ r ∈ rs, Slice s r) →
    ∀ r ∈ insertAll l rs, Slice s r := by
  induction rs with
  | nil => intro l _ hl _; exact hl
  | cons r rs ih =>
    intro l hs hl hr
    exact ih (sep_pinsert hs (hr r (by simp)).lt) (slice_pinsert hs hl (hr r (by simp))) (fun x hx => hr x (by simp [hx]))

theorem covers_def (l : List Range) (b : Nat) : Covers l b ↔ Covered l b := Iff.rfl

/-- Nothing is covered beyond the inserted ranges. -/
theorem insertAll_sound {rs : List Range} : ∀ {l : List Range}, Sep l → (∀ r ∈ rs, r.start < r.stop) → ∀ {b : Nat},
    Covered (insertAll l rs) b → Covered l b ∨ Covered rs b := by
  induction rs with
  | nil => intro l _ _ b h; exact .inl h
  | cons r rs ih =>
    intro l hs hr b h
    rcases ih (sep_pinsert hs (hr r (by simp))) (fun x hx => hr x (by simp [hx])) h with h | h
    · rcases pinsert_sound hs h with h | h
      · exact .inl h
      · exact .inr ((covered_cons ..).mpr (.inl h))
    · exact .inr ((covered_cons ..).mpr (.inr h))

/-- Nothing already covered is lost. -/
theorem insertAll_mono {rs : List Range} : ∀ {l : List Range}, Sep l → (∀ r ∈ rs, r.start < r.stop) → ∀ {b : Nat},
    Covered l b → Covered (insertAll l rs) b := by
  induction rs with
  | nil => intro l _ _ b h; exact h
  | cons r rs ih =>
    intro l hs hr b h
    exact ih (sep_pinsert hs (hr r (by simp))) (fun x hx => hr x (by simp [hx])) (pinsert_mono hs h)

/-- A range that contains no other range's end strictly inside is covered after insertion. -/
theorem pinsert_char {l : List Range} {i : Nat} (hs : Sep l) (hl : ∀ r ∈ l, Slice s r) {b : Nat}
    (h : (charRange s i).start ≤ b ∧ b < (charRange s i).stop) : Covered (pinsert l (charRange s i)) b := by
  refine pinsert_complete hs ?_ h.1 h.2
  intro r hr hlt
  obtain ⟨j, k, hjk, hk, rfl⟩ := hl r hr
  have : i < j := by
    by_contra hc
    have := byteLen_take_le (s := s) (i := j) (j := i) (by omega)
    simp only [charRange, byteRange] at hlt
    omega
  exact byteLen_take_le (by omega)

/-- Inserting single characters covers exactly those. -/
theorem insertAll_chars {is : List Nat} : ∀ {l : List Range}, Sep l → (∀ r ∈ l, Slice s r) → (∀ i ∈ is, i < s.length) →
    ∀ {b : Nat}, Covered (insertAll l (is.map (charRange s))) b ↔
      Covered l b ∨ ∃ i ∈ is, (charRange s i).start ≤ b ∧ b < (charRange s i).stop := by
  induction is with
  | nil => intro l _ _ _ b; simp
  | cons i is ih =>
    intro l hs hl hi b
    have h0 := slice_char (hi i (by simp))
    rw [List.map_cons, insertAll_cons, ih (sep_pinsert hs h0.lt) (slice_pinsert hs hl h0) (fun x hx => hi x (by simp [hx]))]
    simp only [List.mem_cons, exists_eq_or_imp]
    constructor
    · rintro (h | h)
      · rcases pinsert_sound hs h with h | h
        · exact .inl h
        · exact .inr (.inl h)
      · exact .inr (.inr h)
    · rintro (h | h | h)
      · exact .inl (pinsert_mono hs h)
      · exact .inl (pinsert_char hs hl h)
      · exact .inr h

/-! ### Alignments found by V1 and V2 -/

theorem alignment_lt {R : Char → Char → Prop} {p s : List Char} {ps : List Nat} (h : Alignment R p s ps) :
    ∀ i ∈ ps, i < s.length := by
  intro i hi
  obtain ⟨q, _, c, hc, _⟩ := (forall₂_mem_right h.spells) i hi
  exact (List.getElem?_eq_some_iff.mp hc).1
where
  forall₂_mem_right {R : Char → Nat → Prop} {p : List Char} {ps : List Nat} (h : List.Forall₂ R p ps) :
      ∀ i ∈ ps, ∃ q ∈ p, R q i := by
    induction h with
    | nil => simp
    | cons h _ ih =>
      intro i hi
      rcases List.mem_cons.mp hi with rfl | hi
      · exact ⟨_, by simp, h⟩
      · obtain ⟨q, hq, hr⟩ := ih i hi
        exact ⟨q, by simp [hq], hr⟩

theorem result_fuzzy (hf : FuzzyFor q p) (hp : p.text ≠ []) : result U a st s q =
    match pureOf a (posBonus U st.scheme s) (st.eqOf p) p.text s with
    | none => ([], none)
    | some x => (x.1.map (charRange s), some x.2) := by
  rcases hf with rfl | ⟨rfl, hk, hi⟩
  · exact result_notExtended hp
  · rw [result_single]
    unfold patHit rawHit
    simp only [hk, hi, Bool.false_eq_true, if_false]
    cases pureOf a (posBonus U st.scheme s) (st.eqOf p) p.text s <;> rfl

theorem fuzzyFor_rel (hf : FuzzyFor q p) (hq : QueryOk U q) : rel (st.eqOf p) = Cmp U st p.text := by
  rcases hf with rfl | ⟨rfl, _, _⟩
  · exact rel_eqOf st (queryOk_upper hq).1
  · exact rel_eqOf st ((hq [p] (by simp)).2 p (by simp)).upper

/-- A fuzzy call that matches. -/
theorem fuzzy_call (h : Reachable U a m st) (hf : FuzzyFor q p) (hq : QueryOk U q) (hp : p.text ≠ [])
    {buf buf' : List Range} {d : FzfDistance} (hd : ReturnsRanges U m q s buf buf' (some d)) :
    ∃ x new, pureOf a (posBonus U st.scheme s) (st.eqOf p) p.text s = some x ∧ buf' = buf ++ new ∧
      (∀ b, Covers new b ↔ ∃ i ∈ x.1, (charRange s i).start ≤ b ∧ b < (charRange s i).stop) ∧
      d = FzfDistance.fromScore x.2 := by
  obtain ⟨rfl, h2⟩ := (returnsRanges_iff h hq).mp hd
  rw [result_fuzzy hf hp] at h2 ⊢
  cases hx : pureOf a (posBonus U st.scheme s) (st.eqOf p) p.text s with
  | none => rw [hx] at h2; simp at h2
  | some x =>
    rw [hx] at h2
    refine ⟨x, _, rfl, rfl, ?_, by simpa using h2⟩
    intro b
    rw [covers_def, insertAll_chars sep_nil (by simp) (pos_lt a hp hx)]
    simp

/-! ### Conditions -/

theorem patHit_none (h : PatternOk U p) : patHit U (pureOf a) st s p = none ↔ ¬ PatternMatches U st p s := by
  rw [← patHit_isSome (accepts a) h]; simp

theorem condHit_first {c : Condition} (hc : ∀ p ∈ c, PatternOk U p) (hf : FirstMatch U st s c p) :
    condHit U (pureOf a) st s c = patHit U (pureOf a) st s p := by
  obtain ⟨l, l', rfl, h1, h2⟩ := hf
  unfold condHit
  rw [List.findSome?_append, List.findSome?_eq_none_iff.mpr
    (fun x hx => (patHit_none (hc x (by simp [hx]))).mpr (h1 x hx))]
  have := (patHit_isSome (st := st) (s := s) (accepts a) (hc p (by simp))).mpr h2
  cases hp : patHit U (pureOf a) st s p with
  | none => rw [hp] at this; simp at this
  | some h => simp [List.findSome?_cons, hp]

theorem exists_firstMatch {c : Condition} (h : ∃ p ∈ c, PatternMatches U st p s) : ∃ p, FirstMatch U st s c p := by
  induction c with
  | nil => simp at h
  | cons p c ih =>
    by_cases hp : PatternMatches U st p s
    · exact ⟨p, [], c, rfl, by simp, hp⟩
    · obtain ⟨x, hx, hm⟩ := h
      have hx : x ∈ c := by
        rcases List.mem_cons.mp hx with rfl | hx
        · exact absurd hm hp
        · exact hx
      obtain ⟨x, l, l', rfl, h1, h2⟩ := ih ⟨x, hx, hm⟩
      refine ⟨x, p :: l, l', rfl, ?_, h2⟩
      intro y hy
      rcases List.mem_cons.mp hy with rfl | hy
      · exact hp
      · exact h1 y hy

theorem Spec.FirstMatch.mem {c : Condition} (h : FirstMatch U st s c p) : p ∈ c := by
  obtain ⟨l, l', rfl, _, _⟩ := h; simp

theorem Spec.FirstMatch.unique {c : Condition} {p' : Pattern} (h : FirstMatch U st s c p) (h' : FirstMatch U st s c p') :
    p = p' := by
  obtain ⟨l, l', rfl, h1, h2⟩ := h
  obtain ⟨k, k', he, h3, h4⟩ := h'
  rcases List.append_eq_append_iff.mp he with ⟨x, rfl, hx⟩ | ⟨x, rfl, hx⟩
  · cases x with
    | nil => simp at hx; exact hx.1
    | cons y x => simp at hx; exact absurd h2 (h3 p (by simp [hx.1]))
  · cases x with
    | nil => simp at hx; exact hx.1.symm
    | cons y x => simp at hx; exact absurd h4 (h1 p' (by simp [hx.1]))

/-- The ranges a pattern inserts: none, single characters, or one block. -/
theorem patHit_shape (hp : p.text ≠ []) {h : List Range × Int} (hh : patHit U (pureOf a) st s p = some h) :
    (p.isInverse = true ∧ h.1 = []) ∨
    (p.isInverse = false ∧ p.matchType = .fuzzy ∧ ∃ is : List Nat, (∀ i ∈ is, i < s.length) ∧ h.1 = is.map (charRange s)) ∨
    (p.isInverse = false ∧ p.matchType ≠ .fuzzy ∧ ∃ r, Slice s r ∧ h.1 = [r]) := by
  have hs := patHit_slice hp hh
  unfold patHit at hh
  split at hh
  · rename_i hi
    split at hh
    · simp at hh; subst hh; exact .inl ⟨hi, rfl⟩
    · simp at hh
  · rename_i hi
    have hi : p.isInverse = false := by simpa using hi
    have hblock : ∀ (o : Option Nat), o.map (fun a => ([byteRange s a (a + p.text.length)],
        alignScore (posBonus U st.scheme s) (List.range' a p.text.length))) = some h → ∃ r, h.1 = [r] := by
      intro o ho
      cases o with
      | none => simp at ho
      | some a => simp at ho; subst ho; exact ⟨_, rfl⟩
    have fin : p.matchType ≠ .fuzzy → (∃ r, h.1 = [r]) →
        (p.isInverse = false ∧ p.matchType ≠ .fuzzy ∧ ∃ r, Slice s r ∧ h.1 = [r]) := by
      rintro hk ⟨r, hr⟩
      exact ⟨hi, hk, r, hs r (by simp [hr]), hr⟩
    unfold rawHit at hh
    dsimp only at hh
    cases hm : p.matchType <;> rw [hm] at hh <;> simp only at hh
    · cases hx : pureOf a (posBonus U st.scheme s) (st.eqOf p) p.text s with
      | none => rw [hx] at hh; simp at hh
      | some x =>
        rw [hx] at hh; simp at hh; subst hh
        exact .inr (.inl ⟨hi, rfl, x.1, pos_lt a hp hx, rfl⟩)
    all_goals exact .inr (.inr (hm ▸ fin (by simp [hm]) (hblock _ hh)))

theorem covered_chars {is : List Nat} {b : Nat} : Covered (is.map (charRange s)) b ↔
    ∃ i ∈ is, (charRange s i).start ≤ b ∧ b < (charRange s i).stop := by
  simp [Covered]

/-- Alone, a pattern's ranges cover exactly what it inserts. -/
theorem patHit_alone (hp : p.text ≠ []) {h : List Range × Int} (hh : patHit U (pureOf a) st s p = some h) {b : Nat} :
    Covered (insertAll [] h.1) b ↔ Covered h.1 b := by
  rcases patHit_shape hp hh with ⟨_, h1⟩ | ⟨_, _, is, h1, h2⟩ | ⟨_, _, r, _, h1⟩
  · simp [h1]
  · rw [h2, insertAll_chars sep_nil (by simp) h1, covered_chars]; simp
  · simp [h1, pinsert]

theorem condsHit_append {cs₁ cs₂ : List Condition} (h : (condsHit U (pureOf a) st s cs₁).2.isSome = true) :
    condsHit U (pureOf a) st s (cs₁ ++ cs₂) =
      ((condsHit U (pureOf a) st s cs₁).1 ++ (condsHit U (pureOf a) st s cs₂).1,
        (condsHit U (pureOf a) st s cs₂).2.map ((condsHit U (pureOf a) st s cs₁).2.getD 0 + ·)) := by
  induction cs₁ with
  | nil => simp [condsHit]
  | cons c cs ih =>
    simp only [condsHit, List.cons_append] at h ⊢
    cases hc : condHit U (pureOf a) st s c with
    | none => rw [hc] at h; simp at h
    | some x =>
      rw [hc] at h
      simp only [Option.isSome_map] at h
      simp only [ih h]
      obtain ⟨y, hy⟩ := Option.isSome_iff_exists.mp h
      simp only [List.append_assoc, Option.map_map, hy, Option.map_some, Option.getD_some, Prod.mk.injEq, true_and]
      congr 1
      funext z
      simp [Int.add_assoc]

/-- When inserting the block `r` into `l` loses nothing. -/
theorem pinsert_block {l : List Range} {r : Range} (hs : Sep l)
    (hb : ∀ b b', r.start < b → b ≤ b' → b' < r.stop → Covered l b → Covered l b') {b : Nat}
    (h : r.start ≤ b ∧ b < r.stop) : Covered (pinsert l r) b := by
  refine pinsert_complete hs ?_ h.1 h.2
  intro x hx hlt
  by_contra hc
  have h1 := hs.1 x hx
  obtain ⟨y, hy, hy1, hy2⟩ := hb x.start x.stop hlt (by omega) (by omega) ⟨x, hx, by omega, h1⟩
  -- `y` covers the end of `x`
  have : x = y ∨ x.stop < y.start ∨ y.stop < x.start := by
    have hpw := hs.2
    clear hb hs
    induction l with
    | nil => simp at hx
    | cons z l ih =>
      obtain ⟨hz, hl⟩ := List.pairwise_cons.mp hpw
      rcases List.mem_cons.mp hx with hxz | hx' <;> rcases List.mem_cons.mp hy with hyz | hy'
      · exact .inl (hxz.trans hyz.symm)
      · subst hxz; exact .inr (.inl (hz y hy'))
      · subst hyz; exact .inr (.inr (hz x hx'))
      · exact ih hx' hy' hl
  rcases this with rfl | h2 | h2 <;> omega

/-- Whether inserting the ranges `rs` of the pattern `p` into `l` loses nothing. -/
def Gentle (l : List Range) (p : Pattern) (rs : List Range) : Prop :=
  p.isInverse = true ∨ p.matchType = .fuzzy ∨
    ∀ r ∈ rs, ∀ b b', r.start < b → b ≤ b' → b' < r.stop → Covered l b → Covered l b'

theorem insertAll_gentle {l : List Range} (hs : Sep l) (hl : ∀ r ∈ l, Slice s r) (hp : p.text ≠ [])
    {h : List Range × Int} (hh : patHit U (pureOf a) st s p = some h) (hg : Gentle l p h.1) {b : Nat} :
    Covered (insertAll l h.1) b ↔ Covered l b ∨ Covered h.1 b := by
  rcases patHit_shape hp hh with ⟨_, h1⟩ | ⟨_, _, is, h1, h2⟩ | ⟨h0, h0', r, hr, h1⟩
  · simp [h1]
  · rw [h2, insertAll_chars hs hl h1, covered_chars]
  · rcases hg with hg | hg | hg
    · simp [h0] at hg
    · exact absurd hg h0'
    · rw [h1] at hg ⊢
      have hg := hg r (by simp)
      simp only [insertAll_cons, insertAll_nil, covered_cons, covered_nil, or_false]
      constructor
      · exact pinsert_sound hs
      · rintro (h | h)
        · exact pinsert_mono hs h
        · exact pinsert_block hs hg h

theorem firstMatch_hit {c : Condition} (hc : ∀ p ∈ c, PatternOk U p) (hf : FirstMatch U st s c p) :
    ∃ h, patHit U (pureOf a) st s p = some h ∧ condHit U (pureOf a) st s c = some h := by
  have h1 := (patHit_isSome (st := st) (s := s) (accepts a) (hc p hf.mem)).mpr (by
    obtain ⟨_, _, _, _, h⟩ := hf; exact h)
  obtain ⟨h, hh⟩ := Option.isSome_iff_exists.mp h1
  exact ⟨h, hh, by rw [condHit_first hc hf, hh]⟩

theorem union_aux : ∀ (cs₂ cs₁ : List Condition) (ps : List Pattern),
    (∀ c ∈ cs₁ ++ cs₂, ∀ p ∈ c, PatternOk U p) →
    (condsHit U (pureOf a) st s cs₁).2.isSome = true →
    List.Forall₂ (FirstMatch U st s) cs₂ ps →
    (∀ (l₁ : List Condition) (c : Condition) (l₂ : List Condition) (p : Pattern) (h : List Range × Int), cs₂ = l₁ ++ c :: l₂ → FirstMatch U st s c p →
      patHit U (pureOf a) st s p = some h → Gentle (insertAll [] (condsHit U (pureOf a) st s (cs₁ ++ l₁)).1) p h.1) →
    ∀ b, Covered (insertAll [] (condsHit U (pureOf a) st s (cs₁ ++ cs₂)).1) b ↔
      Covered (insertAll [] (condsHit U (pureOf a) st s cs₁).1) b ∨
        ∃ p ∈ ps, ∃ h, patHit U (pureOf a) st s p = some h ∧ Covered h.1 b := by
  intro cs₂
  induction cs₂ with
  | nil =>
    intro cs₁ ps _ _ hps _ b
    cases hps
    simp
  | cons c cs₂ ih =>
    intro cs₁ ps hok h1 hps hg b
    cases hps with
    | @cons _ p _ ps hf hps =>
      have hcok := hok c (by simp)
      obtain ⟨h, hh, hch⟩ := firstMatch_hit (a := a) hcok hf
      have hc : condsHit U (pureOf a) st s [c] = (h.1, some h.2) := by simp [condsHit, hch]
      have happ := condsHit_append (cs₂ := [c]) h1
      rw [hc] at happ
      have hsl : ∀ r ∈ (condsHit U (pureOf a) st s cs₁).1, Slice s r :=
        condsHit_slice (fun c hc p hp => (hok c (by simp [hc]) p hp).1)
      have hsep : Sep (insertAll [] (condsHit U (pureOf a) st s cs₁).1) :=
        sep_insertAll sep_nil (fun r hr => (hsl r hr).lt)
      have hsl' := insertAll_slice sep_nil (by simp) hsl
      have h2 : (condsHit U (pureOf a) st s (cs₁ ++ [c])).2.isSome = true := by rw [happ]; rfl
      have e : cs₁ ++ c :: cs₂ = cs₁ ++ [c] ++ cs₂ := by simp
      rw [e, ih (cs₁ ++ [c]) ps (by rw [← e]; exact hok) h2 hps ?_ b, happ, insertAll_append,
        insertAll_gentle hsep hsl' (hcok p hf.mem).1 hh
          (by have := hg [] c cs₂ p h rfl hf hh; simpa using this)]
      · simp only [List.mem_cons, exists_eq_or_imp]
        constructor
        · rintro ((h3 | h3) | h3)
          · exact .inl h3
          · exact .inr (.inl ⟨h, hh, h3⟩)
          · exact .inr (.inr h3)
        · rintro (h3 | ⟨h', hh', h3⟩ | h3)
          · exact .inl (.inl h3)
          · rw [hh] at hh'; cases hh'; exact .inl (.inr h3)
          · exact .inr h3
      · intro l₁ c' l₂ p' h' he hf' hh'
        have := hg (c :: l₁) c' l₂ p' h' (by rw [he]; rfl) hf' hh'
        simpa using this

theorem condsHit_ranges {cs : List Condition} {ps : List Pattern} (hok : ∀ c ∈ cs, ∀ p ∈ c, PatternOk U p)
    (hps : List.Forall₂ (FirstMatch U st s) cs ps) :
    (condsHit U (pureOf a) st s cs).1 = (ps.map (fun p => ((patHit U (pureOf a) st s p).getD ([], 0)).1)).flatten ∧
    (condsHit U (pureOf a) st s cs).2 = some ((ps.map (fun p => ((patHit U (pureOf a) st s p).getD ([], 0)).2)).sum) := by
  induction hps with
  | nil => simp [condsHit]
  | cons hf _ ih =>
    obtain ⟨h, hh, hch⟩ := firstMatch_hit (a := a) (hok _ (by simp)) hf
    obtain ⟨h1, h2⟩ := ih (fun c hc => hok c (by simp [hc]))
    simp [condsHit, hch, h1, h2, hh]

/-- The calls for the single patterns. -/
theorem single_call (h : Reachable U a m st) (hp : PatternOk U p) (hm : PatternMatches U st p s) {buf buf' : List Range}
    {d : Option FzfDistance} (hd : ReturnsRanges U m (single p) s buf buf' d) :
    ∃ x, patHit U (pureOf a) st s p = some x ∧ buf' = buf ++ insertAll [] x.1 ∧ d = some (FzfDistance.fromScore x.2) := by
  obtain ⟨x, hx⟩ := Option.isSome_iff_exists.mp ((patHit_isSome (st := st) (s := s) (accepts a) hp).mpr hm)
  obtain ⟨rfl, rfl⟩ := (returnsRanges_iff h (queryOk_single hp)).mp hd
  exact ⟨x, hx, by rw [result_single, hx], by rw [result_single, hx]; rfl⟩

/-! ### Blocks -/

theorem occursAt_of_pmatch {eq : CharEq} {p : List Char} {i : Nat} (hi : i ≤ s.length)
    (h : pmatch eq p (s.drop i) = true) : OccursAt (rel eq) p s i := occursAt_iff.mpr ⟨hi, h⟩

/-- Where the block of a matching non-fuzzy pattern is. -/
theorem block_hit (hk : p.matchType ≠ .fuzzy) (hp : PatternOk U p) {h : List Range × Int}
    (hh : rawHit U (pureOf a) st s p = some h) :
    ∃ i, OccursAt (Cmp U st p.text) p.text s i ∧
      h = ([byteRange s i (i + p.text.length)],
        alignScore (posBonus U st.scheme s) (List.range' i p.text.length)) ∧
      (p.matchType = .prefixExact ∨ p.matchType = .equalExact → i + leading p.text = leading s) ∧
      (p.matchType = .suffixExact ∨ p.matchType = .equalExact →
        s.length - (i + p.text.length) + trailing p.text = trailing s) ∧
      (p.matchType = .exact → exactPos U st.scheme.intoInner (st.eqOf p) p s = some i) := by
  have hr := rel_eqOf st hp.upper
  have hlead := hp.lead
  have htrail := hp.trail
  rw [← hr]
  unfold rawHit at hh
  dsimp only at hh
  have key : ∀ o : Option Nat, o.map (fun a => ([byteRange s a (a + p.text.length)],
        alignScore (posBonus U st.scheme s) (List.range' a p.text.length))) = some h → ∃ i, o = some i ∧
        h = ([byteRange s i (i + p.text.length)],
        alignScore (posBonus U st.scheme s) (List.range' i p.text.length)) := by
    intro o ho
    cases o with
    | none => simp at ho
    | some i => simp at ho; exact ⟨i, rfl, ho.symm⟩
  have htl := trailing_le s
  have hll := leading_le s
  cases hm : p.matchType <;> rw [hm] at hh <;> simp only at hh
  · exact absurd hm hk
  · obtain ⟨i, hi, rfl⟩ := key _ hh
    exact ⟨i, exactPos_occurs hp.1 hi, rfl, by simp, by simp, fun _ => hi⟩
  · obtain ⟨i, hi, rfl⟩ := key _ hh
    refine ⟨i, ?_, rfl, ?_, by simp, by simp⟩
    all_goals
      unfold prefixPos at hi
      simp only [takeWhile_beq_leading, hlead] at hi
      split at hi
      · rename_i hc
        simp only [Option.some.injEq] at hi
        subst hi
        first
        | exact occursAt_of_pmatch (by omega) hc.2
        | exact fun _ => by omega
      · simp at hi
  · obtain ⟨i, hi, rfl⟩ := key _ hh
    refine ⟨i, ?_, rfl, by simp, ?_, by simp⟩
    all_goals
      unfold suffixPos at hi
      simp only [takeWhile_beq_trailing, htrail] at hi
      split at hi
      · rename_i hc
        simp only [Option.some.injEq] at hi
        subst hi
        first
        | refine occursAt_of_pmatch (by omega) ?_
          obtain ⟨_, hc1, hc2⟩ := hc
          rw [← pmatch_take]
          rw [List.drop_take] at hc2
          have : s.length - (trailing s - trailing p.text) - (s.length - (trailing s - trailing p.text) - p.text.length)
            = p.text.length := by omega
          rw [this] at hc2
          exact hc2
        | exact fun _ => by omega
      · simp at hi
  · obtain ⟨i, hi, rfl⟩ := key _ hh
    refine ⟨i, ?_, rfl, ?_, ?_, by simp⟩
    all_goals
      unfold equalPos at hi
      simp only [takeWhile_beq_leading, takeWhile_beq_trailing, hlead, htrail] at hi
      split at hi
      · rename_i hc
        simp only [Option.some.injEq] at hi
        subst hi
        obtain ⟨hc1, hc2, hc3, hc4⟩ := hc
        have htr : leading s.reverse = trailing s := rfl
        first
        | exact occursAt_of_pmatch (by omega) hc4
        | exact fun _ => by omega
      · simp at hi

end Norm
