import Verif.Proofs.Local
import Verif.Proofs.Closest
import Verif.Proofs.Outcome
import Verif.Proofs.Families

/-!
# Spaces around a candidate: helper lemmas
-/

namespace Norm

open Spec

/-! ### Inserting ranges that are further on -/

theorem glueAfter_further (n : Nat) (o : Option Range) (l : List Range) (r : Range) :
    glueAfter (o.map (further n)) (l.map (further n)) (further n r) = (glueAfter o l r).map (further n) := by
  have hmax : ∀ x y : Nat, max (n + x) (n + y) = n + max x y := fun x y => by omega
  rcases o with _ | x <;> rcases l with _ | ⟨y, l⟩ <;>
    simp only [glueAfter, further, Option.map_some, Option.map_none, List.map_cons, List.map_nil, ge_iff_le, gt_iff_lt,
      Nat.add_le_add_iff_left, Nat.add_lt_add_iff_left, hmax] <;> repeat' split
  all_goals rfl

theorem glueFound_further (n : Nat) (x : Range) (l : List Range) (r : Range) :
    glueFound (further n x) (l.map (further n)) (further n r) = (glueFound x l r).map (further n) := by
  rcases l with _ | ⟨y, l⟩ <;>
    simp only [glueFound, further, List.map_cons, List.map_nil, ge_iff_le, Nat.add_le_add_iff_left] <;> repeat' split
  all_goals rfl

theorem pinsert_further (n : Nat) (l : List Range) (r : Range) :
    pinsert (l.map (further n)) (further n r) = (pinsert l r).map (further n) := by
  induction l with
  | nil => rfl
  | cons x l ih =>
    have h1 := glueAfter_further n none (x :: l) r
    have h2 := glueFound_further n x l r
    have h3 := glueAfter_further n (some x) l r
    rw [List.map_cons]
    unfold pinsert
    have e1 : (further n r).start < (further n x).start ↔ r.start < x.start := by simp only [further]; omega
    have e2 : (further n x).start = (further n r).start ↔ x.start = r.start := by simp only [further]; omega
    simp only [e1, e2]
    split
    · exact h1
    · split
      · exact h2
      · cases l with
        | nil => exact h3
        | cons y l =>
          have e3 : (further n r).start < (further n y).start ↔ r.start < y.start := by simp only [further]; omega
          simp only [List.map_cons, e3]
          split
          · exact h3
          · rw [List.map_cons, ← ih, List.map_cons]

theorem insertAll_further (n : Nat) (rs l : List Range) :
    insertAll (l.map (further n)) (rs.map (further n)) = (insertAll l rs).map (further n) := by
  induction rs generalizing l with
  | nil => rfl
  | cons r rs ih => rw [List.map_cons, insertAll_cons, pinsert_further, ih, insertAll_cons]

/-! ### Occurrences -/

section
variable {R : Char → Char → Prop} {p s w z : List Char}

theorem occursAt_iff_get {i : Nat} (hp : p ≠ []) : OccursAt R p s i ↔ ∀ k q, p[k]? = some q → At R s q (i + k) := by
  refine ⟨occursAt_get, fun h => ?_⟩
  have hlen : i + p.length ≤ s.length := by
    have hpos := List.length_pos_of_ne_nil hp
    obtain ⟨c, hc, _⟩ := h (p.length - 1) p[p.length - 1] (by simp)
    have := (List.getElem?_eq_some_iff.mp hc).1
    omega
  refine ⟨s.take i, (s.drop i).take p.length, s.drop (i + p.length), ?_, by rw [List.length_take]; omega, ?_⟩
  · rw [List.append_assoc, ← List.drop_drop, List.take_append_drop, List.take_append_drop]
  · rw [List.forall₂_iff_get]
    refine ⟨by simp only [List.length_take, List.length_drop]; omega, fun k h1 h2 => ?_⟩
    obtain ⟨c, hc, hr⟩ := h k p[k] (by simp)
    simp only [List.get_eq_getElem, List.getElem_take, List.getElem_drop]
    rw [(List.getElem?_eq_some_iff.mp hc).2]
    exact hr

/-- What stands in the middle of a longer candidate. -/
theorem getElem?_mid {i : Nat} (hi : i < s.length) : (w ++ s ++ z)[w.length + i]? = s[i]? := by
  rw [List.append_assoc, List.getElem?_append_right (by omega), Nat.add_sub_cancel_left, List.getElem?_append_left hi]

theorem getElem?_before {i : Nat} (hi : i < w.length) : (w ++ s ++ z)[i]? = w[i]? := by
  rw [List.append_assoc, List.getElem?_append_left hi]

theorem getElem?_behind {i : Nat} (hi : w.length + s.length ≤ i) : (w ++ s ++ z)[i]? = z[i - (w.length + s.length)]? := by
  rw [List.getElem?_append_right (by rw [List.length_append]; exact hi), List.length_append]

theorem occursAt_mid (hp : p ≠ []) (hw : ∀ c ∈ w, ∀ f, p.head? = some f → ¬ R f c)
    (hz : ∀ c ∈ z, ∀ l, p.getLast? = some l → ¬ R l c) {j : Nat} :
    OccursAt R p (w ++ s ++ z) j ↔ ∃ i, j = w.length + i ∧ OccursAt R p s i := by
  have hpos := List.length_pos_of_ne_nil hp
  constructor
  · intro h
    have hg := occursAt_get h
    have h1 : w.length ≤ j := by
      by_contra hcon
      obtain ⟨c, hc, hr⟩ := hg 0 p[0] (by simp)
      rw [Nat.add_zero, getElem?_before (by omega)] at hc
      exact hw c (List.mem_of_getElem? hc) p[0] (by rw [List.head?_eq_getElem?]; simp) hr
    have h2 : j + p.length ≤ w.length + s.length := by
      by_contra hcon
      obtain ⟨c, hc, hr⟩ := hg (p.length - 1) p[p.length - 1] (by simp)
      rw [getElem?_behind (by omega)] at hc
      exact hz c (List.mem_of_getElem? hc) p[p.length - 1] (by rw [List.getLast?_eq_getElem?]; simp) hr
    refine ⟨j - w.length, by omega, (occursAt_iff_get hp).mpr fun k q hk => ?_⟩
    have hk' := (List.getElem?_eq_some_iff.mp hk).1
    obtain ⟨c, hc, hr⟩ := hg k q hk
    rw [show j + k = w.length + (j - w.length + k) by omega, getElem?_mid (by omega)] at hc
    exact ⟨c, hc, hr⟩
  · rintro ⟨i, rfl, h⟩
    obtain ⟨x, m, y, rfl, rfl, hm⟩ := h
    exact ⟨w ++ x, m, y ++ z, by simp, by simp, hm⟩

/-! ### The classes that the search for an exact pattern goes by -/

theorem matchLen_mid {i l : Nat} (h : MatchLen R p s i l) (hl : i + l < s.length) : MatchLen R p (w ++ s ++ z) (w.length + i) l := by
  refine ⟨fun k hk => ?_, fun q c hq hc => ?_⟩
  · rw [Nat.add_assoc, getElem?_mid (by omega)]
    exact h.1 k hk
  · rw [Nat.add_assoc, getElem?_mid (by omega)] at hc
    exact h.2 q c hq hc

theorem seen_step {U : Unicode} {S : FzfScheme} {seen seen' : Nat → CharClass} (h : SeenBy U S R p s seen)
    (h' : SeenBy U S R p (w ++ s ++ z) seen') (hpos : 0 < p.length) {i : Nat} (ih : seen' (w.length + i) = seen i)
    (hi : i + 1 + p.length ≤ s.length) : seen' (w.length + (i + 1)) = seen (i + 1) := by
  obtain ⟨l, hl⟩ := exists_matchLen (R := R) p s i
  have hlp := matchLen_le hl
  have hl' := matchLen_mid (w := w) (z := z) hl (by omega)
  have hc : s[i]? = some s[i] := by simp
  rcases Nat.eq_zero_or_pos l with rfl | hl0
  · rw [h.skip i s[i] hc hl]
    exact h'.skip (w.length + i) s[i] (by rw [getElem?_mid (by omega), hc]) hl'
  · rcases Nat.lt_or_ge 1 p.length with h2 | h2
    · have hd : s[i + min l (p.length - 1) - 1]? = some s[i + min l (p.length - 1) - 1] := by simp
      rw [h.more i l _ hl hl0 h2 hd]
      refine h'.more (w.length + i) l _ hl' hl0 h2 ?_
      rw [show w.length + i + min l (p.length - 1) - 1 = w.length + (i + min l (p.length - 1) - 1) by omega,
        getElem?_mid (by omega), hd]
    · have : l = 1 := by omega
      subst this
      rw [h.one i _ hc hl (by omega), ← ih]
      exact h'.one (w.length + i) s[i] (by rw [getElem?_mid (by omega), hc]) hl' (by omega)

theorem seen_mid {U : Unicode} {S : FzfScheme} {seen seen' : Nat → CharClass} (hp : p ≠ [])
    (hw : ∀ c ∈ w, ∀ f, p.head? = some f → ¬ R f c) (hc : ∀ c, w.getLast? = some c → classOf U S c = initialClass S)
    (h : SeenBy U S R p s seen) (h' : SeenBy U S R p (w ++ s ++ z) seen') :
    ∀ i, i + p.length ≤ s.length → seen' (w.length + i) = seen i := by
  have hpos := List.length_pos_of_ne_nil hp
  intro i
  induction i with
  | zero =>
    intro _
    rw [h.start, Nat.add_zero]
    rcases List.eq_nil_or_concat w with rfl | ⟨v, c, rfl⟩
    · exact h'.start
    · rw [List.concat_eq_append] at hw hc h' ⊢
      have he : (v ++ [c] ++ s ++ z)[v.length]? = some c := by simp
      rw [List.length_append, List.length_singleton, h'.skip v.length c he ⟨fun k hk => by omega, fun q x hq hx => ?_⟩]
      · exact hc c (by simp)
      · rw [Nat.add_zero, he, Option.some.injEq] at hx
        subst hx
        exact hw c (by simp) q (by rw [List.head?_eq_getElem?]; exact hq)
  | succ i ih =>
    intro hi
    exact seen_step h h' (by omega) (ih (by omega)) hi

theorem bestPlaced_mid {B B' : Nat → Int} (hp : p ≠ []) (hw : ∀ c ∈ w, ∀ f, p.head? = some f → ¬ R f c)
    (hz : ∀ c ∈ z, ∀ l, p.getLast? = some l → ¬ R l c) (hB : ∀ i, OccursAt R p s i → B' (w.length + i) = B i) {i : Nat}
    (h : BestPlaced B' R p (w ++ s ++ z) (w.length + i)) : BestPlaced B R p s i := by
  obtain ⟨h1, h2⟩ := h
  have hmid : ∀ i, OccursAt R p (w ++ s ++ z) (w.length + i) ↔ OccursAt R p s i := by
    intro i
    rw [occursAt_mid hp hw hz]
    constructor
    · rintro ⟨j, hj, ho⟩
      obtain rfl : i = j := by omega
      exact ho
    · exact fun ho => ⟨i, rfl, ho⟩
  rw [hmid] at h1
  refine ⟨h1, ?_⟩
  rw [hB i h1] at h2
  refine h2.imp (fun h2 => ⟨h2.1, fun j hj ho => ?_⟩) fun h2 j ho => ?_
  · have := h2.2 (w.length + j) (by omega) ((hmid j).mpr ho)
    rwa [hB j ho] at this
  · have := h2 (w.length + j) ((hmid j).mpr ho)
    rw [hB j ho] at this
    exact ⟨this.1, this.2.1, fun hj => this.2.2 (by omega)⟩

end

/-! ### Spaces -/

theorem leading_spaces (w s : List Char) (hw : ∀ c ∈ w, c = ' ') : leading (w ++ s) = w.length + leading s := by
  induction w with
  | nil => simp
  | cons c w ih =>
    have := hw c (by simp)
    subst this
    have ih := ih fun c hc => hw c (by simp [hc])
    unfold leading at ih ⊢
    rw [List.cons_append, List.takeWhile_cons, if_pos (by simp), List.length_cons, List.length_cons, ih]
    omega

theorem leading_text (s z : List Char) (hs : ∃ c ∈ s, c ≠ ' ') : leading (s ++ z) = leading s := by
  induction s with
  | nil => obtain ⟨c, hc, _⟩ := hs; cases hc
  | cons c s ih =>
    by_cases h : c = ' '
    · have ih := ih (by
        obtain ⟨x, hx, hne⟩ := hs
        rcases List.mem_cons.mp hx with rfl | hx
        · exact absurd h hne
        · exact ⟨x, hx, hne⟩)
      subst h
      unfold leading at ih ⊢
      rw [List.cons_append, List.takeWhile_cons, List.takeWhile_cons, if_pos (by simp), if_pos (by simp), List.length_cons,
        List.length_cons, ih]
    · unfold leading
      rw [List.cons_append, List.takeWhile_cons, List.takeWhile_cons, if_neg (by simpa using h), if_neg (by simpa using h)]

theorem leading_padded {w s z : List Char} (hw : ∀ c ∈ w, c = ' ') (hs : ∃ c ∈ s, c ≠ ' ') :
    leading (w ++ s ++ z) = w.length + leading s := by
  rw [List.append_assoc, leading_spaces _ _ hw, leading_text _ _ hs]

theorem trailing_padded {w s z : List Char} (hz : ∀ c ∈ z, c = ' ') (hs : ∃ c ∈ s, c ≠ ' ') :
    trailing (w ++ s ++ z) = z.length + trailing s := by
  unfold trailing
  rw [List.reverse_append, List.reverse_append, ← List.append_assoc, leading_padded (fun c hc => hz c (by simpa using hc)) (by simpa using hs),
    List.length_reverse]

theorem leading_zero {p : List Char} (h : p.head? ≠ some ' ') : leading p = 0 := by
  cases p with
  | nil => rfl
  | cons c p =>
    unfold leading
    rw [List.takeWhile_cons, if_neg (by simpa using h)]
    rfl

theorem trailing_zero {p : List Char} (h : p.getLast? ≠ some ' ') : trailing p = 0 :=
  leading_zero (by rwa [List.head?_reverse])

theorem cmp_space_right {U : Unicode} {st : Settings} {t : List Char} {f : Char} (h : Cmp U st t f ' ') : f = ' ' := by
  unfold Cmp CharMatches at h
  rcases h with h | ⟨_, t, ht, _⟩
  · unfold fold at h
    split at h
    · exact h
    · exact (lower_space f).mp h
  · exact absurd ht (space_plain t)

/-- The spaces `w` before and `z` behind a candidate, and the text `t` of a pattern that neither begins nor ends with a space. Before a
candidate they can stand when its first character is taken to be preceded by white space. -/
structure Pads (S : FzfScheme) (w z t : List Char) : Prop where
  before : ∀ c ∈ w, c = ' '
  behind : ∀ c ∈ z, c = ' '
  head : t.head? ≠ some ' '
  last : t.getLast? ≠ some ' '
  start : S ≠ .path ∨ w = []

section
variable {U : Unicode} {a : Algo} {st : Settings} {p : Pattern} {s w z : List Char}

theorem Pads.notHead (h : Pads st.scheme w z p.text) : ∀ c ∈ w, ∀ f, p.text.head? = some f → ¬ Cmp U st p.text f c := by
  intro c hc f hf hr
  rw [h.before c hc] at hr
  rw [cmp_space_right hr] at hf
  exact h.head hf

theorem Pads.notLast (h : Pads st.scheme w z p.text) : ∀ c ∈ z, ∀ f, p.text.getLast? = some f → ¬ Cmp U st p.text f c := by
  intro c hc f hf hr
  rw [h.behind c hc] at hr
  rw [cmp_space_right hr] at hf
  exact h.last hf

theorem Pads.cls {t : List Char} {S : FzfScheme} (h : Pads S w z t) : ∀ c, w.getLast? = some c → classOf U S c = initialClass S := by
  intro c hc
  rw [h.before c (List.mem_of_getLast? hc), space_class]
  rcases h.start with h | h
  · cases S
    · rfl
    · exact absurd rfl h
    · rfl
  · subst h
    cases hc

theorem Pads.bonus_start {t : List Char} {S : FzfScheme} (h : Pads S w z t) (s : List Char) :
    posBonus U S (w ++ s) w.length = posBonus U S s 0 := by
  unfold posBonus classBefore
  rw [List.getElem?_append_right (Nat.le_refl _), Nat.sub_self, List.take_left' rfl, List.take_zero]
  cases hl : w.getLast? with
  | none => rfl
  | some c => simp only [h.cls (U := U) c hl]; rfl

theorem Pads.bonus {t : List Char} {S : FzfScheme} (h : Pads S w z t) {i : Nat} (hi : i < s.length) :
    posBonus U S (w ++ s ++ z) (w.length + i) = posBonus U S s i := by
  rw [posBonus_append U S (w ++ s) z (by rw [List.length_append]; omega)]
  rcases Nat.eq_zero_or_pos i with rfl | h0
  · exact h.bonus_start s
  · exact posBonus_before U S w s hi h0

theorem text_notSpace {t : List Char} (ht : t ≠ []) (hh : t.head? ≠ some ' ') {i : Nat} (h : OccursAt (Cmp U st t) t s i) :
    ∃ c ∈ s, c ≠ ' ' := by
  obtain ⟨q, qs, rfl⟩ := List.exists_cons_of_ne_nil ht
  obtain ⟨c, hc, hr⟩ := occursAt_get h 0 q rfl
  refine ⟨c, List.mem_of_getElem? hc, ?_⟩
  rintro rfl
  exact hh (by rw [cmp_space_right hr]; rfl)

theorem blockAt_pad (hp : PatternOk U p) (h : Pads st.scheme w z p.text) {j : Nat}
    (hb : BlockAt U st.scheme (Cmp U st p.text) p.text (w ++ s ++ z) p.matchType j) :
    ∃ i, j = w.length + i ∧ BlockAt U st.scheme (Cmp U st p.text) p.text s p.matchType i := by
  have hmid : ∀ j, OccursAt (Cmp U st p.text) p.text (w ++ s ++ z) j → _ := fun j => (occursAt_mid hp.1 h.notHead h.notLast).mp
  have hl0 := leading_zero h.head
  have ht0 := trailing_zero h.last
  cases hk : p.matchType <;> rw [hk] at hb <;> simp only [BlockAt] at hb ⊢
  · obtain ⟨seen', hs', hb⟩ := hb
    obtain ⟨i, rfl, ho⟩ := hmid _ hb.1
    obtain ⟨q, qs, hq⟩ := List.exists_cons_of_ne_nil hp.1
    have hs := seenCls_ok (U := U) (eq := st.eqOf p) st.scheme q qs s
    rw [← hq, rel_eqOf st hp.upper] at hs
    refine ⟨i, rfl, _, hs, bestPlaced_mid hp.1 h.notHead h.notLast (fun i ho => ?_) hb⟩
    have hle := occursAt_lt ho
    have hpos := List.length_pos_of_ne_nil hp.1
    unfold seenBonus
    rw [getElem?_mid (by omega), seen_mid hp.1 h.notHead h.cls hs hs' i hle]
  all_goals
    obtain ⟨i, rfl, ho⟩ := hmid _ hb.1
    have hn := text_notSpace hp.1 h.head ho
    have hle := occursAt_lt ho
    have h1 := leading_padded (z := z) h.before hn
    have h2 := trailing_padded (w := w) h.behind hn
    have h3 : (w ++ s ++ z).length = w.length + s.length + z.length := by rw [List.length_append, List.length_append]
    have hb2 := hb.2
    refine ⟨i, rfl, ho, ?_⟩
    omega

theorem matches_pad (hp : PatternOk U p) (h : Pads st.scheme w z p.text) {i : Nat}
    (hb : BlockAt U st.scheme (Cmp U st p.text) p.text s p.matchType i) : RawMatches U st p (w ++ s ++ z) := by
  have hmid : ∀ i, OccursAt (Cmp U st p.text) p.text s i → OccursAt (Cmp U st p.text) p.text (w ++ s ++ z) (w.length + i) :=
    fun i hi => (occursAt_mid hp.1 h.notHead h.notLast).mpr ⟨i, rfl, hi⟩
  have hl0 := leading_zero h.head
  have ht0 := trailing_zero h.last
  cases hk : p.matchType with
  | fuzzy => rw [hk] at hb; exact hb.elim
  | exact =>
    rw [hk] at hb
    obtain ⟨_, _, hb⟩ := hb
    unfold RawMatches
    rw [hk]
    exact ⟨_, hmid i hb.1⟩
  | _ =>
    refine blockAt_matches (i := w.length + i) ?_
    rw [hk] at hb ⊢
    simp only [BlockAt] at hb ⊢
    have hn := text_notSpace hp.1 h.head hb.1
    have hle := occursAt_lt hb.1
    have h1 := leading_padded (z := z) h.before hn
    have h2 := trailing_padded (w := w) h.behind hn
    have h3 : (w ++ s ++ z).length = w.length + s.length + z.length := by rw [List.length_append, List.length_append]
    have hb2 := hb.2
    refine ⟨hmid i hb.1, ?_⟩
    omega

theorem byteRange_pad {i j : Nat} (hi : i ≤ s.length) (hj : j ≤ s.length) :
    byteRange (w ++ s ++ z) (w.length + i) (w.length + j) = further (byteLen w) (byteRange s i j) := by
  have : ∀ i ≤ s.length, byteLen ((w ++ s ++ z).take (w.length + i)) = byteLen w + byteLen (s.take i) := by
    intro i hi
    rw [List.append_assoc, List.take_append, List.take_of_length_le (by omega : w.length ≤ w.length + i), Nat.add_sub_cancel_left,
      byteLen_append, List.take_append_of_le_length hi]
  unfold byteRange further
  rw [this i hi, this j hj]

/-- What is found, `n` bytes further. -/
def hitFurther (n : Nat) (h : List Range × Int) : List Range × Int := (h.1.map (further n), h.2)

theorem pure_pad (hp : p.text ≠ []) (hr : rel (st.eqOf p) = Cmp U st p.text) (h : Pads st.scheme w z p.text) :
    pureOf a (posBonus U st.scheme (w ++ s ++ z)) (st.eqOf p) p.text (w ++ s ++ z) =
      (pureOf a (posBonus U st.scheme s) (st.eqOf p) p.text s).map (fun x => (x.1.map (w.length + ·), x.2)) := by
  have hw : ∀ c ∈ w, st.eqOf p (p.text.headD 'a') c = false := by
    intro c hc
    have := h.notHead (U := U) c hc (p.text.headD 'a') (by
      obtain ⟨x, xs, hx⟩ := List.exists_cons_of_ne_nil hp
      rw [hx]
      rfl)
    rw [← hr] at this
    simpa [rel] using this
  have hz : ∀ c ∈ z, st.eqOf p (p.text.getLastD 'a') c = false := by
    intro c hc
    have := h.notLast (U := U) c hc (p.text.getLastD 'a') (by
      rw [List.getLastD_eq_getLast?, List.getLast?_eq_some_getLast hp]
      rfl)
    rw [← hr] at this
    simpa [rel] using this
  cases a with
  | v1 =>
    exact (v1Result_after hp hz fun i hi => posBonus_append U st.scheme (w ++ s) z hi).trans
      (v1Result_before hp hw (.inr (h.bonus_start s)) fun i hi hi0 => posBonus_before U st.scheme w s hi hi0)
  | v2 =>
    exact (v2Result_after hp hz fun i hi => posBonus_append U st.scheme (w ++ s) z hi).trans
      (v2Result_before hp hw (.inr (h.bonus_start s)) fun i hi hi0 => posBonus_before U st.scheme w s hi hi0)

theorem charRanges_pad {is : List Nat} (h : ∀ i ∈ is, i < s.length) :
    (is.map (w.length + ·)).map (charRange (w ++ s ++ z)) = (is.map (charRange s)).map (further (byteLen w)) := by
  rw [List.map_map, List.map_map]
  refine List.map_congr_left fun i hi => ?_
  have := h i hi
  simp only [Function.comp, charRange]
  rw [Nat.add_assoc, byteRange_pad (by omega) (by omega)]

theorem rawHit_pad (hp : PatternOk U p) (h : Pads st.scheme w z p.text) :
    rawHit U (pureOf a) st (w ++ s ++ z) p = (rawHit U (pureOf a) st s p).map (hitFurther (byteLen w)) := by
  by_cases hk : p.matchType = .fuzzy
  · unfold rawHit
    simp only [hk]
    rw [pure_pad hp.1 (rel_eqOf st hp.upper) h]
    cases hx : pureOf a (posBonus U st.scheme s) (st.eqOf p) p.text s with
    | none => rfl
    | some x =>
      simp only [Option.map_some, hitFurther]
      rw [charRanges_pad (pos_lt a hp.1 hx)]
  · cases h1 : rawHit U (pureOf a) st (w ++ s ++ z) p with
    | none =>
      cases h2 : rawHit U (pureOf a) st s p with
      | none => rfl
      | some y =>
        obtain ⟨i, hb, _⟩ := rawHit_block hk hp h2
        have := (rawHit_isSome (accepts a) hp).mpr (matches_pad hp h hb)
        rw [h1] at this
        cases this
    | some x =>
      obtain ⟨j, hj, _, rfl⟩ := rawHit_block hk hp h1
      obtain ⟨i, rfl, hb⟩ := blockAt_pad hp h hj
      clear hj
      cases h2 : rawHit U (pureOf a) st s p with
      | none =>
        have := (rawHit_isSome (accepts a) hp).mpr (blockAt_matches hb)
        rw [h2] at this
        cases this
      | some y =>
        obtain ⟨i', hb', hle, rfl⟩ := rawHit_block hk hp h2
        obtain rfl := blockAt_unique hp hb hb'
        simp only [Option.map_some, hitFurther, List.map_cons, List.map_nil]
        rw [Nat.add_assoc, byteRange_pad (by omega) hle, ← List.map_add_range', alignScore_shift]
        intro j hj
        rw [List.mem_range'_1] at hj
        exact h.bonus (by omega)

theorem patHit_pad (hp : PatternOk U p) (h : Pads st.scheme w z p.text) :
    patHit U (pureOf a) st (w ++ s ++ z) p = (patHit U (pureOf a) st s p).map (hitFurther (byteLen w)) := by
  unfold patHit
  rw [rawHit_pad hp h]
  split
  · cases rawHit U (pureOf a) st s p <;> rfl
  · rfl

theorem condHit_pad {c : Condition} (h : ∀ p ∈ c, PatternOk U p ∧ Pads st.scheme w z p.text) :
    condHit U (pureOf a) st (w ++ s ++ z) c = (condHit U (pureOf a) st s c).map (hitFurther (byteLen w)) := by
  unfold condHit
  induction c with
  | nil => rfl
  | cons p c ih =>
    have hp := h p (by simp)
    rw [List.findSome?_cons, List.findSome?_cons, patHit_pad hp.1 hp.2, ih fun p hp => h p (by simp [hp])]
    cases patHit U (pureOf a) st s p <;> rfl

theorem condsHit_pad {cs : List Condition} (h : ∀ c ∈ cs, ∀ p ∈ c, PatternOk U p ∧ Pads st.scheme w z p.text) :
    condsHit U (pureOf a) st (w ++ s ++ z) cs =
      ((condsHit U (pureOf a) st s cs).1.map (further (byteLen w)), (condsHit U (pureOf a) st s cs).2) := by
  induction cs with
  | nil => rfl
  | cons c cs ih =>
    rw [condsHit, condsHit, condHit_pad (h c (by simp)), ih fun c hc => h c (by simp [hc])]
    cases condHit U (pureOf a) st s c with
    | none => rfl
    | some x => simp only [Option.map_some, hitFurther, List.map_append]

theorem result_pad {q : FzfQuery} (hq : QueryOk U q) (h : ∀ p ∈ patterns q, Pads st.scheme w z p.text) :
    result U a st (w ++ s ++ z) q = ((result U a st s q).1.map (further (byteLen w)), (result U a st s q).2) := by
  unfold result queryHit
  split
  · rfl
  · rename_i hn
    cases q with
    | notExtended p =>
      have hp : p.text ≠ [] := by simpa [FzfQuery.isEmpty, Pattern.isEmpty] using hn
      dsimp only
      rw [pure_pad hp (rel_eqOf st (queryOk_upper hq).1) (h p (by simp [patterns]))]
      cases hx : pureOf a (posBonus U st.scheme s) (st.eqOf p) p.text s with
      | none => rfl
      | some x =>
        simp only [Option.map_some]
        rw [charRanges_pad (pos_lt a hp hx)]
    | extended cs => exact condsHit_pad fun c hc p hp => ⟨(hq c hc).2 p hp, h p (List.mem_flatten.mpr ⟨c, hc, hp⟩)⟩

end

/-! ### Queries without escaped spaces -/

theorem space_consHead {c : Char} {ps : List (List Char)} {w : List Char} (h : w ∈ consHead c ps) (hw : ' ' ∈ w) (hc : c ≠ ' ') :
    ∃ v ∈ ps, ' ' ∈ v := by
  cases ps with
  | nil =>
    simp only [consHead, List.mem_singleton] at h
    subst h
    simp only [List.mem_singleton] at hw
    exact absurd hw.symm hc
  | cons x ps =>
    simp only [consHead, List.mem_cons] at h
    rcases h with rfl | h
    · rcases List.mem_cons.mp hw with h | h
      · exact absurd h.symm hc
      · exact ⟨x, by simp, h⟩
    · exact ⟨w, by simp [h], hw⟩

theorem pieces_no_space {t : List Char} (h : ¬ ['\\', ' '] <:+: t) : ∀ w ∈ pieces t, ' ' ∉ w := by
  induction t using pieces.induct with
  | case1 => simp [pieces]
  | case2 s ih => exact absurd ⟨[], s, rfl⟩ h
  | case3 s ih =>
    intro w hw
    simp only [pieces, List.mem_cons] at hw
    rcases hw with rfl | hw
    · simp
    · exact ih (fun hi => h (hi.trans (List.suffix_cons _ _).isInfix)) w hw
  | case4 c s h1 h2 ih =>
    intro w hw hsp
    have hc : c ≠ ' ' := fun hc => h2 hc
    rw [pieces_cons_of hc (by
      rintro ⟨rfl, hs⟩
      obtain ⟨x, rfl⟩ := List.head?_eq_some_iff.mp hs
      exact h ⟨[], x, rfl⟩)] at hw
    obtain ⟨v, hv, hsp⟩ := space_consHead hw hsp hc
    exact ih (fun hi => h (hi.trans (List.suffix_cons _ _).isInfix)) v hv hsp

end Norm
