import Verif.Proofs.Places
import Verif.Proofs.Outcome
import Verif.Proofs.Closest

/-!
# Helper lemmas: candidates that start with a word -/

namespace Norm
open Spec

variable {U : Unicode} {st : Settings} {S : FzfScheme} {R : Char → Char → Prop} {p s w : List Char} {ps : List Nat} {a : Algo}

/-! ### Spaces and digits -/

theorem Spec.Listed.letter {c t : Char} (h : Listed c t) : (isAsciiLower t || isAsciiUpper t) = true := normTable_targets _ (listed_iff.mp h)

theorem fold_letter {sens : Bool} {t : Char} (h : (isAsciiLower t || isAsciiUpper t) = true) :
    (isAsciiLower (fold sens t) || isAsciiUpper (fold sens t)) = true := by
  cases sens with
  | true => exact h
  | false =>
    show (isAsciiLower (lower t) || isAsciiUpper (lower t)) = true
    cases hu : isAsciiUpper t with
    | true => rw [(lower_of_upper hu).1]; rfl
    | false => rw [lower_eq, toAsciiLowercase, hu]; simpa [hu] using h

theorem fold_other {sens : Bool} {x y : Char} (h1 : isAsciiUpper x = false) (h2 : isAsciiLower x = false) : fold sens y = x ↔ y = x := by
  cases sens with
  | true => exact Iff.rfl
  | false => exact lower_eq_iff h1 h2

/-- A character that is no ASCII letter matches itself and no listed character. -/
theorem charMatches_other {sens norm : Bool} {q x : Char} (h1 : isAsciiUpper q = false) (h2 : isAsciiLower q = false) :
    CharMatches sens norm q x ↔ x = q := by
  have hf : fold sens q = q := (fold_other h1 h2).mpr rfl
  constructor
  · rintro (h | ⟨-, t, ht, h⟩)
    · rw [hf] at h
      exact (fold_other h1 h2).mp h.symm
    · rw [hf] at h
      have := fold_letter (sens := sens) ht.letter
      rw [← h, h1, h2] at this
      cases this
  · rintro rfl
    exact .inl rfl

/-- A number is no ASCII letter. -/
theorem classOf_number {x : Char} (h : classOf U S x = .number) : isAsciiUpper x = false ∧ isAsciiLower x = false := by
  unfold classOf at h
  simp only [isAsciiUpper, isAsciiLower]
  split at h
  · split at h
    · cases h
    · split at h
      · cases h
      · rename_i _ h1 h2
        simp only [show 'a'.toNat = 97 from rfl, show 'z'.toNat = 122 from rfl] at h1
        simp only [show 'A'.toNat = 65 from rfl, show 'Z'.toNat = 90 from rfl] at h2
        simp
        omega
  · simp
    omega

/-- What a digit matches has the same class. -/
theorem number_matches {sens norm : Bool} {q x y : Char} (hn : ∀ t, ¬ Listed x t) (hx : classOf U S x = .number)
    (h : CharMatches sens norm q x) (h' : CharMatches sens norm q y) : classOf U S y = .number := by
  obtain ⟨h1, h2⟩ := classOf_number hx
  have hq : q = x := by
    rcases h with h | ⟨-, t, ht, -⟩
    · rw [(fold_other h1 h2).mpr rfl] at h
      exact (fold_other h1 h2).mp h
    · exact absurd ht (hn t)
  subst hq
  rwa [(charMatches_other h1 h2).mp h']

theorem leading_space {k : Nat} (h : k < leading s) : s[k]? = some ' ' := by
  have h2 := split_leading (show k + 1 ≤ leading s by omega)
  rw [h2, List.getElem?_append_left (by simp)]
  simp

theorem leading_next (h : leading s < s.length) : ∃ c, s[leading s]? = some c ∧ c ≠ ' ' := by
  induction s with
  | nil => simp at h
  | cons c s ih =>
    by_cases hc : c = ' '
    · subst hc
      have hl : leading (' ' :: s) = leading s + 1 := by simp [leading]
      rw [hl] at h ⊢
      simp only [List.length_cons] at h
      obtain ⟨d, hd, hne⟩ := ih (by omega)
      exact ⟨d, by simpa using hd, hne⟩
    · have hl : leading (c :: s) = 0 := by simp [leading, hc]
      rw [hl]
      exact ⟨c, rfl, hc⟩

/-! ### Increasing positions -/

theorem steps_le {k l i j : Nat} (h : ps.Pairwise (· < ·)) (hk : ps[k]? = some i) (hl : ps[l]? = some j) (hkl : k ≤ l) : i + (l - k) ≤ j := by
  induction l generalizing j with
  | zero =>
    obtain rfl : k = 0 := by omega
    rw [hk] at hl
    cases hl
    omega
  | succ l ih =>
    by_cases he : k = l + 1
    · subst he
      rw [hk] at hl
      cases hl
      omega
    · have hlt := (List.getElem?_eq_some_iff.mp hl).1
      have h1 := ih (List.getElem?_eq_getElem (show l < ps.length by omega)) (by omega)
      have h2 := List.pairwise_iff_getElem.mp h l (l + 1) (by omega) hlt (by omega)
      rw [(List.getElem?_eq_some_iff.mp hl).2] at h2
      omega

/-- If no alignment ends before the block at `e`, FzfV1 chooses it. -/
theorem v1Chooses_block {e : Nat} (hp : p ≠ []) (ho : OccursAt R p s e)
    (hend : ∀ ps, Alignment R p s ps → ∃ i ∈ ps, e + p.length - 1 ≤ i) : V1Chooses R p s (List.range' e p.length) := by
  have hn := List.length_pos_iff.mpr hp
  have hlast : ∀ l, (List.range' e p.length).getLast? = some l → l = e + p.length - 1 := by
    intro l hl
    rw [List.getLast?_range'] at hl
    rw [if_neg (by omega)] at hl
    cases hl
    omega
  have hhead : ∀ l, (List.range' e p.length).head? = some l → l = e := by
    intro l hl
    rw [List.head?_range', if_neg (by omega)] at hl
    cases hl
    rfl
  refine ⟨alignment_range (occursAt_get ho), ?_, ?_, ?_⟩
  · intro l hl ps' ha
    rw [hlast l hl]
    exact hend ps' ha
  · intro f l hf hl ps' ha hle
    rw [hhead f hf]
    rw [hlast l hl] at hle
    have hlen := ha.length_eq
    have h0 := List.getElem?_eq_getElem (show 0 < ps'.length by omega)
    have h1 := List.getElem?_eq_getElem (show p.length - 1 < ps'.length by omega)
    refine ⟨_, List.getElem_mem (show 0 < ps'.length by omega), ?_⟩
    have := steps_le ha.increasing h0 h1 (by omega)
    have := hle _ (List.getElem_mem (show p.length - 1 < ps'.length by omega))
    omega
  · intro f hf ps' ha hge
    rw [hhead f hf] at hge
    have hlen := ha.length_eq
    refine List.forall₂_iff_get.mpr ⟨by simp; omega, fun k h1 h2 => ?_⟩
    have h0 := List.getElem?_eq_getElem (show 0 < ps'.length by omega)
    have := steps_le ha.increasing h0 (List.getElem?_eq_getElem h2) (by omega)
    have := hge _ (List.getElem_mem (show 0 < ps'.length by omega))
    simp only [List.get_eq_getElem, List.getElem_range']
    omega

/-! ### Where a prefix is found -/

theorem cmp_space {q : Char} : Cmp U st w q ' ' ↔ q = ' ' := charMatches_plain (.inr rfl)

theorem space_cmp {x : Char} : Cmp U st w ' ' x ↔ x = ' ' := charMatches_other (by decide) (by decide)

theorem posBonus_space {i : Nat} (h : s[i]? = some ' ') : posBonus U S s i = whiteBonus S := by
  unfold posBonus
  rw [h]
  have : classOf U S ' ' = .whiteSpace := by simp [classOf]
  simp only [this, bonus]

/-- No alignment ends before a prefix, unless this consists of spaces. -/
theorem prefix_end {i : Nat} (hl : i + leading p = leading s) (hlt : leading p < p.length) (ha : Alignment (Cmp U st w) p s ps) :
    ∃ j ∈ ps, i + p.length - 1 ≤ j := by
  obtain ⟨q, hq, hne⟩ := leading_next hlt
  have hlen := ha.length_eq
  have h2 := List.forall₂_iff_get.mp ha.spells
  have hk : leading p < ps.length := by omega
  obtain ⟨x, hx, hR⟩ := h2.2 (leading p) hlt hk
  simp only [List.get_eq_getElem] at hx hR
  rw [(List.getElem?_eq_some_iff.mp hq).2] at hR
  have hge : leading s ≤ ps[leading p] := by
    by_contra hcon
    rw [leading_space (by omega)] at hx
    cases hx
    exact hne (cmp_space.mp hR)
  have hl1 : p.length - 1 < ps.length := by omega
  refine ⟨_, List.getElem_mem hl1, ?_⟩
  have := steps_le ha.increasing (List.getElem?_eq_getElem hk) (List.getElem?_eq_getElem hl1) (by omega)
  omega

/-- The block of a prefix, or the first one with the same score if it consists of spaces. -/
theorem prefix_block {i : Nat} (hp : p ≠ []) (ho : OccursAt (Cmp U st w) p s i) (hl : i + leading p = leading s) :
    ∃ e, OccursAt (Cmp U st w) p s e ∧ (∀ ps, Alignment (Cmp U st w) p s ps → ∃ j ∈ ps, e + p.length - 1 ≤ j) ∧
      (leading p < p.length → e = i) ∧
      alignScore (posBonus U S s) (List.range' e p.length) = alignScore (posBonus U S s) (List.range' i p.length) ∧
      (s[e]? = some ' ' ∨ (leading p = 0 ∧ e = leading s)) := by
  have hn := List.length_pos_iff.mpr hp
  by_cases hlt : leading p < p.length
  · refine ⟨i, ho, fun ps ha => prefix_end hl hlt ha, fun _ => rfl, rfl, ?_⟩
    by_cases h0 : leading p = 0
    · exact .inr ⟨h0, by omega⟩
    · left
      exact leading_space (by omega)
  · have hle := leading_le p
    have hsp : ∀ k, k < i + p.length → s[k]? = some ' ' := fun k hk => leading_space (by omega)
    have hpsp : ∀ k, k < p.length → p[k]? = some ' ' := fun k hk => leading_space (by omega)
    have hlen : p.length ≤ s.length := by have := leading_le s; omega
    refine ⟨0, ?_, ?_, fun h => absurd h hlt, ?_, .inl (hsp 0 (by omega))⟩
    · refine ⟨[], s.take p.length, s.drop p.length, by simp, rfl, List.forall₂_iff_get.mpr ⟨by simp; omega, fun k h1 h2 => ?_⟩⟩
      have e1 := hpsp k h1
      have e2 := hsp k (by omega)
      rw [List.getElem?_eq_getElem h1] at e1
      rw [List.getElem?_eq_getElem (by omega)] at e2
      simp only [List.get_eq_getElem, List.getElem_take]
      rw [Option.some.inj e1, Option.some.inj e2]
      exact space_cmp.mpr rfl
    · intro ps ha
      have hl := ha.length_eq
      have hl1 : p.length - 1 < ps.length := by omega
      refine ⟨_, List.getElem_mem hl1, ?_⟩
      have := steps_le ha.increasing (List.getElem?_eq_getElem (show 0 < ps.length by omega)) (List.getElem?_eq_getElem hl1) (by omega)
      omega
    · have hw : 8 ≤ whiteBonus S := by cases S <;> decide
      have key : ∀ e, e ≤ i → alignScore (posBonus U S s) (List.range' e p.length) =
          (16 + whiteBonus S) * (p.length : Int) + whiteBonus S := by
        intro e he
        rw [alignScore_congr (B' := fun _ => whiteBonus S) fun k hk => posBonus_space (hsp k (by
          rw [List.mem_range'_1] at hk
          omega))]
        exact alignScore_block hw (fun _ => Int.le_refl _) rfl (by omega)
      rw [key 0 (by omega), key i (by omega)]

/-- The bonus of a character after white space, or at the start. -/
theorem bonus_front {c d : CharClass} (h : c = .whiteSpace ∨ c = initialClass S) :
    (d ≠ .number → 8 ≤ bonus S c d) ∧ (d = .number → bonus S c d = 7) := by
  rcases h with rfl | rfl <;> cases S <;> cases d <;> decide

theorem bonus_number (c : CharClass) : bonus S c .number ≤ 7 := by cases c <;> cases S <;> decide

/-- The exact search chooses the first occurrence if it is a prefix. -/
theorem prefix_best {e : Nat} {q : Char} {qs : List Char} {seen : Nat → CharClass} (hU : ∀ c t, Listed c t → classOf U S c ≠ .number)
    (hs : SeenBy U S (Cmp U st w) (q :: qs) s seen)
    (ho : OccursAt (Cmp U st w) (q :: qs) s e) (hfirst : ∀ j, OccursAt (Cmp U st w) (q :: qs) s j → e ≤ j)
    (hsp : s[e]? = some ' ' ∨ (leading (q :: qs) = 0 ∧ e = leading s)) :
    BestPlaced (seenBonus U S s seen) (Cmp U st w) (q :: qs) s e := by
  have occ : ∀ {j}, OccursAt (Cmp U st w) (q :: qs) s j → ∃ y, s[j]? = some y ∧ Cmp U st w q y := fun h => by
    obtain ⟨y, hy⟩ := occursAt_get h 0 q rfl
    exact ⟨y, hy⟩
  refine ⟨ho, ?_⟩
  obtain ⟨x, hx, hR⟩ := occ ho
  have hb : seenBonus U S s seen e = bonus S (seen e) (classOf U S x) := by rw [seenBonus, hx]
  by_cases hc : classOf U S x = .number
  · have hne : x ≠ ' ' := by rintro rfl; simp [classOf] at hc
    have h0 : leading (q :: qs) = 0 ∧ e = leading s := by
      rcases hsp with h | h
      · rw [hx] at h
        cases h
        exact absurd rfl hne
      · exact h
    have hq : q ≠ ' ' := by
      rintro rfl
      exact hne (space_cmp.mp hR)
    have hseen : seen e = .whiteSpace ∨ seen e = initialClass S := by
      cases e with
      | zero => exact .inr hs.start
      | succ e =>
        have hsp := leading_space (s := s) (k := e) (by omega)
        left
        rw [hs.skip e ' ' hsp ⟨fun k hk => absurd hk (by omega), fun q' c h1 h2 => ?_⟩]
        · simp [classOf]
        · rw [Nat.add_zero, hsp] at h2
          cases h1
          cases h2
          exact fun h => hq (cmp_space.mp h)
    have h7 : seenBonus U S s seen e = 7 := by rw [hb, (bonus_front hseen).2 hc]
    refine .inr fun j hj => ?_
    obtain ⟨y, hy, hR'⟩ := occ hj
    have hcy : classOf U S y = .number := number_matches (fun t ht => hU x t ht hc) hc hR hR'
    have hbj : seenBonus U S s seen j ≤ 7 := by
      rw [seenBonus, hy]
      simp only [hcy]
      exact bonus_number _
    have := hfirst j hj
    exact ⟨by omega, by omega, fun h => by omega⟩
  · refine .inl ⟨?_, fun j hj hoj => absurd (hfirst j hoj) (by omega)⟩
    rw [hb]
    rcases hsp with h | ⟨h0, he⟩
    · rw [hx] at h
      cases h
      have : classOf U S ' ' = .whiteSpace := by simp [classOf]
      rw [this]
      cases S <;> simp [bonus, whiteBonus]
    · by_cases hxs : x = ' '
      · subst hxs
        have : classOf U S ' ' = .whiteSpace := by simp [classOf]
        rw [this]
        cases S <;> simp [bonus, whiteBonus]
      have hq : q ≠ ' ' := by
        rintro rfl
        exact hxs (space_cmp.mp hR)
      have hseen : seen e = .whiteSpace ∨ seen e = initialClass S := by
        cases e with
        | zero => exact .inr hs.start
        | succ e =>
          have hsp := leading_space (s := s) (k := e) (by omega)
          left
          rw [hs.skip e ' ' hsp ⟨fun k hk => absurd hk (by omega), fun q' c h1 h2 => ?_⟩]
          · simp [classOf]
          · rw [Nat.add_zero, hsp] at h2
            cases h1
            cases h2
            exact fun h => hq (cmp_space.mp h)
      exact (bonus_front hseen).1 hc

theorem leading_lt (h : ∃ c ∈ w, c ≠ ' ') : leading w < w.length := by
  have hle := leading_le w
  obtain ⟨c, hc, hne⟩ := h
  by_contra hcon
  obtain ⟨k, hk, rfl⟩ := List.getElem_of_mem hc
  have := leading_space (s := w) (k := k) (by omega)
  rw [List.getElem?_eq_getElem hk] at this
  exact hne (Option.some.inj this)

/-- The single characters of a block are merged into one range. -/
theorem insertAll_block {e n : Nat} (hn : n ≠ 0) (h : e + n ≤ s.length) :
    insertAll [] ((List.range' e n).map (charRange s)) = insertAll [] [byteRange s e (e + n)] := by
  have hlt : ∀ i ∈ List.range' e n, i < s.length := by
    intro i hi
    rw [List.mem_range'_1] at hi
    omega
  refine sep_ext (sep_insertAll sep_nil ?_) (sep_insertAll sep_nil ?_) fun b => ?_
  · intro r hr
    obtain ⟨i, hi, rfl⟩ := List.mem_map.mp hr
    exact byteRange_nonempty (Nat.lt_succ_self i) (hlt i hi)
  · intro r hr
    obtain rfl := List.mem_singleton.mp hr
    exact byteRange_nonempty (by omega) h
  · rw [insertAll_chars sep_nil (by simp) hlt]
    simp only [covered_nil, false_or, insertAll_cons, insertAll_nil, pinsert, covered_cons, or_false]
    constructor
    · rintro ⟨i, hi, hb⟩
      exact (charRange_slice hb).mpr (List.mem_range'_1.mp hi)
    · intro hb
      obtain ⟨i, h1, h2, h3⟩ := slice_bytes h hb
      exact ⟨i, List.mem_range'_1.mpr ⟨h1, h2⟩, h3⟩

/-- The block that FzfV1 finds. -/
theorem v1_block {q : FzfQuery} {p : Pattern} {B : Nat → Int} {e : Nat} (hf : FuzzyFor q p) (hq : QueryOk U q) (hw : p.text ≠ [])
    (ho : OccursAt (Cmp U st p.text) p.text s e)
    (hend : ∀ ps, Alignment (Cmp U st p.text) p.text s ps → ∃ j ∈ ps, e + p.text.length - 1 ≤ j) :
    pureOf .v1 B (st.eqOf p) p.text s = some (List.range' e p.text.length, alignScore B (List.range' e p.text.length)) := by
  rw [← fuzzyFor_rel hf hq] at ho hend
  have := (v1Align_chooses hw).mpr (v1Chooses_block hw ho hend)
  simp [pureOf, v1Result, this]

/-- Nothing before the prefix is matched, unless the word starts with a space. -/
theorem prefix_first {i : Nat} (hsp : p.head? ≠ some ' ') (hl : i + leading p = leading s) (ha : Alignment (Cmp U st w) p s ps) :
    ∀ j ∈ ps, i ≤ j := by
  cases p with
  | nil =>
    have := ha.length_eq
    rw [List.length_nil, List.length_eq_zero_iff] at this
    simp [this]
  | cons q qs =>
    have hq : q ≠ ' ' := fun h => hsp (by rw [h]; rfl)
    have h0 : leading (q :: qs) = 0 := by simp [leading, hq]
    have hlen := ha.length_eq
    rw [List.length_cons] at hlen
    obtain ⟨x, hx, hR⟩ := (List.forall₂_iff_get.mp ha.spells).2 0 (by simp) (by omega)
    simp only [List.get_eq_getElem, List.getElem_cons_zero] at hx hR
    have hi : i ≤ ps[0]'(by omega) := by
      by_contra hcon
      rw [leading_space (by omega)] at hx
      cases hx
      exact hq (cmp_space.mp hR)
    intro j hj
    obtain ⟨k, hk, rfl⟩ := List.getElem_of_mem hj
    have := steps_le ha.increasing (List.getElem?_eq_getElem (show 0 < ps.length by omega)) (List.getElem?_eq_getElem hk) (by omega)
    omega

/-! ### FzfV2 -/

section
variable {B : Nat → Int} {G : Grid} {eq : CharEq}

/-- The cells of the leftmost alignment, if it is a block. -/
theorem table_block (hG : GridOk R B p s G) {e : Nat} (hf : ∀ r, r < p.length → G.first r = e + r) :
    ∀ r, r < p.length → (G.table r (e + r)).1 = alignScore B (List.range' e (r + 1)) ∧
      0 < (G.table r (e + r)).2 ∧ (G.table r (e + r)).2 ≤ r + 1 ∧
      endOf B (List.range' e (r + 1)) = (e + r, B (e + r + 1 - (G.table r (e + r)).2)) ∧ 0 ≤ (G.table r (e + r)).1 := by
  have hb := hG.bonus
  intro r
  induction r with
  | zero =>
    intro hr
    have hh := hG.start 0 hr
    rw [hf 0 hr] at hh
    have ht : G.table 0 (e + 0) = (16 + 2 * B e, 1) := by
      cases e with
      | zero =>
        simp only [Nat.add_zero] at hh
        simp [Grid.table, hh, hb]
      | succ e =>
        simp only [Nat.add_zero] at hh
        simp [Grid.table, hh, hb]
    rw [ht]
    have := hG.nonneg e
    refine ⟨?_, Nat.one_pos, Nat.le_refl 1, ?_, ?_⟩
    · simp [alignScore, runScore]
    · simp [endOf, endRun]
    · simp only; omega
  | succ r ih =>
    intro hr
    obtain ⟨h1, h2, h3, h4, h5⟩ := ih (by omega)
    have hh := hG.start (r + 1) hr
    rw [hf (r + 1) hr] at hh
    have hrow : G.table (r + 1) (e + r) = (0, 0) := by
      cases hc : e + r with
      | zero => simp [Grid.table]
      | succ c =>
        rw [Grid.table, if_pos (by rw [hf (r + 1) hr]; omega)]
    have hcost : 0 ≤ G.cost (r + 1) (e + r + 1) := by
      unfold Grid.cost Grid.reach
      repeat' split
      all_goals omega
    have ht : G.table (r + 1) (e + (r + 1)) =
        ((G.table r (e + r)).1 + 16 + (G.runBonus (e + r + 1) (G.table r (e + r)).2).1,
          (G.runBonus (e + r + 1) (G.table r (e + r)).2).2) := by
      rw [show e + (r + 1) = e + r + 1 by omega] at hh ⊢
      rw [Grid.table, if_neg (by rw [hf (r + 1) hr]; omega), if_pos hh, hrow]
      unfold Grid.cell
      have hrb : 0 ≤ (G.runBonus (e + r + 1) (G.table r (e + r)).2).1 := by
        have := hG.nonneg (e + r + 1)
        unfold Grid.runBonus
        rw [hb]
        repeat' split
        all_goals simp only; omega
      rw [if_neg (by simp only; omega)]
    have hrange : List.range' e (r + 1 + 1) = List.range' e (r + 1) ++ [e + r + 1] := by
      rw [List.range'_concat]
      simp
      omega
    have hne : List.range' e (r + 1) ≠ [] := by simp
    obtain ⟨ha, hend⟩ := alignScore_snoc B hne (e + r + 1)
    rw [h4] at ha hend
    rw [ht, hrange, ha, hend, ← h1]
    have hn := hG.nonneg (e + r + 1)
    generalize hk : (G.table r (e + r)).2 = k at *
    have hkn : k ≠ 0 := by omega
    simp only [Grid.runBonus, hb, hkn, if_false, stepScore, stepEnd, nextRun, if_true]
    by_cases hbig : B (e + r + 1) ≥ 8 ∧ B (e + r + 1) > B (e + r + 1 - k)
    · rw [if_pos hbig, if_pos hbig]
      refine ⟨by simp only; omega, by simp only; omega, by simp only; omega, ?_, by simp only; omega⟩
      simp only
      congr 1
    · rw [if_neg hbig, if_neg hbig]
      refine ⟨by simp only; omega, by simp only; omega, by simp only; omega, ?_, by simp only; omega⟩
      show (e + r + 1, B (e + r + 1 - k)) = (e + (r + 1), B (e + (r + 1) + 1 - (k + 1)))
      rw [show e + (r + 1) + 1 - (k + 1) = e + r + 1 - k by omega]
      rfl

/-- FzfV2 scores at least what the leftmost alignment does, if that is a block. -/
theorem v2Result_leftmost {e : Nat} (h0 : ∀ i, 0 ≤ B i) (hp : p ≠ []) (ho : OccursAt (rel eq) p s e)
    (hl : ∀ ps, Alignment (rel eq) p s ps → ∀ i ∈ ps, e ≤ i) {x : List Nat × Int} (hx : v2Result B eq p s = some x) :
    alignScore B (List.range' e p.length) ≤ x.2 := by
  have hn := List.length_pos_iff.mpr hp
  have hal := alignment_range (occursAt_get ho)
  by_cases h1 : p.length = 1
  · obtain ⟨q, rfl⟩ := List.length_eq_one_iff.mp h1
    unfold v2Result at hx
    rw [if_pos h1] at hx
    obtain ⟨j, c, rfl, _, _, hmax⟩ := singleResult_some hx
    obtain ⟨d, hd, hr⟩ := occursAt_get ho 0 q rfl
    have := (hmax e d hd hr).1
    simp only [List.length_singleton, List.range'_one, alignScore, runScore]
    omega
  · obtain ⟨G, hG⟩ := gridOf_exists (B := B) (s := s) (R := rel eq) hp (subseq_iff.mpr ⟨_, hal⟩)
    have hok := GridOf.ok hG h0
    obtain ⟨r, c, hb, rfl⟩ := v2Result_grid h0 (by omega) hG hx
    have hf : ∀ r, r < p.length → G.first r = e + r := by
      intro r hr
      have h2 := List.forall₂_iff_get.mp (hG.first.2 _ hal)
      have hle := h2.2 r (by simpa using hr) (by simpa using hr)
      simp only [List.get_eq_getElem, List.getElem_map, List.getElem_range, List.getElem_range'] at hle
      have g0 : ((List.range p.length).map G.first)[0]? = some (G.first 0) := by simp [hn]
      have gr : ((List.range p.length).map G.first)[r]? = some (G.first r) := by simp [hr]
      have := steps_le hG.first.1.increasing g0 gr (by omega)
      have := hl _ hG.first.1 (G.first 0) (List.mem_map.mpr ⟨0, by simp [hn], rfl⟩)
      omega
    have hlast : p.length - 1 < p.length := by omega
    obtain ⟨h2, -⟩ := table_block hok hf (p.length - 1) hlast
    have hh := hok.start (p.length - 1) hlast
    rw [hf _ hlast] at hh
    have := (hb.2.2 _ _ hlast hh).1
    rw [h2, show p.length - 1 + 1 = p.length by omega] at this
    exact this

end

end Norm
