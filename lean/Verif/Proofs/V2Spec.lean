import Verif.Proofs.V2Facts
import Verif.SpecV2

/-! The dynamic program of `FzfV2` computes the table of `Verif.SpecV2`. -/

namespace Norm
open Spec

/-- The grid `G` is the window `w`, shifted by `lo`. -/
structure Shifted (eq : CharEq) (w : List Char) (pat : Nat → Char) (fst : Nat → Nat) (b : Nat → Int) (m lo : Nat)
    (G : Grid) : Prop where
  ok : FirstOk eq w pat fst m
  hit : ∀ r c, r < m → G.hit r (lo + c) = dpM eq w pat fst r c
  before : ∀ r c, r < m → c < lo → G.hit r c = false
  first : ∀ r, r < m → G.first r = lo + fst r
  last : G.last + 1 = lo + w.length
  bonus : ∀ i, G.bonus (lo + i) = b i

namespace Shifted
variable {eq : CharEq} {w : List Char} {pat : Nat → Char} {fst : Nat → Nat} {b : Nat → Int} {m lo : Nat} {G : Grid}

theorem reach_eq (h : Shifted eq w pat fst b m lo G) {r c : Nat} (hr : r < m) (hc : fst r ≤ c) :
    G.reach r (lo + c) = penLeft (dpM eq w pat fst r) (fst r) c := by
  unfold Grid.reach penLeft
  rw [h.first r hr]
  rcases Nat.eq_zero_or_pos c with rfl | hp
  · rw [if_pos (.inl (by omega)), if_pos (.inl (by omega))]
  · rw [show lo + c - 1 = lo + (c - 1) by omega, h.hit r _ hr]
    by_cases h1 : c = fst r
    · rw [if_pos (.inl (by omega)), if_pos (.inl h1)]
    · by_cases h2 : dpM eq w pat fst r (c - 1) = true
      · rw [if_pos (.inr h2), if_pos (.inr h2)]
      · rw [if_neg, if_neg]
        · rintro (h | h)
          · exact h1 h
          · exact h2 h
        · rintro (h | h)
          · omega
          · exact h2 h

theorem cost_match (h : Shifted eq w pat fst b m lo G) {r c : Nat} (hr : r < m)
    (hM : dpM eq w pat fst r c = true) : G.cost r (lo + c) = penLeft (dpM eq w pat fst r) (fst r) c := by
  unfold Grid.cost
  rw [h.hit r c hr, if_pos hM]
  exact h.reach_eq hr (dpM_lt hM).1

theorem cost_gap (h : Shifted eq w pat fst b m lo G) {r c : Nat} (hr : r < m)
    (hM : dpM eq w pat fst r (c + 1) = false) :
    G.cost r (lo + (c + 1)) = penGap w.length (dpM eq w pat fst r) (fst r) (c + 1) := by
  unfold Grid.cost penGap
  rw [h.hit r _ hr, if_neg (by simp [hM]), show lo + (c + 1) - 1 = lo + c by omega, h.hit r _ hr, Nat.add_sub_cancel]
  by_cases h1 : dpM eq w pat fst r c = true
  · rw [if_pos h1, if_pos h1, h.reach_eq hr (dpM_lt h1).1]
    have hl := h.last
    by_cases h2 : ∀ c', c' < w.length → c + 1 ≤ c' → dpM eq w pat fst r c' = false
    · rw [if_pos h2, if_pos]
      intro c' h3 h4
      have := h2 (c' - lo) (by omega) (by omega)
      rw [← h.hit r _ hr, show lo + (c' - lo) = c' by omega] at this
      exact this
    · rw [if_neg h2, if_neg]
      intro h3
      apply h2
      intro c' h4 h5
      by_cases h6 : c' = c + 1
      · rw [h6]; exact hM
      · have := h3 (lo + c') (by omega) (by omega)
        rwa [h.hit r _ hr] at this
  · rw [if_neg h1, if_neg h1]

theorem runBonus_eq (h : Shifted eq w pat fst b m lo G) {c k : Nat} (hk : k ≤ c) :
    G.runBonus (lo + c) k = runBonus b c (k + 1) := by
  unfold Grid.runBonus runBonus
  rw [h.bonus, show lo + c - k = lo + (c - k) by omega, h.bonus, show c + 1 - (k + 1) = c - k by omega]
  rcases Nat.eq_zero_or_pos k with rfl | hp
  · simp
  · rw [if_neg (by omega)]
    split
    · rw [if_pos (by omega)]
    · rw [if_pos (by omega)]

theorem cell_eq (h : Shifted eq w pat fst b m lo G) {c : Nat} {left : Int} {up : Int × Nat} (hk : up.2 ≤ c) :
    G.cell (lo + c) left up = cell b c left up.1 up.2 := by
  unfold Grid.cell cell
  rw [h.runBonus_eq hk, h.bonus]
  split
  · rfl
  · rename_i h1
    rw [Prod.mk.injEq]
    exact ⟨by omega, rfl⟩

theorem table_eq (h : Shifted eq w pat fst b m lo G) : ∀ (c r : Nat), r < m →
    G.table r (lo + c) = ((dp eq w pat fst b r).1 c, (dp eq w pat fst b r).2 c) := by
  intro c
  induction c with
  | zero =>
    intro r hr
    have hz := h.ok.zero
    cases r with
    | zero =>
      have hM := h.ok.hit 0 hr
      rw [hz] at hM
      have h1 := h.hit 0 0 hr
      rw [Nat.add_zero] at h1
      have h2 := h.bonus 0
      rw [Nat.add_zero] at h2 ⊢
      cases lo with
      | zero => simp only [Grid.table, dp, rowH0, rowC0]; rw [h1, h2, hM, if_pos rfl, Int.mul_comm]
      | succ lo =>
        simp only [Grid.table, dp, rowH0, rowC0]
        rw [h1, h2, hM, if_pos rfl, if_pos rfl, Int.mul_comm]
    | succ r =>
      have hf := h.first (r + 1) hr
      have hg := h.ok.ge (r + 1) hr
      rw [Nat.add_zero]
      cases lo with
      | zero => simp only [Grid.table, dp, rowH, rowC]
      | succ lo =>
        simp only [Grid.table, dp, rowH, rowC]
        rw [if_pos (by omega)]
  | succ c ih =>
    intro r hr
    cases r with
    | zero =>
      show G.table 0 (lo + c + 1) = _
      simp only [Grid.table, dp, rowH0, rowC0]
      rw [show lo + c + 1 = lo + (c + 1) by omega, h.hit 0 _ hr, h.bonus, ih 0 hr]
      by_cases hM : dpM eq w pat fst 0 (c + 1) = true
      · rw [if_pos hM, if_pos hM, if_pos hM, Int.mul_comm]
      · rw [if_neg hM, if_neg hM, if_neg hM, h.cost_gap hr (by simpa using hM), h.ok.zero]
        simp only [dp]
    | succ r =>
      show G.table (r + 1) (lo + c + 1) = _
      simp only [Grid.table, dp, rowH, rowC]
      rw [show lo + c + 1 = lo + (c + 1) by omega, h.hit _ _ hr, ih r (by omega), ih (r + 1) hr, h.first _ hr]
      by_cases hlt : c + 1 < fst (r + 1)
      · rw [if_pos (by omega), if_pos hlt, if_neg]
        intro hM
        have := (dpM_lt hM).1
        omega
      · rw [if_neg (by omega), if_neg hlt]
        by_cases hM : dpM eq w pat fst (r + 1) (c + 1) = true
        · rw [if_pos hM, if_pos hM, if_pos hM, h.cost_match hr hM, h.cell_eq (dp_cons_le r c)]
          simp only [dp]
        · rw [if_neg hM, if_neg hM, if_neg hM, h.cost_gap hr (by simpa using hM)]
          simp only [dp]

theorem trace_eq (h : Shifted eq w pat fst b m lo G) : ∀ (c r : Nat) (prefer : Bool), r < m → c < w.length →
    G.trace m prefer r (lo + c) =
      (tb m w.length (fun i => (dp eq w pat fst b i).1) (fun i => (dp eq w pat fst b i).2) prefer r c).map (lo + ·) := by
  intro c
  induction c with
  | zero =>
    intro r prefer hr hc
    have ht := h.table_eq 0 r hr
    have hf := h.first 0 (by omega)
    have hz := h.ok.zero
    rw [Nat.add_zero] at ht ⊢
    have key : G.trace m prefer r lo = if (G.table r lo).1 > 0 then [lo] else [] := by
      cases lo with
      | zero => rfl
      | succ lo => simp only [Grid.trace]; rw [if_pos (by omega)]
    rw [key, ht]
    unfold tb
    split <;> simp
  | succ c ih =>
    intro r prefer hr hc
    have hf := h.first 0 (by omega)
    have hz := h.ok.zero
    show G.trace m prefer r (lo + c + 1) = _
    simp only [Grid.trace, tb]
    rw [if_neg (by omega)]
    have hpref : G.prefers m r (lo + c + 1) =
        decide ((dp eq w pat fst b r).2 (c + 1) > 1 ∨
          (r + 1 < m ∧ c + 2 < w.length ∧ (dp eq w pat fst b (r + 1)).2 (c + 2) > 0)) := by
      unfold Grid.prefers
      rw [decide_eq_decide, show lo + c + 1 = lo + (c + 1) by omega, h.table_eq (c + 1) r hr]
      have hl := h.last
      constructor
      · rintro (h1 | ⟨h1, h2, h3⟩)
        · exact .inl h1
        · rw [show lo + (c + 1) + 1 = lo + (c + 2) by omega, h.table_eq (c + 2) _ h1] at h3
          exact .inr ⟨h1, by omega, h3⟩
      · rintro (h1 | ⟨h1, h2, h3⟩)
        · exact .inl h1
        · refine .inr ⟨h1, by omega, ?_⟩
          rw [show lo + (c + 1) + 1 = lo + (c + 2) by omega, h.table_eq (c + 2) _ h1]
          exact h3
    have htakes : G.takes prefer r (lo + c) ↔
        (dp eq w pat fst b r).1 (c + 1) > (if r = 0 then 0 else (dp eq w pat fst b (r - 1)).1 c) ∧
        ((dp eq w pat fst b r).1 (c + 1) > (dp eq w pat fst b r).1 c ∨
          ((dp eq w pat fst b r).1 (c + 1) = (dp eq w pat fst b r).1 c ∧ prefer = true)) := by
      unfold Grid.takes
      rw [show lo + c + 1 = lo + (c + 1) by omega, h.table_eq (c + 1) r hr, h.table_eq c r hr,
        h.table_eq c (r - 1) (by omega)]
    rw [hpref]
    by_cases ht : G.takes prefer r (lo + c)
    · rw [if_pos ht, if_pos (htakes.mp ht), List.map_cons]
      congr 1
      by_cases h0 : r = 0
      · rw [if_pos h0, if_pos h0]; rfl
      · rw [if_neg h0, if_neg h0]
        exact ih _ _ (by omega) (by omega)
    · rw [if_neg ht, if_neg (fun hh => ht (htakes.mpr hh))]
      exact ih _ _ hr (by omega)

end Shifted

/-! ### The best cell is the first one -/

theorem bestRow_first (n r : Nat) (f : Nat → Int) (offs : List Nat) (hs : offs.Pairwise (· < ·)) (acc : Int × Nat) :
    bestRow n r f offs acc = acc ∨
      ∃ i ∈ offs, bestRow n r f offs acc = (f i, r * n + i) ∧ acc.1 < f i ∧ ∀ j ∈ offs, j < i → f j < f i := by
  induction offs generalizing acc with
  | nil => exact .inl rfl
  | cons j offs ih =>
    obtain ⟨h1, h2⟩ := List.pairwise_cons.mp hs
    have hstep : bestRow n r f (j :: offs) acc =
        bestRow n r f offs (if f j > acc.1 then (f j, r * n + j) else acc) := rfl
    rw [hstep]
    by_cases h : f j > acc.1
    · rw [if_pos h]
      right
      rcases ih h2 (f j, r * n + j) with h3 | ⟨i, hi, h3, h4, h5⟩
      · refine ⟨j, by simp, h3, h, ?_⟩
        intro k hk hkj
        rcases List.mem_cons.mp hk with rfl | hk
        · omega
        · have := h1 k hk; omega
      · refine ⟨i, by simp [hi], h3, by simp only at h4; omega, ?_⟩
        intro k hk hki
        rcases List.mem_cons.mp hk with rfl | hk
        · exact h4
        · exact h5 k hk hki
    · rw [if_neg h]
      rcases ih h2 acc with h3 | ⟨i, hi, h3, h4, h5⟩
      · exact .inl h3
      · refine .inr ⟨i, by simp [hi], h3, h4, ?_⟩
        intro k hk hki
        rcases List.mem_cons.mp hk with rfl | hk
        · omega
        · exact h5 k hk hki

theorem dpBest_first {eq : CharEq} {w : List Char} {pat : Nat → Char} {fst : Nat → Nat} {b : Nat → Int} (R : Nat)
    (h0 : dpBest eq w pat fst b R ≠ (0, 0)) :
    ∃ r c, r ≤ R ∧ dpM eq w pat fst r c = true ∧
      dpBest eq w pat fst b R = ((dp eq w pat fst b r).1 c, r * w.length + c) ∧
      ∀ r' c', r' ≤ R → dpM eq w pat fst r' c' = true → r' < r ∨ (r' = r ∧ c' < c) →
        (dp eq w pat fst b r').1 c' < (dp eq w pat fst b r).1 c := by
  induction R with
  | zero =>
    rcases bestRow_first w.length 0 (dp eq w pat fst b 0).1 (idxsFrom (fun x => eq (pat 0) x) w (fst 0))
      sorted_idxsFrom (0, 0) with h | ⟨i, hi, h, _, h3⟩
    · exact absurd h h0
    · refine ⟨0, i, Nat.le_refl _, mem_row.mp hi, h, ?_⟩
      intro r' c' hr' hM hlt
      rcases hlt with hlt | ⟨rfl, hlt⟩
      · omega
      · exact h3 c' (mem_row.mpr hM) hlt
  | succ R ih =>
    rcases bestRow_first w.length (R + 1) (dp eq w pat fst b (R + 1)).1
        (idxsFrom (fun x => eq (pat (R + 1)) x) w (fst (R + 1))) sorted_idxsFrom (dpBest eq w pat fst b R) with
      h | ⟨i, hi, h, h2, h3⟩
    · have h' : dpBest eq w pat fst b (R + 1) = dpBest eq w pat fst b R := h
      rw [h'] at h0 ⊢
      obtain ⟨r, c, h1, h2, h3, h4⟩ := ih h0
      refine ⟨r, c, by omega, h2, h3, ?_⟩
      intro r' c' hr' hM hlt
      exact h4 r' c' (by omega) hM hlt
    · refine ⟨R + 1, i, Nat.le_refl _, mem_row.mp hi, h, ?_⟩
      intro r' c' hr' hM hlt
      rcases hlt with hlt | ⟨rfl, hlt⟩
      · have := dpBest_ge (b := b) (R := R) (by omega) hM
        omega
      · exact h3 c' (mem_row.mpr hM) hlt

/-! ### The grid of a query and a candidate -/

section
variable {B : Nat → Int} {eq : CharEq} {p s : List Char} {G : Grid}

theorem alignment_leftmost_unique {R : Char → Char → Prop} {g g' : List Nat} (h : Leftmost R p s g)
    (h' : Leftmost R p s g') : g = g' := by
  have h1 := h.2 g' h'.1
  have h2 := h'.2 g h.1
  obtain ⟨hl, h1⟩ := List.forall₂_iff_get.mp h1
  obtain ⟨_, h2⟩ := List.forall₂_iff_get.mp h2
  refine List.ext_getElem hl (fun i hi hi' => ?_)
  have := h1 i hi hi'
  have := h2 i hi' hi
  simp only [List.get_eq_getElem] at *
  omega

theorem greedyFrom_leftmost {g : List Nat} (hg : greedyFrom eq s p 0 = some g) : Leftmost (rel eq) p s g := by
  refine ⟨(greedyFrom_align hg).1, fun ps hps => ?_⟩
  obtain ⟨g', hg', hle⟩ := greedyFrom_least (off := 0) hps (by simp)
  rw [hg] at hg'
  rw [Option.some.inj hg']
  exact hle

theorem gridOf_shifted {g : List Nat} (hp : p ≠ []) (hg : greedyFrom eq s p 0 = some g)
    (hG : GridOf (rel eq) B p s G) :
    Shifted eq (v2Chars eq p s g) (fun r => p.getD r 'a') (v2Fst eq p s g)
      (fun i => B ((v2Window eq p s g).1 + i)) p.length (v2Window eq p s g).1 G := by
  obtain ⟨hW, j, hj, hjw⟩ := windowOk hp hg
  have hgf : g = (List.range p.length).map G.first := alignment_leftmost_unique (greedyFrom_leftmost hg) hG.first
  have hfirst : ∀ r, r < p.length → G.first r = (v2Window eq p s g).1 + v2Fst eq p s g r := by
    intro r hr
    have hrl : r < g.length := by rw [hW.galen]; exact hr
    have h1 : g[r] = G.first r := by
      have : g[r]? = some (G.first r) := by
        rw [hgf, List.getElem?_map, List.getElem?_range hr]; rfl
      rw [List.getElem?_eq_getElem hrl] at this
      exact Option.some.inj this
    have h2 := hW.gge g[r] (by simp)
    unfold v2Fst
    rw [getD_of_lt _ hrl]
    omega
  have hlast : G.last + 1 = (v2Window eq p s g).2 := by
    obtain ⟨q, x, hq, hx, hR, hmax⟩ := hG.last
    have hql : p.getLastD 'a' = q := by rw [List.getLastD_eq_getLast?, hq]; rfl
    have h1 := hW.last _ x (List.getElem?_eq_some_iff.mp hx).1 hx (by rw [hql]; exact hR)
    obtain ⟨_, ⟨y, hy, hRy⟩, _⟩ := findLastIdx?_some hj
    rw [hql] at hRy
    by_contra hne
    exact hmax j y (by omega) hy hRy
  have hlen := hW.len
  have hle := hW.le
  refine ⟨v2_firstOk hp hg, ?_, ?_, hfirst, by omega, fun i => by rw [hG.bonus]⟩
  · intro r c hr
    rw [Bool.eq_iff_iff, hG.hit, hfirst r hr, dpM, matchAt_iff]
    constructor
    · rintro ⟨h1, h2, q, x, hq, hx, hR⟩
      refine ⟨by omega, x, ?_, ?_⟩
      · rw [hW.getw _ (by omega)]; exact hx
      · rw [getD_of_lt _ hr]
        rw [List.getElem?_eq_getElem hr] at hq
        rw [Option.some.inj hq]
        exact hR
    · rintro ⟨h1, x, hx, hR⟩
      have hc := (List.getElem?_eq_some_iff.mp hx).1
      refine ⟨by omega, by omega, p[r], x, List.getElem?_eq_getElem hr, ?_, ?_⟩
      · rw [← hW.getw _ (by omega)]; exact hx
      · rw [getD_of_lt _ hr] at hR; exact hR
  · intro r c hr hc
    rw [Bool.eq_false_iff]
    intro hh
    have := ((hG.hit r c).mp hh).1
    rw [hfirst r hr] at this
    omega

/-- What `FzfV2` finds for two or more characters, in terms of the table. -/
theorem v2Result_grid (hB : ∀ i, 0 ≤ B i) (hp : 2 ≤ p.length) (hG : GridOf (rel eq) B p s G) {x : List Nat × Int}
    (hx : v2Result B eq p s = some x) :
    ∃ r c, G.Best p.length r c ∧ x = (G.trace p.length true r c, (G.table r c).1) := by
  have hp' : p ≠ [] := by intro h; simp [h] at hp
  unfold v2Result at hx
  rw [if_neg (by omega), Option.map_eq_some_iff] at hx
  obtain ⟨g, hg, rfl⟩ := hx
  have hS := gridOf_shifted hp' hg hG
  have hne : v2Best B eq p s g (p.length - 1) ≠ (0, 0) := by
    have := v2Best_ge hB hp' hg (p.length - 1)
    intro h
    rw [h] at this
    omega
  obtain ⟨r, c, hr, hM, he, hfirst⟩ := dpBest_first (p.length - 1) hne
  have hc := (dpM_lt hM).2
  have hrm : r < p.length := by omega
  refine ⟨r, (v2Window eq p s g).1 + c, ⟨hrm, by rw [hS.hit r c hrm]; exact hM, ?_⟩, ?_⟩
  · intro r' c' hr' hh
    have hlo : (v2Window eq p s g).1 ≤ c' := by
      by_contra hlt
      rw [hS.before r' c' hr' (by omega)] at hh
      exact absurd hh (by simp)
    obtain ⟨e, rfl⟩ : ∃ e, c' = (v2Window eq p s g).1 + e := ⟨c' - (v2Window eq p s g).1, by omega⟩
    rw [hS.hit _ _ hr'] at hh
    rw [hS.table_eq _ _ hr', hS.table_eq _ _ hrm]
    refine ⟨?_, ?_⟩
    · have := dpBest_ge (b := fun i => B ((v2Window eq p s g).1 + i)) (R := p.length - 1) (by omega) hh
      rw [he] at this
      exact this
    · intro hlt
      exact hfirst r' e (by omega) hh (by omega)
  · have hdiv : (v2Best B eq p s g (p.length - 1)).2 / (v2Chars eq p s g).length = r := by
      unfold v2Best; rw [he]; exact cell_div hc
    have hmod : (v2Best B eq p s g (p.length - 1)).2 % (v2Chars eq p s g).length = c := by
      unfold v2Best; rw [he]; exact cell_mod hc
    rw [Prod.mk.injEq]
    constructor
    · unfold v2Trace
      rw [hdiv, hmod, hS.trace_eq c r true hrm hc]
      rfl
    · rw [hS.table_eq _ _ hrm]
      unfold v2Best
      rw [he]

/-- The grid, computed. -/
def gridFor (eq : CharEq) (B : Nat → Int) (p s : List Char) (g : List Nat) (last : Nat) : Grid where
  hit r c := decide (g.getD r 0 ≤ c) && decide (c ≤ last) &&
    (match p[r]?, s[c]? with
    | some q, some x => eq q x
    | _, _ => false)
  first r := g.getD r 0
  last := last
  bonus := B

theorem gridFor_ok {g : List Nat} {j : Nat} (hp : p ≠ []) (hg : greedyFrom eq s p 0 = some g)
    (hj : findLastIdx? (fun x => eq (p.getLastD 'a') x) s = some j) :
    GridOf (rel eq) B p s (gridFor eq B p s g j) := by
  obtain ⟨hW, _⟩ := windowOk hp hg
  obtain ⟨_, ⟨y, hy, hRy⟩, hmax⟩ := findLastIdx?_some hj
  refine ⟨fun r c => ?_, ?_, ?_, rfl⟩
  · simp only [gridFor, Bool.and_eq_true, decide_eq_true_eq, and_assoc]
    refine and_congr_right fun _ => and_congr_right fun _ => ?_
    cases p[r]? <;> cases s[c]? <;> simp [rel]
  · have : (List.range p.length).map (gridFor eq B p s g j).first = g := by
      refine List.ext_getElem (by simp [hW.galen]) (fun i h1 h2 => ?_)
      simp only [List.getElem_map, List.getElem_range]
      exact getD_of_lt _ h2
    rw [this]
    exact greedyFrom_leftmost hg
  · have hql : p.getLastD 'a' = p.getLast hp := getLastD_of_ne _ hp
    refine ⟨p.getLast hp, y, List.getLast?_eq_some_getLast hp, hy, by rw [← hql]; exact hRy, ?_⟩
    intro c z hc hz hR
    have := hmax c z hc hz
    rw [hql] at this
    rw [rel, this] at hR
    cases hR

/-- Whenever the query is a subsequence there is a grid. -/
theorem gridOf_exists {R : Char → Char → Prop} (hp : p ≠ []) (h : Subseq R p s) : ∃ G, GridOf R B p s G := by
  classical
  let eq : CharEq := fun q c => decide (R q c)
  have hrel : rel eq = R := by funext q c; simp [rel, eq]
  rw [← hrel] at h ⊢
  rw [← greedyFrom_isSome, Option.isSome_iff_exists] at h
  obtain ⟨g, hg⟩ := h
  obtain ⟨_, j, hj, _⟩ := windowOk hp hg
  exact ⟨_, gridFor_ok hp hg hj⟩

end

end Norm
