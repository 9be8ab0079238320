import Verif.Proofs.Closest
import Verif.Proofs.V2Upper

/-! What appending text to the candidate does to the scoring table of `FzfV2`. -/

namespace Norm
open Spec

variable {G G' : Grid} {n : Nat} {K : Int}

/-- `G'` agrees with `G` in the columns of `G`, in the first `n` rows. -/
structure Extends (n : Nat) (G G' : Grid) : Prop where
  first : ∀ r, r < n → G'.first r = G.first r
  last : G.last ≤ G'.last
  bonus : ∀ c, c ≤ G.last → G'.bonus c = G.bonus c
  hit : ∀ r c, r < n → c ≤ G.last → G'.hit r c = G.hit r c

namespace Extends

theorem reach (h : Extends n G G') {r c : Nat} (hr : r < n) (hc : c ≤ G.last) : G'.reach r c = G.reach r c := by
  unfold Grid.reach
  rw [h.first r hr, h.hit r (c - 1) hr (by omega)]

theorem reach_ge (G : Grid) (r c : Nat) : 1 ≤ G.reach r c := by unfold Grid.reach; split <;> omega
theorem reach_le (G : Grid) (r c : Nat) : G.reach r c ≤ 3 := by unfold Grid.reach; split <;> omega

/-- The cost of moving right is the same, unless no match follows in `G`. -/
theorem cost_eq (h : Extends n G G') {r c : Nat} (hr : r < n) (hc : c ≤ G.last)
    (hh : ¬ Tail G r c ∨ G.hit r (c - 1) = false) : G'.cost r c = G.cost r c := by
  unfold Grid.cost
  rw [h.reach hr hc, h.hit r c hr hc, h.hit r (c - 1) hr (by omega)]
  by_cases h1 : G.hit r c = true
  · simp [h1]
  · rcases hh with hh | hh
    · have : ∃ c', c ≤ c' ∧ c' ≤ G.last ∧ G.hit r c' = true := by
        by_contra hcon
        exact hh fun c' h2 h3 => by
          by_contra h4
          exact hcon ⟨c', h2, h3, by simpa using h4⟩
      obtain ⟨c', h2, h3, h4⟩ := this
      have hlt : c < c' := by
        rcases Nat.lt_or_ge c c' with h5 | h5
        · exact h5
        · obtain rfl : c = c' := by omega
          exact absurd h4 h1
      rw [if_neg (c := ∀ c' ≤ G'.last, c < c' → G'.hit r c' = false)
          (fun hf => by rw [← h.hit r c' hr h3, hf c' (by have := h.last; omega) hlt] at h4; exact absurd h4 (by simp)),
        if_neg (c := ∀ c' ≤ G.last, c < c' → G.hit r c' = false)
          (fun hf => by rw [hf c' h3 hlt] at h4; exact absurd h4 (by simp))]
    · simp [hh]

/-- It is at most 2 larger. -/
theorem cost_le (h : Extends n G G') {r c : Nat} (hr : r < n) (hc : c ≤ G.last) : G'.cost r c ≤ G.cost r c + 2 := by
  unfold Grid.cost
  rw [h.reach hr hc, h.hit r c hr hc, h.hit r (c - 1) hr (by omega)]
  have h1 := reach_ge G r (c - 1)
  have h2 := reach_le G' r (c - 1)
  split
  · omega
  · split
    · split <;> split <;> omega
    · omega

theorem runBonus_ge (G : Grid) (c run : Nat) : G.bonus c ≤ (G.runBonus c run).1 := by
  unfold Grid.runBonus
  split
  · exact Int.le_refl _
  · split
    · exact Int.le_refl _
    · exact Int.le_max_right _ _

theorem runBonus_le (h4 : 4 ≤ K) (hb : ∀ i, G.bonus i ≤ K) (c run : Nat) : (G.runBonus c run).1 ≤ K := by
  have h1 := hb c
  have h2 := hb (c - run)
  unfold Grid.runBonus
  split
  · exact h1
  · split
    · exact h1
    · simp only; omega

theorem runBonus_zero (G : Grid) (c : Nat) : (G.runBonus c 0).1 = G.bonus c := rfl

theorem runBonus_ge_four (G : Grid) (c : Nat) {run : Nat} (h : run ≠ 0) : 4 ≤ (G.runBonus c run).1 := by
  unfold Grid.runBonus
  rw [if_neg h]
  split
  · rename_i h1; have := h1.1; simp only; omega
  · simp only; omega

theorem runBonus_same {c : Nat} (h : Extends n G G') (hc : c ≤ G.last) (run : Nat) :
    G'.runBonus c run = G.runBonus c run := by
  unfold Grid.runBonus
  rw [h.bonus c hc, h.bonus (c - run) (by omega)]

/-- How much less a match in row `r` can score. -/
def drop (K : Int) : Nat → Int
  | 0 => 0
  | r + 1 => 2 + (K - 1) * (r : Int)

theorem drop_nonneg (h : 1 ≤ K) (r : Nat) : 0 ≤ drop K r := by
  cases r with
  | zero => simp [drop]
  | succ r => have : 0 ≤ (K - 1) * (r : Int) := Int.mul_nonneg (by omega) (by omega); simp only [drop]; omega

theorem drop_two (h : 3 ≤ K) (r : Nat) : drop K r + 2 ≤ drop K (r + 1) := by
  cases r with
  | zero => simp [drop]
  | succ r => simp only [drop]; rw [mul_succ_cast]; omega

theorem drop_step (r : Nat) : drop K (r + 2) = drop K (r + 1) + K - 1 := by
  simp only [drop]; rw [mul_succ_cast]; omega

theorem drop_mono (h : 3 ≤ K) {r r' : Nat} (hr : r ≤ r') : drop K r ≤ drop K r' := by
  induction hr with
  | refl => omega
  | step _ ih => rename_i k _; have : drop K k + 2 ≤ drop K k.succ := drop_two h k; omega

theorem table_zero_hit {c : Nat} (h : G.hit 0 c = true) : G.table 0 c = (16 + 2 * G.bonus c, 1) := by
  cases c with
  | zero => simp [Grid.table, h]
  | succ c => simp [Grid.table, h]

theorem table_not_hit {r c : Nat} (h : G.hit r c = false) : (G.table r c).2 = 0 := by
  cases r with
  | zero => cases c with
    | zero => simp [Grid.table, h]
    | succ c => simp [Grid.table, h]
  | succ r => cases c with
    | zero => simp [Grid.table]
    | succ c => simp only [Grid.table, h]; split <;> simp

/-- The upper bound of a cell with which its score is not kept from the left. -/
theorem cell_run {G : Grid} {c : Nat} {left : Int} {up : Int × Nat} (h : (G.cell c left up).2 ≠ 0) :
    (G.cell c left up).1 = up.1 + 16 + (G.runBonus c up.2).1 := by
  unfold Grid.cell at h ⊢
  split at h
  · simp at h
  · rename_i h1; rw [if_neg h1]

theorem runBonus_pos (G : Grid) (c run : Nat) : (G.runBonus c run).2 ≠ 0 := by
  unfold Grid.runBonus
  split
  · simp
  · split <;> simp

theorem cell_left {G : Grid} {c : Nat} {left : Int} {up : Int × Nat} (h : (G.cell c left up).2 = 0) :
    up.1 + 16 + (G.runBonus c up.2).1 < left ∧ left ≤ (G.cell c left up).1 := by
  unfold Grid.cell at h ⊢
  split
  · rename_i h1; exact ⟨h1, Int.le_max_left _ _⟩
  · rename_i h1
    rw [if_neg h1] at h
    exact absurd h (runBonus_pos _ _ _)

theorem cell_ge {G : Grid} (c : Nat) (left : Int) (up : Int × Nat) :
    left ≤ (G.cell c left up).1 ∧ up.1 + 16 + G.bonus c ≤ (G.cell c left up).1 ∧
      up.1 + 16 + (G.runBonus c up.2).1 ≤ (G.cell c left up).1 := by
  have := runBonus_ge G c up.2
  unfold Grid.cell
  split <;> simp only <;> omega

theorem cell_le {G : Grid} (c : Nat) (left : Int) (up : Int × Nat) :
    (G.cell c left up).1 ≤ max left (up.1 + 16 + (G.runBonus c up.2).1) := by
  have := runBonus_ge G c up.2
  unfold Grid.cell
  split <;> simp only <;> omega

/-- How much less a cell scores after text is appended. -/
theorem table_le (h : Extends n G G') (h8 : 8 ≤ K) (hb : ∀ i, G.bonus i ≤ K) (hb' : ∀ i, 0 ≤ G'.bonus i) :
    ∀ c r, r < n → c ≤ G.last →
      (G.hit r c = true ∨ ¬ Tail G r c → (G.table r c).1 ≤ (G'.table r c).1 + drop K r) ∧
        (G.table r c).1 ≤ (G'.table r c).1 + drop K r + 2 ∧
        (G.hit r c = true → (G'.table r c).2 = 0 → (G.table r c).2 ≠ 0 → (G.table r c).1 + 1 ≤ (G'.table r c).1 + drop K r) := by
  intro c
  induction c with
  | zero =>
    intro r hr hc
    have h0 := h.bonus 0 hc
    have hh := h.hit r 0 hr hc
    cases r with
    | zero =>
      refine ⟨fun _ => by simp [Grid.table, h0, drop], by simp [Grid.table, h0, drop]; omega, fun h1 h2 => ?_⟩
      rw [table_zero_hit (by rw [hh]; exact h1)] at h2
      exact absurd h2 (by simp)
    | succ r =>
      have := drop_nonneg (K := K) (by omega) (r + 1)
      simp only [Grid.table]
      exact ⟨fun _ => by omega, by omega, fun _ _ h3 => absurd rfl h3⟩
  | succ c ih =>
    intro r hr hc
    have h0 := h.bonus (c + 1) hc
    -- moving right
    have right : G.hit r (c + 1) = false →
        (¬ Tail G r (c + 1) → (G.table r c).1 - G.cost r (c + 1) ≤
          (G'.table r c).1 - G'.cost r (c + 1) + drop K r) ∧
        (G.table r c).1 - G.cost r (c + 1) ≤ (G'.table r c).1 - G'.cost r (c + 1) + drop K r + 2 := by
      intro _
      obtain ⟨i1, i2, _⟩ := ih r hr (by omega)
      have hle := h.cost_le hr hc
      constructor
      · intro ht
        rw [h.cost_eq hr hc (.inl ht)]
        have := i1 (.inr fun hf => ht fun c' h1 h2 => hf c' (by omega) h2)
        omega
      · by_cases hh : G.hit r c = true
        · have := i1 (.inl hh)
          omega
        · rw [h.cost_eq hr hc (.inr (by simpa using hh))]
          omega
    have hlast := h.hit r (c + 1) hr hc
    cases r with
    | zero =>
      by_cases hh : G.hit 0 (c + 1) = true
      · rw [table_zero_hit hh, table_zero_hit (hlast.trans hh), h0]
        exact ⟨fun _ => by simp [drop], by simp [drop]; omega, fun _ h2 => absurd h2 (by simp)⟩
      · obtain ⟨r1, r2⟩ := right (by simpa using hh)
        simp only [Grid.table, hlast]
        rw [if_neg hh, if_neg hh]
        exact ⟨fun ht => r1 (ht.resolve_left hh), r2, fun h1 => absurd h1 hh⟩
    | succ r =>
      have hd := drop_nonneg (K := K) (by omega) (r + 1)
      simp only [Grid.table, h.first (r + 1) hr, hlast]
      split
      · exact ⟨fun _ => by simp only; omega, by simp only; omega, fun _ _ h3 => absurd rfl h3⟩
      · by_cases hh : G.hit (r + 1) (c + 1) = true
        · rw [if_pos hh, if_pos hh]
          have ht : ¬ Tail G (r + 1) (c + 1) := fun hf => by rw [hf _ (Nat.le_refl _) hc] at hh; exact absurd hh (by simp)
          have hl := (ih (r + 1) hr (by omega)).1 (.inr fun hf => ht fun c' h1 h2 => hf c' (by omega) h2)
          obtain ⟨u1, u2, u3⟩ := ih r (by omega) (by omega)
          have hcost := h.cost_eq hr hc (.inl ht)
          -- the match itself
          have up : (G.table r c).1 + (G.runBonus (c + 1) (G.table r c).2).1 ≤
              (G'.table r c).1 + (G'.runBonus (c + 1) (G'.table r c).2).1 + drop K (r + 1) := by
            by_cases hu : G.hit r c = true
            · have hu' : G'.hit r c = true := (h.hit r c (by omega) (by omega)).trans hu
              cases r with
              | zero =>
                rw [table_zero_hit hu, table_zero_hit hu', h.runBonus_same hc, h.bonus c (by omega)]
                simp only
                omega
              | succ r =>
                rw [drop_step]
                have k1 := runBonus_le (by omega) hb (c + 1) (G.table (r + 1) c).2
                have k2 := runBonus_ge G' (c + 1) (G'.table (r + 1) c).2
                have k3 := hb' (c + 1)
                have k4 := u1 (.inl hu)
                by_cases e : (G.table (r + 1) c).2 = 0
                · rw [e, runBonus_zero, ← h0]
                  omega
                · by_cases e' : (G'.table (r + 1) c).2 = 0
                  · have := u3 hu e' e
                    omega
                  · have := runBonus_ge_four G' (c + 1) e'
                    omega
            · have hu : G.hit r c = false := by simpa using hu
              have hu' : G'.hit r c = false := (h.hit r c (by omega) (by omega)).trans hu
              rw [table_not_hit hu, table_not_hit hu', h.runBonus_same hc]
              have := drop_two (K := K) (by omega) r
              omega
          have lb := cell_ge (G := G') (c + 1) ((G'.table (r + 1) c).1 - G'.cost (r + 1) (c + 1)) (G'.table r c)
          have ub := cell_le (G := G) (c + 1) ((G.table (r + 1) c).1 - G.cost (r + 1) (c + 1)) (G.table r c)
          rw [hcost] at lb ⊢
          refine ⟨fun _ => by omega, by omega, fun _ h2 h3 => ?_⟩
          have e1 := cell_run h3
          have e2 := cell_left h2
          omega
        · obtain ⟨r1, r2⟩ := right (by simpa using hh)
          rw [if_neg hh, if_neg hh]
          exact ⟨fun ht => r1 (ht.resolve_left hh), r2, fun h1 => absurd h1 hh⟩

end Extends

variable {eq : CharEq} {p s t : List Char} {B B' : Nat → Int}

theorem extends_append (hBB : ∀ i, i < s.length → B' i = B i) {g : List Nat} (hg : greedyFrom eq s p 0 = some g)
    (hG : GridOf (rel eq) B p s G) (hG' : GridOf (rel eq) B' p (s ++ t) G') : Extends p.length G G' := by
  obtain ⟨q, x, hq, hx, hR, hmax⟩ := hG.last
  obtain ⟨q', x', hq', hx', hR', hmax'⟩ := hG'.last
  obtain rfl : q = q' := by rw [hq] at hq'; exact Option.some.inj hq'
  have hlt : G.last < s.length := (List.getElem?_eq_some_iff.mp hx).1
  have hx2 : (s ++ t)[G.last]? = some x := by rw [List.getElem?_append_left hlt, hx]
  have hlast : G.last ≤ G'.last := by
    by_contra hcon
    exact hmax' _ _ (by omega) hx2 hR
  have e1 := alignment_leftmost_unique (greedyFrom_leftmost hg) hG.first
  have e2 := alignment_leftmost_unique (greedyFrom_leftmost (greedyFrom_append t _ _ _ hg)) hG'.first
  have hfirst : ∀ r, r < p.length → G'.first r = G.first r := by
    intro r hr
    have : ((List.range p.length).map G'.first)[r]? = ((List.range p.length).map G.first)[r]? := by rw [← e2, ← e1]
    simpa [hr] using this
  refine ⟨hfirst, hlast, fun c hc => by rw [hG.bonus, hG'.bonus, hBB c (by omega)], fun r c hr hc => ?_⟩
  rw [Bool.eq_iff_iff, hG.hit, hG'.hit, hfirst r hr, List.getElem?_append_left (by omega)]
  constructor
  · rintro ⟨h1, _, h3⟩; exact ⟨h1, hc, h3⟩
  · rintro ⟨h1, _, h3⟩; exact ⟨h1, by omega, h3⟩

/-- How much `FzfV2`'s score can fall when text is appended to the candidate. -/
theorem v2Result_append (h8 : 8 ≤ K) (hB : ∀ i, 0 ≤ B i) (hBK : ∀ i, B i ≤ K) (hB' : ∀ i, 0 ≤ B' i)
    (hBB : ∀ i, i < s.length → B' i = B i) (hp : p ≠ []) {x x' : List Nat × Int} (hx : v2Result B eq p s = some x)
    (hx' : v2Result B' eq p (s ++ t) = some x') : x.2 ≤ x'.2 + Extends.drop K (p.length - 1) := by
  by_cases h1 : p.length = 1
  · obtain ⟨q, rfl⟩ := List.length_eq_one_iff.mp h1
    have e : ∀ B s, v2Result B eq [q] s = singleResult B eq q s := by intro B s; simp [v2Result]
    rw [e] at hx hx'
    obtain ⟨i, c, rfl, hi, hc, _⟩ := singleResult_some hx
    obtain ⟨j, d, rfl, _, _, hmax⟩ := singleResult_some hx'
    have hlt : i < s.length := (List.getElem?_eq_some_iff.mp hi).1
    have := (hmax i c (by rw [List.getElem?_append_left hlt, hi]) hc).1
    rw [hBB i hlt] at this
    simp only [List.length_singleton, Nat.sub_self, Extends.drop]
    omega
  · have hl : 2 ≤ p.length := by have := List.length_pos_iff.mpr hp; omega
    have hg : ∃ g, greedyFrom eq s p 0 = some g := by
      unfold v2Result at hx
      rw [if_neg h1, Option.map_eq_some_iff] at hx
      obtain ⟨g, hg, _⟩ := hx
      exact ⟨g, hg⟩
    obtain ⟨g, hg⟩ := hg
    have hs : Subseq (rel eq) p s := greedyFrom_isSome.mp (by simp [hg])
    have hs' : Subseq (rel eq) p (s ++ t) := greedyFrom_isSome.mp (by simp [greedyFrom_append t _ _ _ hg])
    obtain ⟨G, hG⟩ := gridOf_exists (B := B) hp hs
    obtain ⟨G', hG'⟩ := gridOf_exists (B := B') hp hs'
    obtain ⟨r, c, hb, rfl⟩ := v2Result_grid hB hl hG hx
    obtain ⟨r', c', hb', rfl⟩ := v2Result_grid hB' hl hG' hx'
    have hE := extends_append hBB hg hG hG'
    obtain ⟨hr, hh, _⟩ := hb
    have hc : c ≤ G.last := ((hG.hit r c).mp hh).2.1
    have h2 := (hE.table_le h8 (by rw [hG.bonus]; exact hBK) (by rw [hG'.bonus]; exact hB') c r hr hc).1 (.inl hh)
    have h3 := (hb'.2.2 r c hr (by rw [hE.hit r c hr hc]; exact hh)).1
    have h5 := Extends.drop_mono (K := K) (by omega) (r := r) (r' := p.length - 1) (by omega)
    simp only
    omega

end Norm
