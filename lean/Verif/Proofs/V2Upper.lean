import Verif.Proofs.V2Spec

/-! An upper bound for the scores in the table of `FzfV2`: each is the documented score of an alignment, up to 2 per row. -/

namespace Norm
open Spec

section Align
variable (B : Nat → Int)

/-- The bonus carried by a run that is continued at position `i`. -/
def nextRun (run : Int) (i : Nat) : Int := if B i ≥ 8 ∧ B i > run then B i else run

/-- Last position and bonus of the last run. -/
def endRun : (prev : Nat) → (run : Int) → List Nat → Nat × Int
  | prev, run, [] => (prev, run)
  | prev, run, i :: ps => if i = prev + 1 then endRun i (nextRun B run i) ps else endRun i (B i) ps

/-- What a further position adds. -/
def stepScore (e : Nat × Int) (i : Nat) : Int :=
  if i = e.1 + 1 then 16 + max (max (B i) (nextRun B e.2 i)) 4
  else 16 + B i - (3 + ((i - e.1 - 2 : Nat) : Int))

/-- The end after a further position. -/
def stepEnd (e : Nat × Int) (i : Nat) : Nat × Int := if i = e.1 + 1 then (i, nextRun B e.2 i) else (i, B i)

theorem runScore_snoc : ∀ (ps : List Nat) (prev : Nat) (run : Int) (x : Nat),
    runScore B prev run (ps ++ [x]) = runScore B prev run ps + stepScore B (endRun B prev run ps) x ∧
    endRun B prev run (ps ++ [x]) = stepEnd B (endRun B prev run ps) x := by
  intro ps
  induction ps with
  | nil =>
    intro prev run x
    constructor
    · show runScore B prev run [x] = 0 + stepScore B (prev, run) x
      simp only [runScore, stepScore, nextRun]
      split <;> omega
    · rfl
  | cons i ps ih =>
    intro prev run x
    simp only [List.cons_append, runScore, endRun]
    split
    · obtain ⟨h1, h2⟩ := ih i (nextRun B run i) x
      refine ⟨?_, h2⟩
      have h1' : runScore B i (if B i ≥ 8 ∧ B i > run then B i else run) (ps ++ [x]) =
        runScore B i (if B i ≥ 8 ∧ B i > run then B i else run) ps + stepScore B (endRun B i (nextRun B run i) ps) x := h1
      rw [h1']; omega
    · obtain ⟨h1, h2⟩ := ih i (B i) x
      refine ⟨?_, h2⟩
      rw [h1]; omega

/-- Last position and run of a non-empty alignment. -/
def endOf : List Nat → Nat × Int
  | [] => (0, 0)
  | i :: ps => endRun B i (B i) ps

theorem alignScore_snoc {ps : List Nat} (h : ps ≠ []) (x : Nat) :
    alignScore B (ps ++ [x]) = alignScore B ps + stepScore B (endOf B ps) x ∧
      endOf B (ps ++ [x]) = stepEnd B (endOf B ps) x := by
  cases ps with
  | nil => exact absurd rfl h
  | cons i ps =>
    obtain ⟨h1, h2⟩ := runScore_snoc B ps i (B i) x
    simp only [List.cons_append, alignScore, endOf]
    exact ⟨by rw [h1]; omega, h2⟩

theorem endRun_last : ∀ (ps : List Nat) (prev : Nat) (run : Int), (endRun B prev run ps).1 = ps.getLastD prev := by
  intro ps
  induction ps with
  | nil => intro prev run; rfl
  | cons i ps ih =>
    intro prev run
    simp only [endRun, List.getLastD_cons]
    split <;> exact ih ..

end Align

/-- The cost of a gap from the matched position `j` up to and including `c`. -/
def gapTo (j c : Nat) : Int := if j = c then 0 else 3 + ((c - j - 1 : Nat) : Int)

theorem alignment_snoc {R : Char → Char → Prop} {p s : List Char} {ps : List Nat} {q : Char} {x : Nat}
    (h : Alignment R p s ps) (hx : ∀ i ∈ ps, i < x) (hq : ∃ c, s[x]? = some c ∧ R q c) :
    Alignment R (p ++ [q]) s (ps ++ [x]) := by
  refine ⟨?_, List.rel_append h.spells (.cons hq .nil)⟩
  rw [List.pairwise_append]
  refine ⟨h.increasing, by simp, ?_⟩
  intro a ha b hb
  rw [List.mem_singleton] at hb
  rw [hb]
  exact hx a ha

/-- What is used about a grid. -/
structure GridOk (R : Char → Char → Prop) (B : Nat → Int) (p s : List Char) (G : Grid) : Prop where
  hit : ∀ r c, G.hit r c = true → G.first r ≤ c ∧ c ≤ G.last ∧ ∃ q x, p[r]? = some q ∧ s[c]? = some x ∧ R q x
  start : ∀ r, r < p.length → G.hit r (G.first r) = true
  lt : ∀ r, r + 1 < p.length → G.first r < G.first (r + 1)
  bonus : G.bonus = B
  nonneg : ∀ i, 0 ≤ B i

theorem GridOf.ok {R : Char → Char → Prop} {B : Nat → Int} {p s : List Char} {G : Grid} (h : GridOf R B p s G)
    (hB : ∀ i, 0 ≤ B i) : GridOk R B p s G := by
  have hal := h.first.1
  have hinc := List.pairwise_iff_getElem.mp hal.increasing
  have hsp := (List.forall₂_iff_get.mp hal.spells).2
  have hmono : ∀ r r', r < r' → r' < p.length → G.first r < G.first r' := by
    intro r r' h1 h2
    have := hinc r r' (by simp; omega) (by simp; omega) h1
    simpa using this
  refine ⟨fun r c hh => (h.hit r c).mp hh, ?_, fun r hr => hmono r _ (by omega) hr, h.bonus, hB⟩
  intro r hr
  rw [h.hit]
  have hs : ∀ r, (hr : r < p.length) → ∃ c, s[G.first r]? = some c ∧ R p[r] c := by
    intro r hr
    have := hsp r hr (by simp; omega)
    simpa using this
  obtain ⟨c, hc, hR⟩ := hs r hr
  refine ⟨Nat.le_refl _, ?_, p[r], c, List.getElem?_eq_getElem hr, hc, hR⟩
  obtain ⟨q, x, hq, hx, _, hmax⟩ := h.last
  have hl : p.length - 1 < p.length := by omega
  obtain ⟨y, hy, hRy⟩ := hs _ hl
  have hql : q = p[p.length - 1] := by
    rw [List.getLast?_eq_getElem?, List.getElem?_eq_getElem hl] at hq
    exact (Option.some.inj hq).symm
  have h1 : G.first (p.length - 1) ≤ G.last := by
    by_contra hcon
    exact hmax _ y (by omega) hy (by rw [hql]; exact hRy)
  by_cases h2 : r = p.length - 1
  · rw [h2]; exact h1
  · have := hmono r (p.length - 1) (by omega) (by omega)
    omega

section Table
variable {R : Char → Char → Prop} {B : Nat → Int} {p s : List Char} {G : Grid}

/-- No match from column `c` on. -/
def Tail (G : Grid) (r c : Nat) : Prop := ∀ c', c ≤ c' → c' ≤ G.last → G.hit r c' = false

open Classical in
/-- The cell `(r, c)` is explained by the alignment `ps` of the query characters `i..r`. -/
structure Explains (R : Char → Char → Prop) (B : Nat → Int) (p s : List Char) (G : Grid) (r c i : Nat) (ps : List Nat) :
    Prop where
  le : i ≤ r
  lt : r < p.length
  align : Alignment R ((p.take (r + 1)).drop i) s ps
  ne : ps ≠ []
  bound : ∀ x ∈ ps, x ≤ (endOf B ps).1
  upto : (endOf B ps).1 ≤ c
  hit : G.hit r (endOf B ps).1 = true
  score : (G.table r c).1 ≤
    alignScore B ps - gapTo (endOf B ps).1 c + 2 * ((r : Int) - i) + (if Tail G r c then 2 else 0)
  run : 0 < (G.table r c).2 → (endOf B ps).1 = c ∧ (G.table r c).2 ≤ c + 1 ∧
    B (c + 1 - (G.table r c).2) ≤ (endOf B ps).2
  gap : (G.table r c).2 = 0 → (endOf B ps).1 < c

/-- A cell is worth nothing, or explained; by all the query up to its row, unless `L`. -/
def Explained (L : Prop) (R : Char → Char → Prop) (B : Nat → Int) (p s : List Char) (G : Grid) (r c : Nat) : Prop :=
  (L ∧ (G.table r c).1 ≤ 0 ∧ (G.table r c).2 = 0) ∨ ∃ i ps, (i = 0 ∨ L) ∧ Explains R B p s G r c i ps

theorem take_drop_succ {r i : Nat} (hi : i ≤ r) (hr : r < p.length) :
    (p.take (r + 1)).drop i = (p.take r).drop i ++ [p[r]] := by
  rw [List.take_succ_eq_append_getElem hr, List.drop_append_of_le_length (by simp; omega)]

theorem reach_bounds (r c : Nat) : 1 ≤ G.reach r c ∧ G.reach r c ≤ 3 := by
  unfold Grid.reach; split <;> omega

theorem cost_bounds (r c : Nat) : 1 ≤ G.cost r c ∧ G.cost r c ≤ 3 := by
  unfold Grid.cost
  have h1 := reach_bounds (G := G) r c
  have h2 := reach_bounds (G := G) r (c - 1)
  split
  · exact h1
  · split
    · split
      · exact h2
      · omega
    · omega

/-- A single position explains a match whose score is small. -/
theorem explains_single (hG : GridOk R B p s G) {r c : Nat} (hr : r < p.length) (hh : G.hit r c = true)
    (hs : (G.table r c).1 ≤ 16 + 2 * B c) (hrun : (G.table r c).2 = 1) : Explains R B p s G r c r [c] := by
  obtain ⟨_, h2, q, x, hq, hx, hR⟩ := hG.hit r c hh
  have hqe : p[r] = q := by rw [List.getElem?_eq_getElem hr] at hq; exact Option.some.inj hq
  refine ⟨Nat.le_refl _, hr, ⟨by simp, ?_⟩, by simp, by simp [endOf, endRun], by simp [endOf, endRun],
    by simpa [endOf, endRun] using hh, ?_, ?_, by omega⟩
  · rw [take_drop_succ (Nat.le_refl _) hr, List.drop_of_length_le (by simp; omega), List.nil_append]
    exact .cons ⟨x, hx, by rw [hqe]; exact hR⟩ .nil
  · have hz : ¬ Tail G r c := by
      intro ht
      rw [ht c (Nat.le_refl _) h2] at hh
      cases hh
    rw [if_neg hz]
    simp only [alignScore, runScore, endOf, endRun, gapTo, if_true]
    omega
  · intro h0
    rw [hrun]
    simp [endOf, endRun]

/-- Moving right to a column that does not match. -/
theorem explains_right {r c i : Nat} {ps : List Nat} (hE : Explains R B p s G r c i ps)
    (hc : c + 1 ≤ G.last) (hh : G.hit r (c + 1) = false)
    (ht : G.table r (c + 1) = ((G.table r c).1 - G.cost r (c + 1), 0)) : Explains R B p s G r (c + 1) i ps := by
  have hu := hE.upto
  refine ⟨hE.le, hE.lt, hE.align, hE.ne, hE.bound, by omega, hE.hit, ?_, by rw [ht]; simp, fun _ => by omega⟩
  rw [ht]
  have hs := hE.score
  have hcost := cost_bounds (G := G) r (c + 1)
  have htail : Tail G r c → Tail G r (c + 1) := fun h c' h1 h2 => h c' (by omega) h2
  simp only [gapTo] at hs ⊢
  rw [if_neg (by omega)]
  by_cases hj : (endOf B ps).1 = c
  · rw [if_pos hj] at hs
    have hhit := hE.hit
    rw [hj] at hhit
    have h0 : ¬ Tail G r c := by
      intro h
      rw [h c (Nat.le_refl _) (by omega)] at hhit
      cases hhit
    rw [if_neg h0] at hs
    by_cases h1 : Tail G r (c + 1)
    · rw [if_pos h1]
      omega
    · rw [if_neg h1]
      have h3 : G.cost r (c + 1) = 3 := by
        unfold Grid.cost
        rw [if_neg (by simp [hh]), Nat.add_sub_cancel, if_pos hhit, if_neg]
        intro hall
        apply h1
        intro c' h4 h5
        by_cases h6 : c' = c + 1
        · rw [h6]; exact hh
        · exact hall c' h5 (by omega)
      omega
  · rw [if_neg hj] at hs
    by_cases h1 : Tail G r (c + 1)
    · rw [if_pos h1]
      split at hs <;> omega
    · rw [if_neg (fun h => h1 (htail h))] at hs
      rw [if_neg h1]
      omega

theorem table_cons_le : ∀ (c r : Nat), (G.table r c).2 ≤ c + 1 := by
  intro c
  induction c with
  | zero =>
    intro r
    cases r with
    | zero => simp only [Grid.table]; split <;> simp
    | succ r => simp [Grid.table]
  | succ c ih =>
    intro r
    cases r with
    | zero => simp only [Grid.table]; split <;> simp
    | succ r =>
      simp only [Grid.table]
      split
      · simp
      · split
        · have := ih r
          have h1 : (G.runBonus (c + 1) (G.table r c).2).2 ≤ c + 1 + 1 := by
            unfold Grid.runBonus
            split
            · simp
            · split
              · simp
              · simp only; omega
          unfold Grid.cell
          split
          · simp
          · exact h1
        · simp

/-- Every cell is explained. `L` is needed where the zero left of a row's first column is more than the previous row's score
allows for. -/
theorem explained {L : Prop} (hG : GridOk R B p s G)
    (hL : L ∨ ∀ r, r + 1 < p.length → -19 ≤ (G.table r (G.first (r + 1) - 1)).1) : ∀ (c r : Nat), r < p.length → G.first r ≤ c → c ≤ G.last →
    Explained L R B p s G r c := by
  intro c
  induction c with
  | zero =>
    intro r hr hf hc
    cases r with
    | zero =>
      have hh := hG.start 0 hr
      rw [show G.first 0 = 0 by omega] at hh
      refine .inr ⟨0, [0], .inl rfl, explains_single hG hr hh ?_ ?_⟩
      · simp only [Grid.table, hG.bonus]; exact Int.le_refl _
      · simp only [Grid.table, if_pos hh]
    | succ r => have := hG.lt r hr; omega
  | succ c ih =>
    intro r hr hf hc
    -- moving right
    have hright : G.hit r (c + 1) = false → G.table r (c + 1) = ((G.table r c).1 - G.cost r (c + 1), 0) →
        Explained L R B p s G r (c + 1) := by
      intro hh ht
      have hf' : G.first r ≤ c := by
        by_contra hcon
        have := hG.start r hr
        rw [show G.first r = c + 1 by omega, hh] at this
        cases this
      rcases ih r hr hf' (by omega) with h0 | ⟨i, ps, hi, hE⟩
      · refine .inl ⟨h0.1, ?_, by rw [ht]⟩
        rw [ht]
        have := cost_bounds (G := G) r (c + 1)
        simp only
        omega
      · exact .inr ⟨i, ps, hi, explains_right hE hc hh ht⟩
    cases r with
    | zero =>
      by_cases hh : G.hit 0 (c + 1) = true
      · refine .inr ⟨0, [c + 1], .inl rfl, explains_single hG hr hh ?_ ?_⟩
        · simp only [Grid.table, if_pos hh, hG.bonus]; exact Int.le_refl _
        · simp only [Grid.table, if_pos hh]
      · refine hright (by simpa using hh) ?_
        simp only [Grid.table, if_neg hh]
    | succ r =>
      have htab : G.table (r + 1) (c + 1) = if G.hit (r + 1) (c + 1) = true then
          G.cell (c + 1) ((G.table (r + 1) c).1 - G.cost (r + 1) (c + 1)) (G.table r c)
        else ((G.table (r + 1) c).1 - G.cost (r + 1) (c + 1), 0) := by
        simp only [Grid.table]
        rw [if_neg (by omega)]
      by_cases hh : G.hit (r + 1) (c + 1) = true
      · rw [if_pos hh] at htab
        have hBn := hG.nonneg
        by_cases hlt : (G.table r c).1 + 16 + (G.runBonus (c + 1) (G.table r c).2).1 <
            (G.table (r + 1) c).1 - G.cost (r + 1) (c + 1)
        · -- the score on the left is kept
          have hrb : G.bonus (c + 1) ≤ (G.runBonus (c + 1) (G.table r c).2).1 := by
            unfold Grid.runBonus
            split
            · exact Int.le_refl _
            · split
              · exact Int.le_refl _
              · simp only; omega
          have ht : G.table (r + 1) (c + 1) = ((G.table (r + 1) c).1 - G.cost (r + 1) (c + 1), 0) := by
            rw [htab]
            unfold Grid.cell
            rw [if_pos hlt, Prod.mk.injEq]
            exact ⟨by omega, rfl⟩
          have hcost := cost_bounds (G := G) (r + 1) (c + 1)
          by_cases hfc : G.first (r + 1) ≤ c
          · rcases ih (r + 1) hr hfc (by omega) with h0 | ⟨i, ps, hi, hE⟩
            · exact .inl ⟨h0.1, by rw [ht]; simp only; omega, by rw [ht]⟩
            · refine .inr ⟨i, ps, hi, ?_⟩
              have hu := hE.upto
              refine ⟨hE.le, hr, hE.align, hE.ne, hE.bound, by omega, hE.hit, ?_, by rw [ht]; simp, fun _ => by omega⟩
              rw [ht]
              have hs := hE.score
              have hnt : ∀ c', c' ≤ c + 1 → ¬ Tail G (r + 1) c' := by
                intro c' h1 h
                rw [h (c + 1) h1 hc] at hh
                cases hh
              rw [if_neg (hnt _ (by omega))] at hs ⊢
              simp only [gapTo] at hs ⊢
              rw [if_neg (by omega)]
              by_cases hj : (endOf B ps).1 = c
              · rw [if_pos hj] at hs
                have hhit := hE.hit
                rw [hj] at hhit
                have h3 : G.cost (r + 1) (c + 1) = 3 := by
                  unfold Grid.cost Grid.reach
                  rw [if_pos hh, Nat.add_sub_cancel, if_pos (.inr hhit)]
                omega
              · rw [if_neg hj] at hs
                omega
          · have h0 : (G.table (r + 1) c).1 = 0 := by
              cases c with
              | zero => simp [Grid.table]
              | succ c => simp only [Grid.table]; rw [if_pos (by omega)]
            refine .inl ⟨?_, by rw [ht]; simp only; omega, by rw [ht]⟩
            rcases hL with hL | hL
            · exact hL
            · have h1 := hL r hr
              have h2 := hBn (c + 1)
              rw [show G.first (r + 1) - 1 = c by omega] at h1
              rw [hG.bonus] at hrb
              have h3 : G.cost (r + 1) (c + 1) = 3 := by
                unfold Grid.cost Grid.reach
                rw [if_pos hh, if_pos (.inl (by omega))]
              omega
        · -- the character is matched here
          have ht : G.table (r + 1) (c + 1) = ((G.table r c).1 + 16 + (G.runBonus (c + 1) (G.table r c).2).1,
              (G.runBonus (c + 1) (G.table r c).2).2) := by
            rw [htab]
            unfold Grid.cell
            rw [if_neg hlt]
          have hfl := hG.lt r hr
          rcases ih r (by omega) (by omega) (by omega) with ⟨hl, h0, h1⟩ | ⟨i, ps, hi, hE⟩
          · refine .inr ⟨r + 1, [c + 1], .inr hl, explains_single hG hr hh ?_ ?_⟩
            · rw [ht, h1]
              simp only [Grid.runBonus, if_true, hG.bonus]
              have := hBn (c + 1)
              omega
            · rw [ht, h1]
              simp [Grid.runBonus]
          · obtain ⟨h1, h2, q, x, hq, hx, hR⟩ := hG.hit _ _ hh
            have hqe : p[r + 1] = q := by
              rw [List.getElem?_eq_getElem hr] at hq; exact Option.some.inj hq
            obtain ⟨hsc, hen⟩ := alignScore_snoc B hE.ne (c + 1)
            have hu := hE.upto
            have hle := hE.le
            have hen1 : (endOf B (ps ++ [c + 1])).1 = c + 1 := by
              rw [hen]; unfold stepEnd; split <;> rfl
            have hnt : ¬ Tail G (r + 1) (c + 1) := by
              intro h
              rw [h (c + 1) (Nat.le_refl _) hc] at hh
              cases hh
            refine .inr ⟨i, ps ++ [c + 1], hi, by omega, hr, ?_, by simp, ?_, by omega, by rw [hen1]; exact hh, ?_, ?_, ?_⟩
            · rw [take_drop_succ (by omega) hr]
              refine alignment_snoc hE.align ?_ ⟨x, hx, by rw [hqe]; exact hR⟩
              intro y hy
              have := hE.bound y hy
              omega
            · rw [hen1]
              intro y hy
              rcases List.mem_append.mp hy with hy | hy
              · have := hE.bound y hy; omega
              · simp at hy; omega
            · rw [if_neg hnt, hen1, hsc, ht]
              have hs := hE.score
              classical
              have hslack : (if Tail G r c then (2 : Int) else 0) ≤ 2 := by split <;> omega
              simp only [gapTo, if_true]
              have hstep : (G.runBonus (c + 1) (G.table r c).2).1 + 16 - gapTo (endOf B ps).1 c ≤
                  stepScore B (endOf B ps) (c + 1) := by
                unfold stepScore gapTo
                by_cases hj : (endOf B ps).1 = c
                · rw [if_pos hj, if_pos (by omega)]
                  by_cases hz : (G.table r c).2 = 0
                  · simp only [hz, Grid.runBonus, if_true, hG.bonus]
                    omega
                  · obtain ⟨_, h4, h5⟩ := hE.run (by omega)
                    simp only [Grid.runBonus, if_neg hz, hG.bonus]
                    rw [show c + 1 - (G.table r c).2 = c + 1 - (G.table r c).2 from rfl]
                    unfold nextRun
                    split
                    · simp only; omega
                    · simp only
                      split <;> omega
                · rw [if_neg hj, if_neg (by omega)]
                  have hz : (G.table r c).2 = 0 := by
                    by_contra hz
                    exact hj (hE.run (by omega)).1
                  simp only [hz, Grid.runBonus, if_true, hG.bonus]
                  omega
              push_cast
              omega
            · intro _
              refine ⟨hen1, table_cons_le _ _, ?_⟩
              rw [ht, hen]
              unfold stepEnd
              by_cases hj : (endOf B ps).1 = c
              · rw [if_pos (by omega)]
                by_cases hz : (G.table r c).2 = 0
                · have := hE.gap hz; omega
                · obtain ⟨_, h4, h5⟩ := hE.run (by omega)
                  simp only [Grid.runBonus, if_neg hz, hG.bonus]
                  unfold nextRun
                  split
                  · simp only [Nat.add_sub_cancel]
                    split <;> omega
                  · simp only
                    rw [show c + 1 + 1 - ((G.table r c).2 + 1) = c + 1 - (G.table r c).2 by omega]
                    split <;> omega
              · have hz : (G.table r c).2 = 0 := by
                  by_contra hz
                  exact hj (hE.run (by omega)).1
                rw [if_neg (by omega)]
                simp only [hz, Grid.runBonus, if_true, Nat.add_sub_cancel]
                exact Int.le_refl _
            · rw [ht]
              intro hz
              exfalso
              revert hz
              simp only [Grid.runBonus]
              split
              · simp
              · split <;> simp
      · rw [if_neg hh] at htab
        exact hright (by simpa using hh) htab

/-- Scores right of the first match of a row are large when few characters are skipped. -/
theorem table_ge_first (hG : GridOk R B p s G) : ∀ c r, r < p.length → G.first r ≤ c → c ≤ G.last →
    16 * ((r : Int) + 1) - 3 * ((c : Int) - G.first 0 - r) ≤ (G.table r c).1 := by
  have hBn := hG.nonneg
  intro c
  induction c with
  | zero =>
    intro r hr hf hc
    cases r with
    | zero =>
      have := hBn 0
      simp only [Grid.table, hG.bonus]
      omega
    | succ r => have := hG.lt r hr; omega
  | succ c ih =>
    intro r hr hf hc
    have hright : G.first r ≤ c → 16 * ((r : Int) + 1) - 3 * (((c + 1 : Nat) : Int) - G.first 0 - r) ≤
        (G.table r c).1 - G.cost r (c + 1) := by
      intro hf'
      have h1 := ih r hr hf' (by omega)
      have h2 := cost_bounds (G := G) r (c + 1)
      push_cast
      omega
    have hnofirst : G.hit r (c + 1) = false → G.first r ≤ c := by
      intro hh
      by_contra hcon
      have := hG.start r hr
      rw [show G.first r = c + 1 by omega, hh] at this
      cases this
    cases r with
    | zero =>
      by_cases hh : G.hit 0 (c + 1) = true
      · have := hBn (c + 1)
        simp only [Grid.table, if_pos hh, hG.bonus]
        omega
      · have := hright (hnofirst (by simpa using hh))
        simp only [Grid.table, if_neg hh]
        exact this
    | succ r =>
      have htab : G.table (r + 1) (c + 1) = if G.hit (r + 1) (c + 1) = true then
          G.cell (c + 1) ((G.table (r + 1) c).1 - G.cost (r + 1) (c + 1)) (G.table r c)
        else ((G.table (r + 1) c).1 - G.cost (r + 1) (c + 1), 0) := by
        simp only [Grid.table]
        rw [if_neg (by omega)]
      rw [htab]
      by_cases hh : G.hit (r + 1) (c + 1) = true
      · rw [if_pos hh]
        have hlt := hG.lt r hr
        have h1 := ih r (by omega) (by omega) (by omega)
        have h2 := hBn (c + 1)
        have h3 : (G.table r c).1 + 16 + B (c + 1) ≤
            (G.cell (c + 1) ((G.table (r + 1) c).1 - G.cost (r + 1) (c + 1)) (G.table r c)).1 := by
          unfold Grid.cell
          rw [← hG.bonus]
          have hrb : G.bonus (c + 1) ≤ (G.runBonus (c + 1) (G.table r c).2).1 := by
            unfold Grid.runBonus
            split
            · exact Int.le_refl _
            · split
              · exact Int.le_refl _
              · simp only; omega
          split
          · simp only; omega
          · simp only; omega
        push_cast
        omega
      · rw [if_neg hh]
        have := hright (hnofirst (by simpa using hh))
        exact this

/-- No cell scores more than 26 per row, plus 10. -/
theorem table_le (hb : ∀ i, G.bonus i ≤ 10) : ∀ c r, (G.table r c).1 ≤ 26 * ((r : Int) + 1) + 10 := by
  intro c
  induction c with
  | zero =>
    intro r
    cases r with
    | zero => have := hb 0; simp only [Grid.table]; omega
    | succ r => simp only [Grid.table]; omega
  | succ c ih =>
    intro r
    have hcost := cost_bounds (G := G) r (c + 1)
    have h1 := ih r
    cases r with
    | zero =>
      have := hb (c + 1)
      simp only [Grid.table]
      split
      · simp only; omega
      · simp only; omega
    | succ r =>
      have h2 := ih r
      have h3 := hb (c + 1)
      have h4 := hb (c + 1 - (G.table r c).2)
      simp only [Grid.table]
      push_cast at h1 ⊢
      split
      · simp only; omega
      · split
        · have hrb : (G.runBonus (c + 1) (G.table r c).2).1 ≤ 10 := by
            unfold Grid.runBonus
            split
            · exact h3
            · split
              · exact h3
              · simp only; omega
          unfold Grid.cell
          split
          · simp only; omega
          · simp only; omega
        · simp only; omega

end Table

/-- The score of `v2Result` against the documented one. -/
theorem v2Result_explained {B : Nat → Int} {eq : CharEq} {p s : List Char} {x : List Nat × Int} (hB : ∀ i, 0 ≤ B i)
    (hB' : ∀ i, B i ≤ 10) (hp : p ≠ []) (L : Prop)
    (hL : L ∨ ∀ g, Leftmost (rel eq) p s g →
      ∀ k i j, g[0]? = some i → g[k]? = some j → 3 * (j - i - k) ≤ 16 * k + 19)
    (hx : v2Result B eq p s = some x) :
    ∃ i k ps, (i = 0 ∨ L) ∧ i < k ∧ k ≤ p.length ∧ Alignment (rel eq) ((p.take k).drop i) s ps ∧
      x.2 ≤ alignScore B ps + 2 * ((k : Int) - i - 1) ∧ x.2 ≤ 26 * (k : Int) + 10 := by
  have hpl := List.length_pos_iff.mpr hp
  by_cases h1 : p.length = 1
  · unfold v2Result at hx
    rw [if_pos h1] at hx
    obtain ⟨i, c, rfl, hc, hq, _⟩ := singleResult_some hx
    obtain ⟨q, rfl⟩ := List.length_eq_one_iff.mp h1
    refine ⟨0, 1, [i], .inl rfl, by omega, by omega, ⟨by simp, .cons ⟨c, hc, hq⟩ .nil⟩, ?_, ?_⟩
    · simp only [alignScore, runScore]; omega
    · have := hB' i
      simp only; omega
  · have hal : Subseq (rel eq) p s := by
      by_contra hcon
      rw [(v2Result_none hB).mpr hcon] at hx
      cases hx
    obtain ⟨G, hG⟩ := gridOf_exists (B := B) hp hal
    obtain ⟨r, c, hb, rfl⟩ := v2Result_grid hB (by omega) hG hx
    have hok := GridOf.ok hG hB
    obtain ⟨hr, hh, hmax⟩ := hb
    obtain ⟨hf, hc, _⟩ := hok.hit r c hh
    have hE := explained (L := L) hok (by
      rcases hL with hL | hL
      · exact .inl hL
      · refine .inr ?_
        intro r hr
        have hlt := hok.lt r hr
        have h1 := (hok.hit _ _ (hok.start (r + 1) hr)).2.1
        have h2 := table_ge_first hok (G.first (r + 1) - 1) r (by omega) (by omega) (by omega)
        have h3 := hL _ hG.first (r + 1) (G.first 0) (G.first (r + 1)) (by simp [hpl]) (by simp [hr])
        have h4 : ∀ r, r < p.length → G.first 0 + r ≤ G.first r := by
          intro r
          induction r with
          | zero => intro _; omega
          | succ r ih => intro hr; have := hok.lt r hr; have := ih (by omega); omega
        have := h4 (r + 1) hr
        omega) c r hr hf hc
    have hle := table_le (G := G) (by rw [hok.bonus]; exact hB') c r
    have hpos : 0 < (G.table r c).1 := by
      have h1 := (hmax 0 (G.first 0) hpl (hok.start 0 hpl)).1
      have h2 : 16 ≤ (G.table 0 (G.first 0)).1 := by
        have := hok.start 0 hpl
        cases hf0 : G.first 0 with
        | zero => have := hB 0; simp only [Grid.table, hok.bonus]; omega
        | succ f =>
          rw [hf0] at this
          have h3 := hB (f + 1)
          simp only [Grid.table, hok.bonus, if_pos this]
          omega
      omega
    rcases hE with ⟨_, h0, _⟩ | ⟨i, ps, hi, hE⟩
    · omega
    · refine ⟨i, r + 1, ps, hi, by have := hE.le; omega, by omega, hE.align, ?_, by push_cast; omega⟩
      have hs := hE.score
      have hnt : ¬ Tail G r c := by
        intro h
        rw [h c (Nat.le_refl _) hc] at hh
        cases hh
      rw [if_neg hnt] at hs
      have : 0 ≤ gapTo (endOf B ps).1 c := by unfold gapTo; split <;> omega
      push_cast
      omega

end Norm
