import Verif.Proofs.Outcome
import Verif.Proofs.Relations
import Verif.Proofs.Closest

/-!
# Helper lemmas about the scoring schemes Default and History -/

namespace Norm
open Spec

variable {U : Unicode} {a : Algo} {st : Settings} {s : List Char} {p : Pattern}

/-! ### Larger bonuses -/

theorem runScore_mono {B B' : Nat → Int} (h : ∀ i, B i ≤ B' i) : ∀ (ps : List Nat) (prev : Nat) {run run' : Int},
    run ≤ run' → runScore B prev run ps ≤ runScore B' prev run' ps := by
  intro ps
  induction ps with
  | nil => intro prev run run' _; exact Int.le_refl _
  | cons i ps ih =>
    intro prev run run' hr
    have hi := h i
    simp only [runScore]
    split
    · have := ih i (run := if B i ≥ 8 ∧ B i > run then B i else run)
        (run' := if B' i ≥ 8 ∧ B' i > run' then B' i else run') (by split <;> split <;> omega)
      have h2 : (if B i ≥ 8 ∧ B i > run then B i else run) ≤ (if B' i ≥ 8 ∧ B' i > run' then B' i else run') := by
        split <;> split <;> omega
      omega
    · have := ih i hi
      omega

/-- An alignment's score grows with the bonuses. -/
theorem alignScore_mono {B B' : Nat → Int} (h : ∀ i, B i ≤ B' i) (ps : List Nat) : alignScore B ps ≤ alignScore B' ps := by
  cases ps with
  | nil => exact Int.le_refl _
  | cons i ps =>
    have := runScore_mono h ps i (h i)
    have := h i
    simp only [alignScore]
    omega

theorem runScore_more {B B' : Nat → Int} {e : Int} (he : 0 ≤ e) (h : ∀ i, B' i ≤ B i + e) (h8 : ∀ i, 8 ≤ B' i → 8 ≤ B i) :
    ∀ (ps : List Nat) (prev : Nat) {run run' : Int}, run' ≤ run + e →
      runScore B' prev run' ps ≤ runScore B prev run ps + e * ps.length := by
  intro ps
  induction ps with
  | nil => intro prev run run' _; simp [runScore]
  | cons i ps ih =>
    intro prev run run' hr
    have hi := h i
    have hi8 := h8 i
    have hm : e * ((i :: ps).length : Int) = e + e * ps.length := by
      rw [List.length_cons]; push_cast; rw [Int.mul_add]; omega
    rw [hm]
    simp only [runScore]
    split
    · have h2 : (if B' i ≥ 8 ∧ B' i > run' then B' i else run') ≤ (if B i ≥ 8 ∧ B i > run then B i else run) + e := by
        split <;> split <;> omega
      have := ih i h2
      omega
    · have := ih i hi
      omega

/-- How much it grows at most, if the bonuses that grow are those that are at least 8 already. -/
theorem alignScore_more {B B' : Nat → Int} {e : Int} (he : 0 ≤ e) (h : ∀ i, B' i ≤ B i + e) (h8 : ∀ i, 8 ≤ B' i → 8 ≤ B i)
    (ps : List Nat) : alignScore B' ps ≤ alignScore B ps + e * (ps.length + 1) := by
  cases ps with
  | nil => simp only [alignScore, List.length_nil]; push_cast; omega
  | cons i ps =>
    have := runScore_more he h h8 ps i (h i)
    have := h i
    have hm : e * (((i :: ps).length : Int) + 1) = 2 * e + e * ps.length := by
      rw [List.length_cons]; push_cast; rw [Int.mul_add, Int.mul_add]; omega
    rw [hm]
    simp only [alignScore]
    omega

/-! ### History and Default -/

theorem classOf_history : classOf U .history = classOf U .default := rfl

theorem bonus_history (x y : CharClass) : bonus .history x y ≤ bonus .default x y ∧ bonus .default x y ≤ bonus .history x y + 2 ∧
    (bonus .default x y < 8 → bonus .default x y = bonus .history x y) ∧ (8 ≤ bonus .default x y → 8 ≤ bonus .history x y) := by
  cases x <;> cases y <;> decide

theorem posBonus_history (i : Nat) : posBonus U .history s i ≤ posBonus U .default s i ∧
    posBonus U .default s i ≤ posBonus U .history s i + 2 ∧ (8 ≤ posBonus U .default s i → 8 ≤ posBonus U .history s i) := by
  unfold posBonus
  have hc : classBefore U .history s i = classBefore U .default s i := rfl
  rw [hc, classOf_history]
  cases s[i]? with
  | none => simp
  | some c => exact ⟨(bonus_history _ _).1, (bonus_history _ _).2.1, (bonus_history _ _).2.2.2⟩

theorem seenBonus_history (seen : Nat → CharClass) (i : Nat) :
    (8 ≤ seenBonus U .default s seen i ↔ 8 ≤ seenBonus U .history s seen i) ∧
      (seenBonus U .default s seen i < 8 → seenBonus U .default s seen i = seenBonus U .history s seen i) := by
  unfold seenBonus
  rw [classOf_history]
  cases s[i]? with
  | none => simp
  | some c =>
    obtain ⟨h1, h2, h3, h4⟩ := bonus_history (seen i) (classOf U .default c)
    exact ⟨⟨h4, fun h => by simp only at h ⊢; omega⟩, h3⟩

theorem blockAt_history {R : Char → Char → Prop} {t : List Char} {k : MatchType} {i : Nat}
    (h : BlockAt U .history R t s k i) : BlockAt U .default R t s k i := by
  cases k with
  | exact =>
    obtain ⟨seen, h1, h2, h3⟩ := h
    refine ⟨seen, ⟨h1.start, h1.skip, h1.one, h1.more⟩, h2, ?_⟩
    have hb := seenBonus_history (U := U) (s := s) seen
    rcases h3 with ⟨h3, h4⟩ | h3
    · refine .inl ⟨(hb i).1.mpr h3, fun j hj ho => ?_⟩
      have := h4 j hj ho
      have := (hb j).1
      omega
    · refine .inr fun j ho => ?_
      have hi := h3 i h2
      obtain ⟨h4, h5, h6⟩ := h3 j ho
      have b1 := hb i
      have b2 := hb j
      refine ⟨by omega, by omega, fun hj => ?_⟩
      have := h6 hj
      omega
  | fuzzy => exact h
  | prefixExact => exact h
  | suffixExact => exact h
  | equalExact => exact h

/-- The settings with another scheme. -/
abbrev Settings.under (st : Settings) (S : FzfScheme) : Settings := { st with scheme := S }

/-- What the two schemes have in common for one pattern: the same ranges, and scores that differ by at most 2 for every character and 2 more. -/
def Near (n : Nat) (x y : List Range × Int) : Prop := x.1 = y.1 ∧ x.2 ≤ y.2 ∧ y.2 ≤ x.2 + 2 * (n + 1)

theorem near_align {rs : List Range} (ps : List Nat) :
    Near ps.length (rs, alignScore (posBonus U .history s) ps) (rs, alignScore (posBonus U .default s) ps) :=
  ⟨rfl, alignScore_mono (fun i => (posBonus_history i).1) ps,
    alignScore_more (by omega) (fun i => (posBonus_history i).2.1) (fun i => (posBonus_history i).2.2) ps⟩

theorem rawHit_history (ha : a = .v1 ∨ p.matchType ≠ .fuzzy) (hp : PatternOk U p) :
    (rawHit U (pureOf a) (st.under .history) s p = none ∧ rawHit U (pureOf a) (st.under .default) s p = none) ∨
    ∃ x y, rawHit U (pureOf a) (st.under .history) s p = some x ∧ rawHit U (pureOf a) (st.under .default) s p = some y ∧
      Near p.text.length x y := by
  by_cases hk : p.matchType = .fuzzy
  · obtain rfl := ha.resolve_right (fun h => h hk)
    unfold rawHit
    rw [hk]
    simp only [pureOf, v1Result]
    have he : (st.under .history).eqOf p = (st.under .default).eqOf p := rfl
    rw [he]
    cases hg : v1Align ((st.under .default).eqOf p) s p.text with
    | none => left; simp
    | some g =>
      right
      refine ⟨_, _, rfl, rfl, ?_⟩
      have hl : g.length = p.text.length := by
        obtain ⟨_, _, _, _, _, h, _⟩ := v1Align_some hp.1 hg
        have := h.spells.length_eq
        simpa using this.symm
      rw [← hl]
      exact near_align g
  · have h1 := rawHit_isSome (st := st.under .history) (s := s) (accepts a) hp
    have h2 := rawHit_isSome (st := st.under .default) (s := s) (accepts a) hp
    have h3 : RawMatches U (st.under .history) p s ↔ RawMatches U (st.under .default) p s := Iff.rfl
    cases hx : rawHit U (pureOf a) (st.under .history) s p with
    | none =>
      left
      cases hy : rawHit U (pureOf a) (st.under .default) s p with
      | none => exact ⟨rfl, rfl⟩
      | some y => rw [hx] at h1; rw [hy] at h2; simp [← h3, ← h1] at h2
    | some x =>
      right
      cases hy : rawHit U (pureOf a) (st.under .default) s p with
      | none => rw [hx] at h1; rw [hy] at h2; simp [← h3, ← h1] at h2
      | some y =>
        refine ⟨x, y, rfl, rfl, ?_⟩
        obtain ⟨i, b1, _, rfl⟩ := rawHit_block hk hp hx
        obtain ⟨j, b2, _, rfl⟩ := rawHit_block hk hp hy
        obtain rfl := blockAt_unique (st := st.under .default) hp (blockAt_history b1) b2
        have := near_align (U := U) (s := s) (rs := [byteRange s i (i + p.text.length)]) (List.range' i p.text.length)
        rwa [List.length_range'] at this

theorem patHit_history (ha : a = .v1 ∨ p.matchType ≠ .fuzzy) (hp : PatternOk U p) :
    (patHit U (pureOf a) (st.under .history) s p = none ∧ patHit U (pureOf a) (st.under .default) s p = none) ∨
    ∃ x y, patHit U (pureOf a) (st.under .history) s p = some x ∧ patHit U (pureOf a) (st.under .default) s p = some y ∧
      Near p.text.length x y := by
  have h := rawHit_history (st := st) (s := s) ha hp
  unfold patHit
  split
  · rcases h with ⟨h1, h2⟩ | ⟨x, y, h1, h2, _⟩
    · rw [h1, h2]
      exact .inr ⟨_, _, rfl, rfl, rfl, Int.le_refl _, by simp only; omega⟩
    · rw [h1, h2]
      exact .inl ⟨rfl, rfl⟩
  · exact h

theorem condHit_history {c : Condition} (ha : a = .v1 ∨ ∀ p ∈ c, p.matchType ≠ .fuzzy) (hc : ∀ p ∈ c, PatternOk U p) :
    (condHit U (pureOf a) (st.under .history) s c = none ∧ condHit U (pureOf a) (st.under .default) s c = none) ∨
    ∃ x y, condHit U (pureOf a) (st.under .history) s c = some x ∧ condHit U (pureOf a) (st.under .default) s c = some y ∧
      x.1 = y.1 ∧ x.2 ≤ y.2 := by
  unfold condHit
  induction c with
  | nil => left; simp
  | cons p c ih =>
    rw [List.findSome?_cons, List.findSome?_cons]
    rcases patHit_history (st := st) (s := s) (ha.imp id fun h => h p (by simp)) (hc p (by simp)) with ⟨h1, h2⟩ | ⟨x, y, h1, h2, h3⟩
    · rw [h1, h2]
      exact ih (ha.imp id fun h x hx => h x (by simp [hx])) fun x hx => hc x (by simp [hx])
    · rw [h1, h2]
      exact .inr ⟨x, y, rfl, rfl, h3.1, h3.2.1⟩

theorem condsHit_history {cs : List Condition} (ha : a = .v1 ∨ ∀ c ∈ cs, ∀ p ∈ c, p.matchType ≠ .fuzzy)
    (hc : ∀ c ∈ cs, ∀ p ∈ c, PatternOk U p) :
    (condsHit U (pureOf a) (st.under .history) s cs).1 = (condsHit U (pureOf a) (st.under .default) s cs).1 ∧
    ((condsHit U (pureOf a) (st.under .history) s cs).2 = none ∧ (condsHit U (pureOf a) (st.under .default) s cs).2 = none ∨
      ∃ x y, (condsHit U (pureOf a) (st.under .history) s cs).2 = some x ∧
        (condsHit U (pureOf a) (st.under .default) s cs).2 = some y ∧ x ≤ y) := by
  induction cs with
  | nil => simp [condsHit]
  | cons c cs ih =>
    obtain ⟨ih1, ih2⟩ := ih (ha.imp id fun h x hx => h x (by simp [hx])) fun x hx => hc x (by simp [hx])
    rcases condHit_history (st := st) (s := s) (ha.imp id fun h => h c (by simp)) (hc c (by simp)) with
      ⟨h1, h2⟩ | ⟨x, y, h1, h2, h3, h4⟩
    · simp [condsHit, h1, h2]
    · simp only [condsHit, h1, h2, h3, ih1, true_and]
      rcases ih2 with ⟨h5, h6⟩ | ⟨u, v, h5, h6, h7⟩
      · simp [h5, h6]
      · rw [h5, h6]
        exact .inr ⟨_, _, rfl, rfl, Int.add_le_add h4 h7⟩

/-! ### Two tables with different bonuses -/

section tables

/-- The bonus that a run of length `run` passes on to column `c`. -/
def Spec.Grid.carried (G : Grid) (c run : Nat) : Int := if run = 0 then 0 else max 4 (G.bonus (c - run))

theorem runBonus_fst {G : Grid} (h0 : ∀ c, 0 ≤ G.bonus c) (c run : Nat) : (G.runBonus c run).1 = max (G.carried c run) (G.bonus c) := by
  have := h0 c
  unfold Grid.runBonus Grid.carried
  split
  · simp only; omega
  · split
    · simp only; omega
    · rfl

theorem runBonus_snd (G : Grid) (c run : Nat) : (G.runBonus c run).2 ≠ 0 := by
  unfold Grid.runBonus
  split
  · simp
  · split <;> simp

theorem cell_fst {G : Grid} (h0 : ∀ c, 0 ≤ G.bonus c) (c : Nat) (left : Int) (up : Int × Nat) :
    (G.cell c left up).1 = max left (up.1 + 16 + max (G.carried c up.2) (G.bonus c)) := by
  unfold Grid.cell
  rw [runBonus_fst h0]
  split
  · simp only; omega
  · simp only; omega

theorem cell_snd (G : Grid) (c : Nat) (left : Int) (up : Int × Nat) :
    (G.cell c left up).2 = 0 ↔ up.1 + 16 + (G.runBonus c up.2).1 < left := by
  unfold Grid.cell
  split
  · rename_i h
    simp [h]
  · rename_i h
    simp [h, runBonus_snd]

theorem table_zero_run (G : Grid) (c : Nat) : (G.table 0 c).2 = if G.hit 0 c = true then 1 else 0 := by
  cases c with
  | zero => rfl
  | succ c => simp only [Grid.table]; split <;> simp

variable {G : Grid} {B' : Nat → Int} {e K : Int}

/-- How much less the run of the second table passes on to the next column. -/
theorem carried_le (hle : ∀ c, G.bonus c ≤ B' c + e) (he : 0 ≤ e) (c run : Nat) :
    G.carried c run ≤ ({ G with bonus := B' } : Grid).carried c run + e := by
  have := hle (c - run)
  unfold Grid.carried
  split
  · omega
  · simp only; omega

theorem carried_top (hK : ∀ c, G.bonus c ≤ K) (h4 : 4 ≤ K) (c run : Nat) : G.carried c run ≤ K := by
  have := hK (c - run)
  unfold Grid.carried
  split <;> omega

theorem carried_least (G : Grid) (c run : Nat) : 0 ≤ G.carried c run ∧ (run ≠ 0 → 4 ≤ G.carried c run) ∧ (run = 0 → G.carried c run = 0) := by
  unfold Grid.carried
  split
  · simp_all
  · simp_all; omega

/-- The cells of a row, from those of the row above. -/
theorem table_row (h0 : ∀ c, 0 ≤ G.bonus c) (h0' : ∀ c, 0 ≤ B' c) (hle : ∀ c, G.bonus c ≤ B' c + e) (he : 0 ≤ e) {r : Nat} {M : Int} (hM : 0 ≤ M)
    (hup : ∀ c, (G.table r c).1 + max (G.carried (c + 1) (G.table r c).2 - ({ G with bonus := B' } : Grid).carried (c + 1) (({ G with bonus := B' } : Grid).table r c).2) e
      ≤ (({ G with bonus := B' } : Grid).table r c).1 + M) :
    ∀ c, (G.table (r + 1) c).1 ≤ (({ G with bonus := B' } : Grid).table (r + 1) c).1 + M
  | 0 => by simpa [Grid.table] using hM
  | c + 1 => by
    have ih := table_row h0 h0' hle he hM hup c
    have hu := hup c
    have hb := hle (c + 1)
    have hcost : ({ G with bonus := B' } : Grid).cost (r + 1) (c + 1) = G.cost (r + 1) (c + 1) := rfl
    simp only [Grid.table]
    rw [hcost]
    split
    · simpa using hM
    · split
      · rw [cell_fst h0, cell_fst (G := { G with bonus := B' }) h0']
        simp only
        generalize G.cost (r + 1) (c + 1) = z at *
        generalize (G.table (r + 1) c).1 = t1 at *
        generalize (({ G with bonus := B' } : Grid).table (r + 1) c).1 = t1' at *
        generalize (G.table r c) = t at *
        generalize (({ G with bonus := B' } : Grid).table r c) = t' at *
        omega
      · simp only; omega

/-- A score of the second table is at most so much less than the first one's; and less than that where the run is given up. -/
theorem table_above (h0 : ∀ c, 0 ≤ G.bonus c) (h0' : ∀ c, 0 ≤ B' c) (hle : ∀ c, G.bonus c ≤ B' c + e) (he : 0 ≤ e)
    (hK : ∀ c, G.bonus c ≤ K) (h4 : 4 ≤ K) (heK : e < K) :
    ∀ r c, (G.table r c).1 + max (G.carried (c + 1) (G.table r c).2 - ({ G with bonus := B' } : Grid).carried (c + 1) (({ G with bonus := B' } : Grid).table r c).2) e
      ≤ (({ G with bonus := B' } : Grid).table r c).1 + (3 * e + (K - 1) * r)
  | 0, c => by
    have hrun : (({ G with bonus := B' } : Grid).table 0 c).2 = (G.table 0 c).2 := by rw [table_zero_run, table_zero_run]
    have hc := carried_le hle he (c + 1) (G.table 0 c).2
    rw [hrun]
    have hs : ∀ c, (G.table 0 c).1 ≤ (({ G with bonus := B' } : Grid).table 0 c).1 + 2 * e := by
      intro c
      induction c with
      | zero => have := hle 0; simp only [Grid.table]; omega
      | succ c ih =>
        have := hle (c + 1)
        have hcost : ({ G with bonus := B' } : Grid).cost 0 (c + 1) = G.cost 0 (c + 1) := rfl
        simp only [Grid.table]
        rw [hcost]
        split
        · simp only; omega
        · simp only; omega
    have := hs c
    have hz : (K - 1) * ((0 : Nat) : Int) = 0 := by simp
    rw [hz]
    omega
  | r + 1, 0 => by
    have hm : 0 ≤ (K - 1) * (((r + 1 : Nat)) : Int) := Int.mul_nonneg (by omega) (by omega)
    simp only [Grid.table]
    have h1 := (carried_least G 1 0).2.2 rfl
    have h2 := (carried_least { G with bonus := B' } 1 0).2.2 rfl
    simp only [Nat.zero_add]
    rw [h1, h2]
    omega
  | r + 1, c + 1 => by
    have hm0 : 0 ≤ (K - 1) * (r : Int) := Int.mul_nonneg (by omega) (by omega)
    have hm : (K - 1) * (((r + 1 : Nat)) : Int) = (K - 1) * (r : Int) + (K - 1) := by
      rw [Int.natCast_add, Int.mul_add]; simp
    have hD := table_row h0 h0' hle he (r := r) (M := 3 * e + (K - 1) * r) (by omega)
      (fun c => table_above h0 h0' hle he hK h4 heK r c) (c + 1)
    have hup := table_above h0 h0' hle he hK h4 heK r c
    have k1 := carried_top hK h4 (c + 1 + 1) (G.table (r + 1) (c + 1)).2
    have k2 := carried_least { G with bonus := B' } (c + 1 + 1) (({ G with bonus := B' } : Grid).table (r + 1) (c + 1)).2
    have k3 := carried_least G (c + 1 + 1) (G.table (r + 1) (c + 1)).2
    rw [hm]
    by_cases hr : (({ G with bonus := B' } : Grid).table (r + 1) (c + 1)).2 = 0
    · by_cases hg : (G.table (r + 1) (c + 1)).2 = 0
      · have := k2.1
        have := k3.2.2 hg
        omega
      · -- the second table gives up a run which the first one keeps
        have hfst : ¬ c + 1 < G.first (r + 1) := by
          intro h; simp [Grid.table, h] at hg
        have hhit : G.hit (r + 1) (c + 1) = true := by
          by_contra h; simp [Grid.table, h, hfst] at hg
        have hb := hle (c + 1)
        have hcost : ({ G with bonus := B' } : Grid).cost (r + 1) (c + 1) = G.cost (r + 1) (c + 1) := rfl
        have e1 : G.table (r + 1) (c + 1) = G.cell (c + 1) ((G.table (r + 1) c).1 - G.cost (r + 1) (c + 1)) (G.table r c) := by
          simp only [Grid.table]; rw [if_neg hfst, if_pos hhit]
        have e2 : ({ G with bonus := B' } : Grid).table (r + 1) (c + 1) = ({ G with bonus := B' } : Grid).cell (c + 1)
            ((({ G with bonus := B' } : Grid).table (r + 1) c).1 - ({ G with bonus := B' } : Grid).cost (r + 1) (c + 1))
            (({ G with bonus := B' } : Grid).table r c) := by
          simp only [Grid.table]; rw [if_neg hfst, if_pos hhit]
        have g1 : ¬ _ := fun h => hg (by rw [e1]; exact (cell_snd ..).mpr h)
        have g2 := (cell_snd ..).mp (e2 ▸ hr)
        rw [runBonus_fst h0] at g1
        rw [runBonus_fst (G := { G with bonus := B' }) h0'] at g2
        have f1 := cell_fst h0 (c + 1) ((G.table (r + 1) c).1 - G.cost (r + 1) (c + 1)) (G.table r c)
        have f2 := cell_fst (G := { G with bonus := B' }) h0' (c + 1)
            ((({ G with bonus := B' } : Grid).table (r + 1) c).1 - ({ G with bonus := B' } : Grid).cost (r + 1) (c + 1))
            (({ G with bonus := B' } : Grid).table r c)
        rw [← e1] at f1
        rw [← e2] at f2
        have := k2.1
        simp only at g2 f2
        omega
    · have := k2.2.1 hr
      omega

/-- No match of the first table scores more than the best match of the second, plus the margin. -/
theorem best_above (h0 : ∀ c, 0 ≤ G.bonus c) (h0' : ∀ c, 0 ≤ B' c) (hle : ∀ c, G.bonus c ≤ B' c + e) (he : 0 ≤ e)
    (hK : ∀ c, G.bonus c ≤ K) (h4 : 4 ≤ K) (heK : e < K) {rows r c r' c' : Nat} (h2 : 2 ≤ rows) (hb : G.Best rows r c)
    (hb' : ({ G with bonus := B' } : Grid).Best rows r' c') :
    (G.table r c).1 ≤ (({ G with bonus := B' } : Grid).table r' c').1 + (3 * e + (K - 1) * ((rows : Int) - 2)) := by
  have h1 := (hb'.2.2 r c hb.1 hb.2.1).1
  have hm : 0 ≤ (K - 1) * ((rows : Int) - 2) := Int.mul_nonneg (by omega) (by omega)
  have hab := table_above h0 h0' hle he hK h4 heK
  cases r with
  | zero =>
    have := hab 0 c
    have hz : (K - 1) * ((0 : Nat) : Int) = 0 := by simp
    rw [hz] at this
    omega
  | succ r =>
    have h3 := table_row h0 h0' hle he (r := r) (M := 3 * e + (K - 1) * r)
      (by have : 0 ≤ (K - 1) * (r : Int) := Int.mul_nonneg (by omega) (by omega); omega) (fun c => hab r c) c
    have h5 := hb.1
    have := Int.mul_le_mul_of_nonneg_left (show (r : Int) ≤ (rows : Int) - 2 by omega) (show 0 ≤ K - 1 by omega)
    omega

end tables

/-! ### Queries whose patterns score more under one scheme than under another -/

section scores

variable {st₁ st₂ : Settings}

/-- Both find nothing, or both something, the second with at least the score of the first. -/
def ScoresLess {α β : Type} (x : Option (α × Int)) (y : Option (β × Int)) : Prop :=
  (x = none ∧ y = none) ∨ ∃ u v, x = some u ∧ y = some v ∧ u.2 ≤ v.2

theorem condHit_below {c : Condition} (h : ∀ p ∈ c, ScoresLess (patHit U (pureOf a) st₁ s p) (patHit U (pureOf a) st₂ s p)) :
    ScoresLess (condHit U (pureOf a) st₁ s c) (condHit U (pureOf a) st₂ s c) := by
  unfold condHit
  induction c with
  | nil => left; simp
  | cons p c ih =>
    rw [List.findSome?_cons, List.findSome?_cons]
    rcases h p (by simp) with ⟨h1, h2⟩ | ⟨x, y, h1, h2, h3⟩
    · rw [h1, h2]
      exact ih fun x hx => h x (by simp [hx])
    · rw [h1, h2]
      exact .inr ⟨x, y, rfl, rfl, h3⟩

theorem condsHit_below {cs : List Condition}
    (h : ∀ c ∈ cs, ∀ p ∈ c, ScoresLess (patHit U (pureOf a) st₁ s p) (patHit U (pureOf a) st₂ s p)) :
    ((condsHit U (pureOf a) st₁ s cs).2 = none ∧ (condsHit U (pureOf a) st₂ s cs).2 = none) ∨
      ∃ x y, (condsHit U (pureOf a) st₁ s cs).2 = some x ∧ (condsHit U (pureOf a) st₂ s cs).2 = some y ∧ x ≤ y := by
  induction cs with
  | nil => right; exact ⟨0, 0, by simp [condsHit], by simp [condsHit], Int.le_refl _⟩
  | cons c cs ih =>
    rcases condHit_below (h c (by simp)) with ⟨h1, h2⟩ | ⟨x, y, h1, h2, h3⟩
    · simp [condsHit, h1, h2]
    · rcases ih fun x hx => h x (by simp [hx]) with ⟨h5, h6⟩ | ⟨u, v, h5, h6, h7⟩
      · simp [condsHit, h1, h2, h5, h6]
      · right
        exact ⟨x.2 + u, y.2 + v, by simp [condsHit, h1, h5], by simp [condsHit, h2, h6], Int.add_le_add h3 h7⟩

/-- FzfV2 with two different tables of bonuses. -/
theorem v2Result_above {B B' : Nat → Int} {eq : CharEq} {w : List Char} {e K : Int} (h0 : ∀ c, 0 ≤ B c) (h0' : ∀ c, 0 ≤ B' c)
    (hle : ∀ c, B c ≤ B' c + e) (he : 0 ≤ e) (hK : ∀ c, B c ≤ K) (h4 : 4 ≤ K) (heK : e < K) (hw : 2 ≤ w.length)
    {x y : List Nat × Int} (hx : v2Result B eq w s = some x) (hy : v2Result B' eq w s = some y) :
    x.2 ≤ y.2 + (3 * e + (K - 1) * ((w.length : Int) - 2)) := by
  have hne : w ≠ [] := by intro h; simp [h] at hw
  obtain ⟨G, hG⟩ := gridOf_exists (B := B) (s := s) (R := rel eq) hne (by
    by_contra hcon
    rw [(v2Result_none h0).mpr hcon] at hx
    cases hx)
  have hG' : GridOf (rel eq) B' w s { G with bonus := B' } := ⟨hG.hit, hG.first, hG.last, rfl⟩
  obtain ⟨r, c, hb, rfl⟩ := v2Result_grid h0 hw hG hx
  obtain ⟨r', c', hb', rfl⟩ := v2Result_grid h0' hw hG' hy
  obtain rfl : G.bonus = B := hG.bonus
  exact best_above h0 h0' hle he hK h4 heK hw hb hb'

/-- One character: the largest bonus counts, twice. -/
theorem v2Result_char {B B' : Nat → Int} {eq : CharEq} {w : List Char} {e : Int} (hle : ∀ c, B c ≤ B' c + e) (hw : w.length = 1)
    {x y : List Nat × Int} (hx : v2Result B eq w s = some x) (hy : v2Result B' eq w s = some y) : x.2 ≤ y.2 + 2 * e := by
  unfold v2Result at hx hy
  rw [if_pos hw] at hx hy
  obtain ⟨i, c, rfl, hi, hc, _⟩ := singleResult_some hx
  obtain ⟨j, c', rfl, _, _, hmax⟩ := singleResult_some hy
  have h1 := (hmax i c hi hc).1
  have h2 := hle i
  simp only
  omega

/-- A pattern under the schemes History and Default. -/
theorem patHit_below (hp : PatternOk U p) (ha : a = .v1 ∨ p.matchType ≠ .fuzzy ∨ p.text.length ≤ 2) :
    ScoresLess (patHit U (pureOf a) (st.under .history) s p) (patHit U (pureOf a) (st.under .default) s p) := by
  by_cases hv : a = .v1 ∨ p.matchType ≠ .fuzzy
  · rcases patHit_history (st := st) (s := s) hv hp with h | ⟨x, y, h1, h2, h3⟩
    · exact .inl h
    · exact .inr ⟨x, y, h1, h2, h3.2.1⟩
  have hl : p.text.length ≤ 2 := by tauto
  obtain ⟨h1, h2⟩ := not_or.mp hv
  have h2 : p.matchType = .fuzzy := by simpa using h2
  obtain rfl : a = .v2 := by cases a; exact absurd rfl h1; rfl
  have i1 := rawHit_isSome (st := st.under .history) (s := s) (accepts .v2) hp
  have i2 := rawHit_isSome (st := st.under .default) (s := s) (accepts .v2) hp
  have h3 : RawMatches U (st.under .history) p s ↔ RawMatches U (st.under .default) p s := Iff.rfl
  have hraw : ScoresLess (rawHit U (pureOf .v2) (st.under .history) s p) (rawHit U (pureOf .v2) (st.under .default) s p) := by
    cases hx : rawHit U (pureOf .v2) (st.under .history) s p with
    | none =>
      left
      cases hy : rawHit U (pureOf .v2) (st.under .default) s p with
      | none => exact ⟨rfl, rfl⟩
      | some y => rw [hx] at i1; rw [hy] at i2; simp [← h3, ← i1] at i2
    | some x =>
      right
      cases hy : rawHit U (pureOf .v2) (st.under .default) s p with
      | none => rw [hx] at i1; rw [hy] at i2; simp [← h3, ← i1] at i2
      | some y =>
        refine ⟨x, y, rfl, rfl, ?_⟩
        unfold rawHit at hx hy
        simp only [h2, Option.map_eq_some_iff] at hx hy
        obtain ⟨x, hx, rfl⟩ := hx
        obtain ⟨y, hy, rfl⟩ := hy
        have hle : ∀ c, posBonus U .history s c ≤ posBonus U .default s c + 0 := fun c => by
          have := (posBonus_history (U := U) (s := s) c).1; omega
        have hne := List.length_pos_iff.mpr hp.1
        by_cases hone : p.text.length = 1
        · have := v2Result_char hle hone hx hy
          simpa using this
        · have := v2Result_above (K := 8) (posBonus_nonneg U .history s) (posBonus_nonneg U .default s) hle (by omega)
            (posBonus_le_top U .history s) (by omega) (by omega) (by omega) hx hy
          have h5 : ((p.text.length : Int) - 2) = 0 := by omega
          rw [h5] at this
          simpa using this
  unfold patHit
  split
  · rcases hraw with ⟨h1, h2⟩ | ⟨x, y, h1, h2, _⟩
    · rw [h1, h2]
      exact .inr ⟨_, _, rfl, rfl, Int.le_refl _⟩
    · rw [h1, h2]
      exact .inl ⟨rfl, rfl⟩
  · exact hraw

end scores

end Norm
