import Verif.Proofs.Append

/-! How much FzfV2's score can fall short of the documented score of an alignment. -/

namespace Norm
open Spec

namespace Shortfall

variable {G : Grid} {K : Int}

/-- Matches in successive rows from `(r, i)` on, none of which is followed by another match of its row before the next. -/
def Chain (G : Grid) : (r i : Nat) → List Nat → Prop
  | r, i, [] => G.hit r i = true
  | r, i, j :: ps => G.hit r i = true ∧ i < j ∧ (∀ k, i < k → k < j → G.hit r k = false) ∧ Chain G (r + 1) j ps

theorem Chain.hit : ∀ {ps : List Nat} {r i : Nat}, Chain G r i ps → G.hit r i = true
  | [], _, _, h => h
  | _ :: _, _, _, h => h.1

/-- What is left of a match's score `n` columns further right. -/
theorem table_gap {r i : Nat} (hi : G.hit r i = true) : ∀ n, (∀ k, i < k → k ≤ i + n → G.hit r k = false) →
    (hf : G.first r ≤ i) →
    (G.table r i).1 - (if n = 0 then 0 else (n : Int) + 2) ≤ (G.table r (i + n)).1 := by
  intro n
  induction n with
  | zero => intro _ _; simp
  | succ n ih =>
    intro hn hf
    have h1 := ih (fun k h1 h2 => hn k h1 (by omega)) hf
    have h2 := hn (i + n + 1) (by omega) (by omega)
    have hc : G.cost r (i + n + 1) ≤ if n = 0 then 3 else 1 := by
      have := cost_bounds (G := G) r (i + n + 1)
      by_cases h0 : n = 0
      · rw [if_pos h0]; exact this.2
      · rw [if_neg h0]
        have h3 := hn (i + n) (by omega) (by omega)
        simp [Grid.cost, h2, h3]
    have ht : (G.table r (i + (n + 1))).1 = (G.table r (i + n)).1 - G.cost r (i + n + 1) := by
      rw [show i + (n + 1) = i + n + 1 by omega]
      cases r with
      | zero => simp [Grid.table, h2]
      | succ r =>
        simp only [Grid.table, h2]
        rw [if_neg (by omega)]
        simp
    rw [ht, if_neg (by omega)]
    by_cases h0 : n = 0
    · subst h0; simp at h1 hc ⊢; omega
    · rw [if_neg h0] at h1 hc
      push_cast
      omega

/-- The score of a match, from that of the previous one. -/
theorem table_next {r i j : Nat} (hi : G.hit r i = true) (hfi : G.first r ≤ i) (hij : i < j)
    (ht : ∀ k, i < k → k < j → G.hit r k = false) (hj : G.hit (r + 1) j = true) (hfj : G.first (r + 1) ≤ j) :
    (G.table r i).1 + 16 + (if j = i + 1 then (G.runBonus j (G.table r i).2).1 else G.bonus j - (((j : Int) - i - 1) + 2)) ≤
      (G.table (r + 1) j).1 := by
  obtain ⟨n, rfl⟩ : ∃ n, j = i + n + 1 := ⟨j - i - 1, by omega⟩
  have e : G.table (r + 1) (i + n + 1) = G.cell (i + n + 1) ((G.table (r + 1) (i + n)).1 - G.cost (r + 1) (i + n + 1))
      (G.table r (i + n)) := by
    simp only [Grid.table, hj]
    rw [if_neg (by omega)]
    simp
  rw [e]
  obtain ⟨_, h2, h3⟩ := Extends.cell_ge (G := G) (i + n + 1) ((G.table (r + 1) (i + n)).1 - G.cost (r + 1) (i + n + 1))
    (G.table r (i + n))
  by_cases hn : n = 0
  · subst hn
    rw [if_pos rfl]
    simpa using h3
  · rw [if_neg (by omega)]
    have := table_gap hi n (fun k h1 h2 => ht k h1 (by omega)) hfi
    rw [if_neg hn] at this
    push_cast
    omega

/-- A run bonus that agrees with the documented one. -/
theorem runBonus_exact {c k : Nat} {run : Int} (hk : k ≠ 0) (h : G.bonus (c - k) = run) :
    (G.runBonus c k).1 = max (max (G.bonus c) (if G.bonus c ≥ 8 ∧ G.bonus c > run then G.bonus c else run)) 4 := by
  unfold Grid.runBonus
  rw [if_neg hk, h]
  split
  · rename_i h1; simp only; have := h1.1; omega
  · simp only; omega

/-- The documented score of an alignment `i :: ps` against the scores of a chain further right, with the same end. -/
theorem chain_le (h4 : 4 ≤ K) (hb : ∀ i, G.bonus i ≤ K) (hb' : ∀ i, 0 ≤ G.bonus i) (hf : ∀ r c, G.hit r c = true → G.first r ≤ c) :
    ∀ (ps ps' : List Nat) (j j' r i i' : Nat) (run : Int), Chain G r i' (j' :: ps') → i ≤ i' → j ≤ j' →
      List.Forall₂ (· ≤ ·) ps ps' → (i :: j :: ps).Pairwise (· < ·) → ps'.getLastD j' = ps.getLastD j → run ≤ K →
      (i' = i → (G.table r i').2 ≠ 0 → G.bonus (i' + 1 - (G.table r i').2) = run →
        (G.table r i').1 + runScore G.bonus i run (j :: ps) ≤
          (G.table (r + 1 + ps.length) (ps'.getLastD j')).1 + (K + 2) * ps.length) ∧
      (i' = i → (G.table r i').1 + runScore G.bonus i run (j :: ps) ≤
          (G.table (r + 1 + ps.length) (ps'.getLastD j')).1 + (K + 2) * ps.length + K) ∧
      (i < i' → (G.table r i').1 + runScore G.bonus i run (j :: ps) + ((i' : Int) - i) + 2 ≤
          (G.table (r + 1 + ps.length) (ps'.getLastD j')).1 + (K + 2) * ps.length + 2) := by
  intro ps
  induction ps with
  | nil =>
    intro ps' j j' r i i' run hC hi hj hps hinc hlast hrun
    cases hps
    simp only [List.getLastD_nil] at hlast
    subst hlast
    obtain ⟨c1, c2, c3, c4⟩ := hC
    have st := table_next c1 (hf _ _ c1) c2 c3 c4.hit (hf _ _ c4.hit)
    have k1 := Extends.runBonus_ge G j' (G.table r i').2
    have k2 := hb j'
    have k3 := hb' j'
    simp only [runScore, List.length_nil, Nat.add_zero, List.getLastD_nil]
    refine ⟨?_, ?_, ?_⟩
    · rintro rfl hk hx
      by_cases h : j' = i' + 1
      · subst h
        rw [if_pos rfl, runBonus_exact hk hx] at st
        rw [if_pos rfl]
        omega
      · rw [if_neg h] at st ⊢
        omega
    · rintro rfl
      by_cases h : j' = i' + 1
      · rw [if_pos h] at st ⊢
        have : max (max (G.bonus j') (if G.bonus j' ≥ 8 ∧ G.bonus j' > run then G.bonus j' else run)) 4 ≤ K := by
          split <;> omega
        omega
      · rw [if_neg h] at st ⊢
        omega
    · intro hlt
      rw [if_neg (by omega)]
      by_cases h : j' = i' + 1
      · rw [if_pos h] at st
        omega
      · rw [if_neg h] at st
        omega
  | cons k ps ih =>
    intro ps' j j' r i i' run hC hi hj hps hinc hlast hrun
    obtain ⟨k', ps', hk, hps', rfl⟩ := List.forall₂_cons_left_iff.mp hps
    obtain ⟨c1, c2, c3, c4⟩ := hC
    have st := table_next c1 (hf _ _ c1) c2 c3 c4.hit (hf _ _ c4.hit)
    rw [List.pairwise_cons] at hinc
    have hij := hinc.1 j (by simp)
    have k1 := Extends.runBonus_ge G j' (G.table r i').2
    have k2 := hb' j'
    have k3 := hb j
    have rest := fun run hrun => ih ps' k k' (r + 1) j j' run c4 hj hk hps' hinc.2 (by simpa only [List.getLastD_cons] using hlast) hrun
    rw [show runScore G.bonus i run (j :: k :: ps) =
      if j = i + 1 then
        16 + max (max (G.bonus j) (if G.bonus j ≥ 8 ∧ G.bonus j > run then G.bonus j else run)) 4 +
          runScore G.bonus j (if G.bonus j ≥ 8 ∧ G.bonus j > run then G.bonus j else run) (k :: ps)
      else 16 + G.bonus j - (3 + ((j - i - 2 : Nat) : Int)) + runScore G.bonus j (G.bonus j) (k :: ps) from rfl]
    simp only [List.length_cons, List.getLastD_cons]
    rw [mul_succ_cast, show r + 1 + (ps.length + 1) = r + 1 + 1 + ps.length by omega]
    have hr : (if G.bonus j ≥ 8 ∧ G.bonus j > run then G.bonus j else run) ≤ K := by split <;> omega
    have hm : max (max (G.bonus j) (if G.bonus j ≥ 8 ∧ G.bonus j > run then G.bonus j else run)) 4 ≤ K := by omega
    obtain ⟨_, u1, p1⟩ := rest _ hr
    obtain ⟨_, u2, p2⟩ := rest _ k3
    generalize hT : (G.table (r + 1 + 1 + ps.length) (ps'.getLastD k')).1 = T at *
    generalize hY : (K + 2) * (ps.length : Int) = Y at *
    refine ⟨?_, ?_, ?_⟩
    · rintro rfl hk hx
      rcases Nat.eq_or_lt_of_le hj with rfl | hlt
      · have u1 := u1 rfl
        have u2 := u2 rfl
        by_cases h : j = i' + 1
        · rw [if_pos h]
          subst h
          rw [if_pos rfl, runBonus_exact hk hx] at st
          omega
        · rw [if_neg h] at st ⊢
          omega
      · have p1 := p1 hlt
        have p2 := p2 hlt
        rw [if_neg (by omega)] at st
        split <;> omega
    · rintro rfl
      rcases Nat.eq_or_lt_of_le hj with rfl | hlt
      · have u1 := u1 rfl
        have u2 := u2 rfl
        by_cases h : j = i' + 1
        · rw [if_pos h] at st ⊢
          omega
        · rw [if_neg h] at st ⊢
          omega
      · have p1 := p1 hlt
        have p2 := p2 hlt
        rw [if_neg (by omega)] at st
        split <;> omega
    · intro hlt
      rcases Nat.eq_or_lt_of_le hj with rfl | hlt'
      · have u2 := u2 rfl
        rw [if_neg (by omega)]
        split at st <;> omega
      · have p1 := p1 hlt'
        have p2 := p2 hlt'
        split <;> split at st <;> omega

/-! ### Pushing an alignment to the right -/

variable {B : Nat → Int} {eq : CharEq} {p s : List Char}

/-- Every alignment can be pushed to the right, except for its end, until it skips no match of the character it has just used. -/
theorem exists_pushed {R : Char → Char → Prop} : ∀ (ps : List Nat) (p : List Char) (i : Nat), Alignment R p s (i :: ps) →
    ∃ i' ps', i ≤ i' ∧ List.Forall₂ (· ≤ ·) ps ps' ∧ ps'.getLastD i' = ps.getLastD i ∧ Alignment R p s (i' :: ps') ∧
      ∀ n, TightAt R p s (i' :: ps') n := by
  intro ps
  induction ps with
  | nil =>
    intro p i ha
    refine ⟨i, [], Nat.le_refl _, .nil, rfl, ha, ?_⟩
    intro n a b q h1 h2; simp at h2
  | cons j ps ih =>
    intro p i ha
    obtain ⟨q, p, rfl⟩ : ∃ q p', p = q :: p' := by
      cases p with
      | nil => have := ha.length_eq; simp at this
      | cons q p => exact ⟨q, p, rfl⟩
    obtain ⟨h1, h2, h3⟩ := alignment_cons.mp ha
    have hij := h2 j (by simp)
    obtain ⟨j', ps', h4, h5, h6, h7, h8⟩ := ih p j h3
    obtain ⟨i', h9, h10, h11, h12⟩ := exists_tight (j' - i) i rfl (by omega) h1
    refine ⟨i', j' :: ps', h9, .cons h4 h5, by simpa only [List.getLastD_cons] using h6, ?_, ?_⟩
    · rw [alignment_cons]
      refine ⟨h11, ?_, h7⟩
      intro k hk
      rcases List.mem_cons.mp hk with rfl | hk
      · exact h10
      · have := (List.pairwise_cons.mp h7.increasing).1 k hk
        omega
    · intro n a b q' ha hb hq
      cases n with
      | zero => simp at ha hb hq; subst ha hb hq; exact h12
      | succ n => exact h8 n a b q' (by simpa using ha) (by simpa using hb) (by simpa using hq)

theorem chain_of : ∀ (ps : List Nat) (r i : Nat), (i :: ps).Pairwise (· < ·) →
    (∀ n k, (i :: ps)[n]? = some k → G.hit (r + n) k = true) →
    (∀ n a b k, (i :: ps)[n]? = some a → (i :: ps)[n + 1]? = some b → a < k → k < b → G.hit (r + n) k = false) →
    Chain G r i ps := by
  intro ps
  induction ps with
  | nil => intro r i _ h _; exact h 0 i rfl
  | cons j ps ih =>
    intro r i hinc h ht
    rw [List.pairwise_cons] at hinc
    refine ⟨h 0 i rfl, hinc.1 j (by simp), fun k => ht 0 i j k rfl rfl, ih (r + 1) j hinc.2 ?_ ?_⟩
    · intro n k hk
      have := h (n + 1) k (by simpa using hk)
      rwa [show r + (n + 1) = r + 1 + n by omega] at this
    · intro n a b k ha hb
      have := ht (n + 1) a b k (by simpa using ha) (by simpa using hb)
      rwa [show r + (n + 1) = r + 1 + n by omega] at this

/-- An alignment that skips no match is a chain. -/
theorem chain_of_tight {R : Char → Char → Prop} (hG : GridOf R B p s G) {i : Nat} {ps : List Nat}
    (ha : Alignment R p s (i :: ps)) (ht : ∀ n, TightAt R p s (i :: ps) n) : Chain G 0 i ps := by
  have hl := ha.length_eq
  have hfirst := hG.first.2 _ ha
  obtain ⟨q, x, hq, hx, hR, hmax⟩ := hG.last
  have hsp : ∀ (n k : Nat), (i :: ps)[n]? = some k → ∃ q x, p[n]? = some q ∧ s[k]? = some x ∧ R q x := by
    intro n k hk
    have hn : n < (i :: ps).length := (List.getElem?_eq_some_iff.mp hk).1
    have := List.forall₂_iff_get.mp ha.spells
    obtain ⟨c, h1, h2⟩ := this.2 n (by omega) hn
    have e : (i :: ps).get ⟨n, hn⟩ = k := by
      have := List.getElem?_eq_some_iff.mp hk
      obtain ⟨_, h⟩ := this
      exact h
    rw [e] at h1
    exact ⟨_, c, List.getElem?_eq_getElem (by omega), h1, h2⟩
  have hle : ∀ k ∈ i :: ps, k ≤ G.last := by
    obtain ⟨l, hl'⟩ : ∃ l, (i :: ps).getLast? = some l := ⟨_, List.getLast?_eq_some_getLast (by simp)⟩
    have h1 := le_last_of_increasing ha.increasing hl'
    have h2 : (i :: ps)[p.length - 1]? = some l := by rw [← hl', List.getLast?_eq_getElem?, hl]
    obtain ⟨q', y, h3, h4, h5⟩ := hsp _ _ h2
    rw [List.getLast?_eq_getElem?] at hq
    rw [hq] at h3
    obtain rfl := Option.some.inj h3
    intro k hk
    have := h1 k hk
    by_contra hcon
    exact hmax l y (by omega) h4 h5
  refine chain_of ps 0 i ha.increasing ?_ ?_
  · intro n k hk
    rw [Nat.zero_add, hG.hit]
    refine ⟨?_, hle k (List.mem_of_getElem? hk), hsp n k hk⟩
    have hn : n < (i :: ps).length := (List.getElem?_eq_some_iff.mp hk).1
    have := (List.forall₂_iff_get.mp hfirst).2 n (by simp; omega) hn
    have e : (i :: ps).get ⟨n, hn⟩ = k := (List.getElem?_eq_some_iff.mp hk).2
    rw [e] at this
    simpa using this
  · intro n a b k h1 h2 h3 h4
    rw [Nat.zero_add, Bool.eq_false_iff]
    intro hh
    obtain ⟨_, _, q', y, h5, h6, h7⟩ := (hG.hit n k).mp hh
    exact ht n a b q' h1 h2 h5 k y h3 h4 h6 h7

/-- FzfV2's score against the documented score of an alignment, given where the alignment's start can be pushed to. -/
theorem v2Result_pushed (h4 : 4 ≤ K) (hB : ∀ i, 0 ≤ B i) (hBK : ∀ i, B i ≤ K) {i j : Nat} {ps : List Nat}
    (ha : Alignment (rel eq) p s (i :: j :: ps)) {x : List Nat × Int} (hx : v2Result B eq p s = some x) :
    ∃ i' ps', i ≤ i' ∧ Alignment (rel eq) p s (i' :: ps') ∧ ps'.getLastD i' = ps.getLastD j ∧
      alignScore B (i :: j :: ps) ≤ x.2 + (K + 2) * (ps.length : Int) + (if i' = i then 0 else 2 * K - 1) := by
  have hl := ha.length_eq
  simp only [List.length_cons] at hl
  have hp : p ≠ [] := by intro h; subst h; simp at hl
  have hs : Subseq (rel eq) p s := subseq_iff.mpr ⟨_, ha⟩
  obtain ⟨G, hG⟩ := gridOf_exists (B := B) hp hs
  obtain ⟨r, c, hb, rfl⟩ := v2Result_grid hB (by omega) hG hx
  obtain ⟨i', ps', h1, h2, h3, h5, h6⟩ := exists_pushed (j :: ps) p i ha
  refine ⟨i', ps', h1, h5, by simpa only [List.getLastD_cons] using h3, ?_⟩
  have hC := chain_of_tight hG h5 h6
  obtain ⟨j', ps', hj, hps, rfl⟩ := List.forall₂_cons_left_iff.mp h2
  have eB := hG.bonus
  have hc := chain_le h4 (by rw [eB]; exact hBK) (by rw [eB]; exact hB) (fun r c h => ((hG.hit r c).mp h).1) ps ps' j j' 0 i i' (B i)
    hC h1 hj hps ha.increasing (by simpa only [List.getLastD_cons] using h3) (hBK i)
  have hhit := hC.hit
  rw [Extends.table_zero_hit hhit, eB] at hc
  have hlen := h5.length_eq
  simp only [List.length_cons] at hlen
  -- the last cell of the chain is a match
  have hend : G.hit (0 + 1 + ps.length) (ps'.getLastD j') = true := by
    have : ∀ (l : List Nat) (r i : Nat), Chain G r i l → G.hit (r + l.length) (l.getLastD i) = true := by
      intro l
      induction l with
      | nil => intro r i h; exact h
      | cons a l ih =>
        intro r i h
        have := ih (r + 1) a h.2.2.2
        simp only [List.length_cons, List.getLastD_cons]
        rwa [show r + (l.length + 1) = r + 1 + l.length by omega]
    have := this (j' :: ps') 0 i' hC
    simp only [List.length_cons, List.getLastD_cons] at this
    rwa [show 0 + (ps'.length + 1) = 0 + 1 + ps.length by omega] at this
  have hbest := (hb.2.2 _ _ (by omega) hend).1
  obtain ⟨c1, _, c3⟩ := hc
  have b1 := hBK i
  have b2 := hB i'
  simp only [alignScore]
  by_cases hi : i' = i
  · rw [if_pos hi]
    have c1 := c1 hi (by simp) (by simp [hi])
    rw [hi] at c1
    simp only at c1
    omega
  · rw [if_neg hi]
    have c3 := c3 (by omega)
    simp only at c3
    omega

/-- FzfV2's score falls short of the documented score of an alignment of two or more characters by at most `2K - 1`, and
`K + 2` for every character but the first two. -/
theorem v2Result_ge_alignScore (h4 : 4 ≤ K) (hB : ∀ i, 0 ≤ B i) (hBK : ∀ i, B i ≤ K) (hp : 2 ≤ p.length) {ps : List Nat}
    (ha : Alignment (rel eq) p s ps) {x : List Nat × Int} (hx : v2Result B eq p s = some x) :
    alignScore B ps ≤ x.2 + (2 * K - 1) + (K + 2) * ((p.length : Int) - 2) := by
  have hl := ha.length_eq
  match ps, hl with
  | i :: j :: ps, hl =>
    obtain ⟨i', ps', _, _, _, h⟩ := v2Result_pushed h4 hB hBK ha hx
    simp only [List.length_cons] at hl
    rw [show (p.length : Int) - 2 = ps.length by omega]
    split at h <;> omega
  | [i], hl => simp at hl; omega
  | [], hl => simp at hl; omega

/-- No alignment starts further right than FzfV1's and ends where it does. -/
theorem v1Align_start (hp : p ≠ []) {i : Nat} {ps : List Nat} (hg : v1Align eq s p = some (i :: ps)) {i' : Nat} {ps' : List Nat}
    (ha : Alignment (rel eq) p s (i' :: ps')) (hl : ps'.getLastD i' ≤ ps.getLastD i) : i' ≤ i := by
  obtain ⟨a, l, _, h2, h3, _, hw⟩ := v1Align_some hp hg
  simp only [List.head?_cons, Option.some.injEq] at h2
  subst h2
  have e : ∀ (l : List Nat) (a : Nat), (a :: l).getLast? = some (l.getLastD a) := by
    intro l
    induction l with
    | nil => intro a; rfl
    | cons b l ih => intro a; rw [List.getLast?_cons_cons, ih, List.getLastD_cons]
  have hl' : l = ps.getLastD i := by rw [e] at h3; exact (Option.some.inj h3).symm
  obtain ⟨k, hk, h4⟩ := hw.greatest _ ha (fun k hk => by
    have := le_last_of_increasing ha.increasing (e _ _) k hk
    omega)
  rcases List.mem_cons.mp hk with rfl | hk
  · exact h4
  · have := (List.pairwise_cons.mp ha.increasing).1 k hk
    omega

/-- FzfV1's score exceeds FzfV2's by at most `K + 2` for every character but the first two. -/
theorem v1_le_v2 (h4 : 4 ≤ K) (hB : ∀ i, 0 ≤ B i) (hBK : ∀ i, B i ≤ K) (hp : 2 ≤ p.length) {g : List Nat}
    (hg : v1Align eq s p = some g) {x : List Nat × Int} (hx : v2Result B eq p s = some x) :
    alignScore B g ≤ x.2 + (K + 2) * ((p.length : Int) - 2) := by
  have hp' : p ≠ [] := by intro h; subst h; simp at hp
  obtain ⟨_, _, _, _, _, ha, _⟩ := v1Align_some hp' hg
  have hl := ha.length_eq
  match g, hl with
  | i :: j :: ps, hl =>
    obtain ⟨i', ps', h1, h2, h3, h⟩ := v2Result_pushed h4 hB hBK ha hx
    have := v1Align_start hp' hg h2 (by rw [h3]; simp only [List.getLastD_cons]; exact Nat.le_refl _)
    simp only [List.length_cons] at hl
    rw [show (p.length : Int) - 2 = ps.length by omega]
    rw [if_pos (by omega)] at h
    omega
  | [i], hl => simp at hl; omega
  | [], hl => simp at hl; omega

/-- FzfV1's alignment skips no match of the first character. -/
theorem v1Align_tight (hp : p ≠ []) {g : List Nat} (hg : v1Align eq s p = some g) : TightAt (rel eq) p s g 0 := by
  obtain ⟨_, _, _, _, _, ha, _⟩ := v1Align_some hp hg
  intro i j q hi hj hq k c h1 h2 h3 h4
  obtain ⟨ps, rfl⟩ : ∃ ps, g = i :: j :: ps := by
    match g, hi, hj with
    | _ :: _ :: ps, hi, hj => simp at hi hj; subst hi hj; exact ⟨ps, rfl⟩
  obtain ⟨p, rfl⟩ : ∃ p', p = q :: p' := by
    match p, hq with
    | _ :: p, hq => simp at hq; subst hq; exact ⟨p, rfl⟩
  obtain ⟨_, _, a3⟩ := alignment_cons.mp ha
  have ha' : Alignment (rel eq) (q :: p) s (k :: j :: ps) := by
    rw [alignment_cons]
    refine ⟨⟨c, h3, h4⟩, fun m hm => ?_, a3⟩
    rcases List.mem_cons.mp hm with rfl | hm
    · exact h2
    · have := (List.pairwise_cons.mp a3.increasing).1 m hm
      omega
  have := v1Align_start hp hg ha' (by simp only [List.getLastD_cons]; exact Nat.le_refl _)
  omega

end Shortfall

end Norm
