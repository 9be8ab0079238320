import Verif.Proofs.Margins
import Verif.Proofs.Exact
import Verif.Proofs.Bounds
import Verif.Proofs.Outcome

/-! The largest scores, and the candidates that attain them; appended text; the order of conditions. -/

namespace Norm
open Spec

variable {B : Nat → Int} {eq : CharEq} {p s : List Char} {K : Int}

theorem mul_succ_cast (K : Int) (n : Nat) : K * ((n + 1 : Nat) : Int) = K * (n : Int) + K := by
  rw [Int.natCast_add, Int.mul_add]; simp

/-! ### Upper bounds -/

theorem runScore_le_top (h4 : 4 ≤ K) (hB : ∀ i, B i ≤ K) (ps : List Nat) : ∀ (prev : Nat) (run : Int), run ≤ K →
    runScore B prev run ps ≤ (16 + K) * (ps.length : Int) := by
  induction ps with
  | nil => intro _ _ _; simp [runScore]
  | cons i ps ih =>
    intro prev run hr
    have hi := hB i
    simp only [runScore, List.length_cons]
    rw [mul_succ_cast]
    split
    · have h1 := ih i (if B i ≥ 8 ∧ B i > run then B i else run) (by split <;> omega)
      have h2 : max (max (B i) (if B i ≥ 8 ∧ B i > run then B i else run)) 4 ≤ K := by split <;> omega
      omega
    · have := ih i (B i) hi
      omega

/-- No alignment scores more than 16 and the largest bonus per character, and once more the largest bonus. -/
theorem alignScore_le_top (h4 : 4 ≤ K) (hB : ∀ i, B i ≤ K) {ps : List Nat} (h : ps ≠ []) :
    alignScore B ps ≤ (16 + K) * (ps.length : Int) + K := by
  cases ps with
  | nil => exact absurd rfl h
  | cons i ps =>
    have := runScore_le_top h4 hB ps i (B i) (hB i)
    have := hB i
    simp only [alignScore, List.length_cons]
    rw [mul_succ_cast]
    omega

section
variable {w : List Char} {pat : Nat → Char} {fst : Nat → Nat} {b : Nat → Int}

theorem runBonus_le_top (h4 : 4 ≤ K) (hb : ∀ i, b i ≤ K) (c k : Nat) : (runBonus b c k).1 ≤ K := by
  unfold runBonus
  have h1 := hb c
  have h2 := hb (c + 1 - k)
  split
  · split
    · exact h1
    · dsimp only; omega
  · exact h1

theorem cell_le_top (h4 : 4 ≤ K) (hb : ∀ i, b i ≤ K) (c : Nat) (left diag : Int) (pc : Nat) :
    (cell b c left diag pc).1 ≤ max left (diag + 16 + K) := by
  unfold cell
  have h1 := runBonus_le_top h4 hb c (pc + 1)
  have h2 := hb c
  split <;> dsimp only <;> omega

theorem dp_le_top (h4 : 4 ≤ K) (hb : ∀ i, b i ≤ K) (r : Nat) :
    ∀ c, (dp eq w pat fst b r).1 c ≤ (16 + K) * ((r + 1 : Nat) : Int) + K := by
  induction r with
  | zero =>
    intro c
    simp only [dp]
    induction c with
    | zero => have := hb 0; unfold rowH0; push_cast; omega
    | succ c ih =>
      have := hb (c + 1)
      have := penGap_bounds w.length (dpM eq w pat fst 0) 0 (c + 1)
      unfold rowH0
      push_cast at ih ⊢
      split <;> omega
  | succ r ih =>
    intro c
    rw [mul_succ_cast]
    have h0 : 0 ≤ (16 + K) * ((r + 1 : Nat) : Int) := Int.mul_nonneg (by omega) (by omega)
    generalize hT : (16 + K) * ((r + 1 : Nat) : Int) = T at ih h0
    simp only [dp]
    induction c with
    | zero => unfold rowH; omega
    | succ c ihc =>
      have h1 := penGap_bounds w.length (dpM eq w pat fst (r + 1)) (fst (r + 1)) (c + 1)
      have h2 := penLeft_bounds (dpM eq w pat fst (r + 1)) (fst (r + 1)) (c + 1)
      have h3 := cell_le_top h4 hb (c + 1) (rowH w.length (dpM eq w pat fst (r + 1)) (fst (r + 1)) b
        (dp eq w pat fst b r).1 (dp eq w pat fst b r).2 c - penLeft (dpM eq w pat fst (r + 1)) (fst (r + 1)) (c + 1))
        ((dp eq w pat fst b r).1 c) ((dp eq w pat fst b r).2 c)
      have h5 := ih c
      unfold rowH
      split
      · omega
      · split <;> omega

/-- Along a block that starts at the largest bonus, the cells attain the bound. -/
theorem dp_block (h8 : 8 ≤ K) (hb : ∀ i, b i ≤ K) {c0 m : Nat} (hc : b c0 = K)
    (hM : ∀ r, r < m → dpM eq w pat fst r (c0 + r) = true) : ∀ r, r < m →
    (dp eq w pat fst b r).1 (c0 + r) = (16 + K) * ((r + 1 : Nat) : Int) + K ∧
      (dp eq w pat fst b r).2 (c0 + r) = r + 1 := by
  intro r
  induction r with
  | zero =>
    intro hr
    have h0 := hM 0 hr
    simp only [dp, Nat.add_zero] at h0 ⊢
    refine ⟨?_, by simp [rowC0, h0]⟩
    cases c0 with
    | zero => unfold rowH0; rw [hc]; push_cast; omega
    | succ c0 => unfold rowH0; rw [if_pos h0, hc]; push_cast; omega
  | succ r ih =>
    intro hr
    obtain ⟨h1, h2⟩ := ih (by omega)
    have h3 := hM (r + 1) hr
    rw [show c0 + (r + 1) = c0 + r + 1 by omega] at h3 ⊢
    have h5 := dp_le_top (eq := eq) (w := w) (pat := pat) (fst := fst) (by omega) hb (r + 1) (c0 + r)
    have h6 := penLeft_bounds (dpM eq w pat fst (r + 1)) (fst (r + 1)) (c0 + r + 1)
    rw [mul_succ_cast] at h5 ⊢
    have hf := (dpM_lt h3).1
    simp only [dp] at h5
    simp only [dp, rowH, rowC]
    rw [if_neg (by omega), if_pos h3, if_pos h3]
    rw [h1, h2]
    generalize rowH w.length (dpM eq w pat fst (r + 1)) (fst (r + 1)) b
        (dp eq w pat fst b r).1 (dp eq w pat fst b r).2 (c0 + r) = X at h5 ⊢
    generalize (16 + K) * ((r + 1 : Nat) : Int) = T at h5 ⊢
    have hrun : runBonus b (c0 + r + 1) (r + 1 + 1) = (K, r + 1 + 1) := by
      unfold runBonus
      have := hb (c0 + r + 1)
      rw [if_pos (by omega), show c0 + r + 1 + 1 - (r + 1 + 1) = c0 by omega, hc, if_neg (by omega)]
      rw [Prod.mk.injEq]
      exact ⟨by omega, rfl⟩
    unfold cell
    rw [hrun]
    rw [if_neg (by dsimp only; omega)]
    exact ⟨by dsimp only; omega, rfl⟩

end

/-- No score of FzfV2 is larger either. -/
theorem v2Result_le_top (h4 : 4 ≤ K) (hB : ∀ i, 0 ≤ B i) (hB' : ∀ i, B i ≤ K) (hp : p ≠ []) {x : List Nat × Int}
    (h : v2Result B eq p s = some x) : x.2 ≤ (16 + K) * (p.length : Int) + K := by
  have hlen := List.length_pos_iff.mpr hp
  unfold v2Result at h
  split at h
  · rename_i h1
    obtain ⟨i, c, rfl, _⟩ := singleResult_some h
    have := hB' i
    rw [h1]
    push_cast
    omega
  · cases hg : greedyFrom eq s p 0 with
    | none => rw [hg] at h; simp at h
    | some g =>
      rw [hg] at h
      obtain rfl := Option.some.inj h
      obtain ⟨r, c, hr, _, he⟩ := v2Best_attained hB hp hg (p.length - 1)
      simp only [he]
      have h1 := dp_le_top (eq := eq) (w := v2Chars eq p s g) (pat := fun r => p.getD r 'a') (fst := v2Fst eq p s g)
        (b := fun i => B ((v2Window eq p s g).1 + i)) h4 (fun i => hB' _) r c
      have h2 : (16 + K) * ((r + 1 : Nat) : Int) ≤ (16 + K) * (p.length : Int) :=
        Int.mul_le_mul_of_nonneg_left (by omega) (by omega)
      unfold v2Dp
      omega

theorem pure_le_top (a : Algo) (h4 : 4 ≤ K) (hB : ∀ i, 0 ≤ B i) (hB' : ∀ i, B i ≤ K) (hp : p ≠ [])
    {x : List Nat × Int} (h : pureOf a B eq p s = some x) : x.2 ≤ (16 + K) * (p.length : Int) + K := by
  cases a with
  | v1 =>
    simp only [pureOf, v1Result, Option.map_eq_some_iff] at h
    obtain ⟨g, hg, rfl⟩ := h
    obtain ⟨_, _, _, _, _, ha, _⟩ := v1Align_some hp hg
    have hl := ha.length_eq
    have hne : g ≠ [] := by
      rintro rfl
      exact hp (List.length_eq_zero_iff.mp (by simpa using hl.symm))
    rw [← hl]
    exact alignScore_le_top h4 hB' hne
  | v2 => exact v2Result_le_top h4 hB hB' hp h

/-! ### Candidates that attain them -/

theorem occursAt_get {R : Char → Char → Prop} {i : Nat} (h : OccursAt R p s i) :
    ∀ k q, p[k]? = some q → At R s q (i + k) := by
  obtain ⟨a, m, y, rfl, rfl, hf⟩ := h
  intro k q hq
  obtain ⟨hk, rfl⟩ := List.getElem?_eq_some_iff.mp hq
  have hl := hf.length_eq
  have := (List.forall₂_iff_get.mp hf).2 k hk (by omega)
  refine ⟨m[k], ?_, this⟩
  rw [List.append_assoc, List.getElem?_append_right (by omega), Nat.add_sub_cancel_left,
    List.getElem?_append_left (by omega), List.getElem?_eq_getElem]

theorem alignment_range {R : Char → Char → Prop} : ∀ {p : List Char} {i : Nat},
    (∀ k q, p[k]? = some q → At R s q (i + k)) → Alignment R p s (List.range' i p.length) := by
  intro p
  induction p with
  | nil => intro i _; exact ⟨by simp, by simp⟩
  | cons q p ih =>
    intro i h
    rw [List.length_cons, List.range'_succ, alignment_cons]
    refine ⟨h 0 q rfl, ?_, ih fun k q' hk => ?_⟩
    · intro j hj; have := List.mem_range'_1.mp hj; omega
    · have := h (k + 1) q' (by simpa using hk)
      rwa [show i + 1 + k = i + (k + 1) by omega]

theorem runScore_block (h8 : 8 ≤ K) (hB : ∀ i, B i ≤ K) (k : Nat) : ∀ (prev : Nat),
    runScore B prev K (List.range' (prev + 1) k) = (16 + K) * (k : Int) := by
  induction k with
  | zero => intro _; simp [runScore]
  | succ k ih =>
    intro prev
    have := hB (prev + 1)
    simp only [List.range'_succ, runScore, if_true]
    rw [if_neg (by omega), ih (prev + 1), mul_succ_cast]
    omega

theorem alignScore_block (h8 : 8 ≤ K) (hB : ∀ i, B i ≤ K) {i k : Nat} (hi : B i = K) (hk : k ≠ 0) :
    alignScore B (List.range' i k) = (16 + K) * (k : Int) + K := by
  obtain ⟨k, rfl⟩ := Nat.exists_eq_succ_of_ne_zero hk
  rw [List.range'_succ, alignScore, hi, runScore_block h8 hB, mul_succ_cast]
  omega

/-- FzfV2 gives the largest score to a block at the largest bonus, wherever it is. -/
theorem v2Result_block (h8 : 8 ≤ K) (hB : ∀ i, 0 ≤ B i) (hB' : ∀ i, B i ≤ K) (hp : p ≠ []) {i : Nat}
    (ho : OccursAt (rel eq) p s i) (hi : B i = K) {x : List Nat × Int} (h : v2Result B eq p s = some x) :
    x.2 = (16 + K) * (p.length : Int) + K := by
  have hlen := List.length_pos_iff.mpr hp
  refine Int.le_antisymm (v2Result_le_top (by omega) hB hB' hp h) ?_
  have hal := alignment_range (occursAt_get ho)
  unfold v2Result at h
  split at h
  · rename_i h1
    obtain ⟨j, c, rfl, _, _, hmax⟩ := singleResult_some h
    obtain ⟨q, rfl⟩ := List.length_eq_one_iff.mp h1
    obtain ⟨d, hd, hr⟩ := occursAt_get ho 0 q rfl
    have := (hmax i d hd hr).1
    simp only [List.length_singleton]
    push_cast
    omega
  · cases hg : greedyFrom eq s p 0 with
    | none => rw [hg] at h; simp at h
    | some g =>
      rw [hg] at h
      obtain rfl := Option.some.inj h
      have hwa := window_align hp hg hal
      have hi0 := (hwa 0 (by simpa using hlen)).1
      simp only [List.getElem_range', Nat.mul_zero, Nat.add_zero, Nat.one_mul] at hwa hi0
      have hM : ∀ r, r < p.length →
          dpM eq (v2Chars eq p s g) (fun r => p.getD r 'a') (v2Fst eq p s g) r (i - (v2Window eq p s g).1 + r) = true := by
        intro r hr
        have := (hwa r (by simpa using hr)).2
        rwa [show i + r - (v2Window eq p s g).1 = i - (v2Window eq p s g).1 + r by omega] at this
      have h1 := dp_block (b := fun i => B ((v2Window eq p s g).1 + i)) h8 (fun i => hB' _)
        (c0 := i - (v2Window eq p s g).1) (by rw [← hi]; congr 1; omega) hM (p.length - 1) (by omega)
      have h2 := dpBest_ge (b := fun i => B ((v2Window eq p s g).1 + i)) (Nat.le_refl (p.length - 1))
        (hM (p.length - 1) (by omega))
      rw [h1.1, show p.length - 1 + 1 = p.length by omega] at h2
      exact h2

theorem eq_range'_of_last : ∀ (g : List Nat) (n : Nat), g.Pairwise (· < ·) → (∀ i ∈ g, n ≤ i) →
    (∀ i ∈ g, i < n + g.length) → g = List.range' n g.length := by
  intro g
  induction g with
  | nil => intros; rfl
  | cons a g ih =>
    intro n h1 h2 h3
    obtain ⟨h4, h5⟩ := List.pairwise_cons.mp h1
    have ha : a = n := by
      have h6 : ∀ (l : List Nat) (c : Nat), l.Pairwise (· < ·) → (∀ i ∈ l, c < i) → ∀ d, (∀ i ∈ l, i < d) → c < d →
          c + l.length < d := by
        intro l
        induction l with
        | nil => intro c _ _ d _ h; simpa using h
        | cons x l ihl =>
          intro c h1 h2 d h3 _
          obtain ⟨h4, h5⟩ := List.pairwise_cons.mp h1
          have := ihl x h5 h4 d (fun i hi => h3 i (by simp [hi])) (h3 x (by simp))
          have := h2 x (by simp)
          simp only [List.length_cons]; omega
      have h7 := h6 g a h5 h4 (n + (a :: g).length) (fun i hi => h3 i (by simp [hi])) (h3 a (by simp))
      have := h2 a (by simp)
      simp only [List.length_cons] at h7
      omega
    subst ha
    rw [List.length_cons, List.range'_succ, ← ih (a + 1) h5 (fun i hi => h4 i hi) (fun i hi => by
      have := h3 i (by simp [hi]); simp only [List.length_cons] at this; omega)]

/-- FzfV1 gives the largest score to a block at the largest bonus at the start of the candidate. -/
theorem v1Result_start (h8 : 8 ≤ K) (hB' : ∀ i, B i ≤ K) (hp : p ≠ []) (ho : OccursAt (rel eq) p s 0) (hi : B 0 = K)
    {x : List Nat × Int} (h : v1Result B eq p s = some x) : x.2 = (16 + K) * (p.length : Int) + K := by
  have hlen := List.length_pos_iff.mpr hp
  simp only [v1Result, Option.map_eq_some_iff] at h
  obtain ⟨g, hg, rfl⟩ := h
  obtain ⟨a, l, _, _, hl, ha, hw⟩ := v1Align_some hp hg
  have hgl := ha.length_eq
  obtain ⟨l', hl', hle⟩ := hw.least _ (alignment_range (occursAt_get ho))
  have := (List.mem_range'_1.mp hl').2
  have hg' : g = List.range' 0 g.length := by
    refine eq_range'_of_last g 0 ha.increasing (fun _ _ => Nat.zero_le _) fun i hi => ?_
    have h1 : i ≤ l := by
      obtain ⟨k, hk, rfl⟩ := List.getElem_of_mem hi
      rw [List.getLast?_eq_getElem?, List.getElem?_eq_some_iff] at hl
      obtain ⟨hk', hl⟩ := hl
      rw [← hl]
      rcases Nat.lt_or_ge k (g.length - 1) with h | h
      · exact Nat.le_of_lt (List.pairwise_iff_getElem.mp ha.increasing k _ hk hk' h)
      · have : k = g.length - 1 := by omega
        simp [this]
    omega
  show alignScore B g = _
  rw [hg', ← hgl]
  exact alignScore_block h8 hB' hi (by omega)

theorem fuzzy_exists {U : Unicode} {a : Algo} {m : Metric} {st : Settings} {q : FzfQuery} {p : Pattern}
    (h : Reachable U a m st) (hf : FuzzyFor q p) (hq : QueryOk U q) (hp : p.text ≠ []) {ps : List Nat}
    (ha : Alignment (rel (st.eqOf p)) p.text s ps) : ∃ d, Returns U m q s (some d) := by
  cases hx : pureOf a (posBonus U st.scheme s) (st.eqOf p) p.text s with
  | none =>
    exfalso
    have hs := subseq_iff.mpr ⟨ps, ha⟩
    cases a with
    | v1 => exact (v1Result_none hp).mp hx hs
    | v2 => exact (v2Result_none (posBonus_nonneg U st.scheme s)).mp hx hs
  | some x => exact ⟨⟨x.2⟩, (returns_iff h hq).mpr (by rw [result_fuzzy hf hp, hx]; rfl)⟩

/-! ### The largest bonus -/

theorem bonus_le_top (S : FzfScheme) (x y : CharClass) : bonus S x y ≤ topBonus S := by
  cases S <;> cases x <;> cases y <;> decide

theorem posBonus_le_top (U : Unicode) (S : FzfScheme) (s : List Char) (i : Nat) : posBonus U S s i ≤ topBonus S := by
  unfold posBonus
  split
  · cases S <;> decide
  · exact bonus_le_top _ _ _

theorem eight_le_top (S : FzfScheme) : 8 ≤ topBonus S := by cases S <;> decide

/-- A letter or delimiter at the start of a candidate has the largest bonus. -/
theorem posBonus_start {U : Unicode} {S : FzfScheme} {c : Char} (h0 : s[0]? = some c)
    (hc : classOf U S c ∈ [CharClass.lower, .upper, .letter, .delimiter]) : posBonus U S s 0 = topBonus S := by
  unfold posBonus classBefore
  rw [h0]
  simp only [List.take_zero, List.getLast?_nil]
  generalize classOf U S c = k at hc ⊢
  cases S <;> cases k <;> simp at hc <;> decide

/-! ### Appended text -/

theorem findFrom_append {P : Char → Bool} {off j : Nat} (t : List Char) (h : findFrom P s off = some j) :
    findFrom P (s ++ t) off = some j := by
  unfold findFrom at h ⊢
  rw [Option.map_eq_some_iff] at h ⊢
  obtain ⟨i, hi, rfl⟩ := h
  refine ⟨i, ?_, rfl⟩
  have : off ≤ s.length := by
    by_contra hc
    rw [List.drop_eq_nil_of_le (by omega)] at hi
    simp at hi
  rw [List.drop_append_of_le_length this, List.findIdx?_append, hi]
  rfl

theorem greedyFrom_append (t : List Char) : ∀ (p : List Char) (off : Nat) (g : List Nat),
    greedyFrom eq s p off = some g → greedyFrom eq (s ++ t) p off = some g := by
  intro p
  induction p with
  | nil => intro off g h; exact h
  | cons c p ih =>
    intro off g h
    simp only [greedyFrom] at h ⊢
    cases hj : findFrom (fun x => eq c x) s off with
    | none => rw [hj] at h; simp at h
    | some j =>
      rw [hj] at h
      rw [findFrom_append t hj]
      simp only [Option.map_eq_some_iff] at h ⊢
      obtain ⟨g', h1, rfl⟩ := h
      exact ⟨g', ih _ _ h1, rfl⟩

theorem alignment_append {R : Char → Char → Prop} (t : List Char) {ps : List Nat} (h : Alignment R p s ps) :
    Alignment R p (s ++ t) ps := by
  refine ⟨h.increasing, h.spells.imp ?_⟩
  rintro q i ⟨c, hc, hr⟩
  exact ⟨c, by rw [List.getElem?_append_left (List.getElem?_eq_some_iff.mp hc).1, hc], hr⟩

theorem alignment_of_append {R : Char → Char → Prop} {t : List Char} {ps : List Nat} (h : Alignment R p (s ++ t) ps)
    (hl : ∀ i ∈ ps, i < s.length) : Alignment R p s ps := by
  refine ⟨h.increasing, ?_⟩
  have := h.spells
  rw [List.forall₂_iff_get] at this ⊢
  refine ⟨this.1, fun i h1 h2 => ?_⟩
  obtain ⟨c, hc, hr⟩ := this.2 i h1 h2
  refine ⟨c, ?_, hr⟩
  rwa [List.getElem?_append_left (hl _ (by simp))] at hc

/-- `FzfV1` chooses the same alignment when text is appended to the candidate. -/
theorem v1Align_append (hp : p ≠ []) (t : List Char) {g : List Nat} (h : v1Align eq s p = some g) :
    v1Align eq (s ++ t) p = some g := by
  obtain ⟨a, l, h1, h2, h3, h4, h5⟩ := v1Align_some hp h
  have hc := (v1Align_chooses hp).mp h
  have hlt : l < s.length := by
    have := List.mem_of_getLast? h3
    exact h4.lt_length l this
  rw [v1Align_chooses hp]
  refine ⟨alignment_append t h4, ?_, ?_, ?_⟩
  · intro last hl ps' ha
    obtain rfl : l = last := by rw [h3] at hl; simpa using hl
    by_contra hcon
    have hlt' : ∀ i ∈ ps', i < l := fun i hi => by
      by_contra hge; exact hcon ⟨i, hi, by omega⟩
    obtain ⟨i, hi, hle⟩ := hc.ends l h3 ps' (alignment_of_append ha fun i hi => by have := hlt' i hi; omega)
    have := hlt' i hi
    omega
  · intro first last hf hl ps' ha hle
    obtain rfl : l = last := by rw [h3] at hl; simpa using hl
    exact hc.starts first l hf h3 ps' (alignment_of_append ha fun i hi => by have := hle i hi; omega) hle
  · intro first hf ps' ha hge
    obtain rfl : a = first := by rw [h2] at hf; simpa using hf
    obtain ⟨g', hg', hle⟩ := greedyFrom_least ha hge
    rw [greedyFrom_append t _ _ _ h1] at hg'
    obtain rfl := Option.some.inj hg'
    exact hle

theorem posBonus_append (U : Unicode) (S : FzfScheme) (s t : List Char) {i : Nat} (hi : i < s.length) :
    posBonus U S (s ++ t) i = posBonus U S s i := by
  unfold posBonus classBefore
  rw [List.getElem?_append_left hi, List.take_append_of_le_length (by omega)]

theorem charRange_append (s t : List Char) {i : Nat} (hi : i < s.length) : charRange (s ++ t) i = charRange s i := by
  unfold charRange byteRange
  rw [List.take_append_of_le_length (by omega), List.take_append_of_le_length (by omega)]

theorem runScore_congr {B B' : Nat → Int} (ps : List Nat) (h : ∀ i ∈ ps, B i = B' i) : ∀ prev run,
    runScore B prev run ps = runScore B' prev run ps := by
  induction ps with
  | nil => intros; rfl
  | cons i ps ih =>
    intro prev run
    have ih := ih fun j hj => h j (by simp [hj])
    simp only [runScore, h i (by simp), ih]

theorem alignScore_congr {B B' : Nat → Int} {ps : List Nat} (h : ∀ i ∈ ps, B i = B' i) :
    alignScore B ps = alignScore B' ps := by
  cases ps with
  | nil => rfl
  | cons i ps => simp only [alignScore, h i (by simp), runScore_congr ps fun j hj => h j (by simp [hj])]

/-! ### The order of conditions -/

theorem condsHit_perm {U : Unicode} {pf : PureFuzzy} {st : Settings} {cs cs' : List Condition} (h : cs.Perm cs') :
    (condsHit U pf st s cs).2 = (condsHit U pf st s cs').2 := by
  induction h with
  | nil => rfl
  | cons c _ ih =>
    simp only [condsHit]
    cases condHit U pf st s c with
    | none => rfl
    | some h => simp only [ih]
  | swap c d cs =>
    simp only [condsHit]
    cases condHit U pf st s c <;> cases condHit U pf st s d <;> try rfl
    simp only
    cases (condsHit U pf st s cs).2 with
    | none => rfl
    | some n => simp only [Option.map_some, Option.some.injEq]; omega
  | trans _ _ ih1 ih2 => rw [ih1, ih2]

end Norm
