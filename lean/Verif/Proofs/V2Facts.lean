import Verif.Proofs.Distance

/-!
# Facts about the pure description of `FzfV2::fuzzy`

Acceptance, bounds on the scores, lower bounds given by alignments, and what the traceback highlights. -/

set_option linter.unusedSimpArgs false

namespace Norm

open Spec

/-! ### One-character patterns -/

theorem bestPos_ge_acc (B : Nat → Int) (offs : List Nat) (acc : Int × Nat) : acc.1 ≤ (bestPos B offs acc).1 := by
  induction offs generalizing acc with
  | nil => exact Int.le_refl _
  | cons i offs ih =>
    simp only [bestPos, List.foldl_cons]
    by_cases h : 16 + B i * 2 > acc.1
    · rw [if_pos h]
      have := ih (16 + B i * 2, i)
      simp only [bestPos] at this
      exact Int.le_trans (Int.le_of_lt h) this
    · rw [if_neg h]; exact ih acc

theorem bestPos_ge (B : Nat → Int) (offs : List Nat) (acc : Int × Nat) {i : Nat} (hi : i ∈ offs) :
    16 + B i * 2 ≤ (bestPos B offs acc).1 := by
  induction offs generalizing acc with
  | nil => simp at hi
  | cons j offs ih =>
    simp only [bestPos, List.foldl_cons]
    rcases List.mem_cons.mp hi with rfl | hi
    · by_cases h : 16 + B i * 2 > acc.1
      · rw [if_pos h]; exact bestPos_ge_acc B offs (16 + B i * 2, i)
      · rw [if_neg h]; exact Int.le_trans (Int.not_lt.mp h) (bestPos_ge_acc B offs acc)
    · exact ih _ hi

/-- The chosen position attains the best score, and every earlier one is strictly worse. -/
theorem bestPos_spec (B : Nat → Int) (offs : List Nat) (hs : offs.Pairwise (· < ·)) (acc : Int × Nat) :
    bestPos B offs acc = acc ∨
      ((bestPos B offs acc).2 ∈ offs ∧ (bestPos B offs acc).1 = 16 + B (bestPos B offs acc).2 * 2 ∧
        acc.1 < (bestPos B offs acc).1 ∧
        ∀ i ∈ offs, i < (bestPos B offs acc).2 → 16 + B i * 2 < (bestPos B offs acc).1) := by
  induction offs generalizing acc with
  | nil => exact Or.inl rfl
  | cons j offs ih =>
    obtain ⟨h1, h2⟩ := List.pairwise_cons.mp hs
    have hstep : bestPos B (j :: offs) acc =
        bestPos B offs (if 16 + B j * 2 > acc.1 then (16 + B j * 2, j) else acc) := rfl
    rw [hstep]
    by_cases h : 16 + B j * 2 > acc.1
    · rw [if_pos h]
      rcases ih h2 (16 + B j * 2, j) with heq | ⟨hm, hv, hlt, hb⟩
      · right
        rw [heq]
        refine ⟨by simp, rfl, h, ?_⟩
        intro i hi hij
        rcases List.mem_cons.mp hi with rfl | hi
        · exact absurd hij (Nat.lt_irrefl _)
        · have := h1 i hi; simp only at hij; omega
      · right
        refine ⟨by simp [hm], hv, Int.lt_trans h hlt, ?_⟩
        intro i hi hij
        rcases List.mem_cons.mp hi with rfl | hi
        · exact hlt
        · exact hb i hi hij
    · rw [if_neg h]
      rcases ih h2 acc with heq | ⟨hm, hv, hlt, hb⟩
      · exact Or.inl heq
      · right
        refine ⟨by simp [hm], hv, hlt, ?_⟩
        intro i hi hij
        rcases List.mem_cons.mp hi with rfl | hi
        · exact Int.lt_of_le_of_lt (Int.not_lt.mp h) hlt
        · exact hb i hi hij

theorem sorted_idxsFrom {P : Char → Bool} {s : List Char} {off : Nat} : (idxsFrom P s off).Pairwise (· < ·) :=
  sorted_allIdxFrom

theorem singleResult_none {B : Nat → Int} (hB : ∀ i, 0 ≤ B i) {eq : CharEq} {q : Char} {s : List Char} :
    singleResult B eq q s = none ↔ ∀ (i : Nat) (c : Char), s[i]? = some c → eq q c = false := by
  unfold singleResult
  dsimp only
  constructor
  · intro h i c hc
    split at h
    · rename_i h0
      by_contra hcon
      have hm : i ∈ idxsFrom (fun x => eq q x) s 0 := mem_idxsFrom.mpr ⟨by omega, c, hc, by simpa using hcon⟩
      have := bestPos_ge B _ (0, 0) hm
      rw [h0] at this
      have := hB i
      omega
    · simp at h
  · intro h
    have : idxsFrom (fun x => eq q x) s 0 = [] := by
      rw [List.eq_nil_iff_forall_not_mem]
      intro i hi
      obtain ⟨_, c, hc, hq⟩ := mem_idxsFrom.mp hi
      rw [h i c hc] at hq; simp at hq
    rw [this]; rfl

theorem singleResult_some {B : Nat → Int} {eq : CharEq} {q : Char} {s : List Char}
    {x : List Nat × Int} (h : singleResult B eq q s = some x) :
    ∃ i c, x = ([i], 16 + 2 * B i) ∧ s[i]? = some c ∧ eq q c = true ∧
      ∀ (j : Nat) (d : Char), s[j]? = some d → eq q d = true → B j ≤ B i ∧ (j < i → B j < B i) := by
  unfold singleResult at h
  dsimp only at h
  split at h
  · simp at h
  · rename_i h0
    obtain rfl := Option.some.inj h
    rcases bestPos_spec B (idxsFrom (fun x => eq q x) s 0) sorted_idxsFrom (0, 0) with heq | ⟨hm, hv, _, hb⟩
    · rw [heq] at h0; exact absurd rfl h0
    · generalize hbp : bestPos B (idxsFrom (fun x => eq q x) s 0) (0, 0) = bp at *
      obtain ⟨_, c, hc, hq⟩ := mem_idxsFrom.mp hm
      refine ⟨bp.2, c, by rw [hv]; congr 2; omega, hc, hq, ?_⟩
      intro j d hd hqd
      have hj : j ∈ idxsFrom (fun x => eq q x) s 0 := mem_idxsFrom.mpr ⟨by omega, d, hd, hqd⟩
      have h1 := bestPos_ge B _ (0, 0) hj
      rw [hbp] at h1
      refine ⟨by omega, fun hlt => ?_⟩
      have := hb j hj hlt
      omega

/-! ### Acceptance -/

theorem greedyFrom_none {eq : CharEq} {p s : List Char} : greedyFrom eq s p 0 = none ↔ ¬ Subseq (rel eq) p s := by
  rw [← greedyFrom_isSome]; cases greedyFrom eq s p 0 <;> simp

theorem v1Result_none {B : Nat → Int} {eq : CharEq} {p s : List Char} (hp : p ≠ []) :
    v1Result B eq p s = none ↔ ¬ Subseq (rel eq) p s := by
  unfold v1Result
  rw [Option.map_eq_none_iff, v1Align_none hp, greedyFrom_none]

theorem subseq_singleton {R : Char → Char → Prop} {q : Char} {s : List Char} :
    Subseq R [q] s ↔ ∃ (i : Nat) (c : Char), s[i]? = some c ∧ R q c := by
  constructor
  · rintro ⟨s', h1, h2⟩
    cases h2 with
    | cons hr h2 =>
      cases h2
      rename_i c
      have hm : c ∈ s := h1.subset (by simp)
      obtain ⟨i, hi, rfl⟩ := List.getElem_of_mem hm
      exact ⟨i, _, List.getElem?_eq_getElem hi, hr⟩
  · rintro ⟨i, c, hc, hr⟩
    exact ⟨[c], List.singleton_sublist.mpr (List.mem_of_getElem? hc), .cons hr .nil⟩

theorem v2Result_none {B : Nat → Int} (hB : ∀ i, 0 ≤ B i) {eq : CharEq} {p s : List Char} :
    v2Result B eq p s = none ↔ ¬ Subseq (rel eq) p s := by
  unfold v2Result
  split
  · rename_i h1
    obtain ⟨q, rfl⟩ := List.length_eq_one_iff.mp h1
    rw [singleResult_none hB, subseq_singleton]
    simp [rel]
  · rw [Option.map_eq_none_iff, greedyFrom_none]

/-! ### Bounds on the cells -/

theorem runBonus_ge (b : Nat → Int) (c k : Nat) : b c ≤ (runBonus b c k).1 := by
  unfold runBonus
  split
  · split
    · exact Int.le_refl _
    · exact Int.le_max_right _ _
  · exact Int.le_refl _

theorem runBonus_le {b : Nat → Int} (hb : ∀ i, b i ≤ 10) (c k : Nat) : (runBonus b c k).1 ≤ 10 := by
  unfold runBonus
  have h1 := hb c
  have h2 := hb (c + 1 - k)
  split
  · split
    · exact h1
    · dsimp only; omega
  · exact h1

theorem cell_ge_diag (b : Nat → Int) (c : Nat) (left diag : Int) (pc : Nat) :
    diag + 16 + b c ≤ (cell b c left diag pc).1 := by
  unfold cell
  have := runBonus_ge b c (pc + 1)
  split <;> dsimp only <;> omega

theorem cell_ge_left (b : Nat → Int) (c : Nat) (left diag : Int) (pc : Nat) :
    left ≤ (cell b c left diag pc).1 := by
  unfold cell
  split <;> dsimp only <;> omega

theorem cell_le {b : Nat → Int} (hb : ∀ i, b i ≤ 10) (c : Nat) (left diag : Int) (pc : Nat) :
    (cell b c left diag pc).1 ≤ max left (diag + 26) := by
  unfold cell
  have h1 := runBonus_le hb c (pc + 1)
  have h2 := hb c
  split <;> dsimp only <;> omega

theorem penLeft_bounds (M : Nat → Bool) (first c : Nat) : 1 ≤ penLeft M first c ∧ penLeft M first c ≤ 3 := by
  unfold penLeft; split <;> omega

theorem penGap_bounds (n : Nat) (M : Nat → Bool) (first c : Nat) : 1 ≤ penGap n M first c ∧ penGap n M first c ≤ 3 := by
  unfold penGap
  have := penLeft_bounds M first (c - 1)
  split
  · split
    · exact this
    · omega
  · omega

theorem rowH0_le {n : Nat} {M : Nat → Bool} {b : Nat → Int} (hb : ∀ i, b i ≤ 10) (c : Nat) :
    rowH0 n M b c ≤ 36 := by
  induction c with
  | zero => have := hb 0; unfold rowH0; omega
  | succ c ih =>
    have := hb (c + 1)
    have := penGap_bounds n M 0 (c + 1)
    unfold rowH0; split <;> omega

theorem rowH0_ge {n : Nat} {M : Nat → Bool} {b : Nat → Int} (hb : ∀ i, 0 ≤ b i) (c : Nat) :
    16 - 3 * (c : Int) ≤ rowH0 n M b c := by
  induction c with
  | zero => have := hb 0; unfold rowH0; omega
  | succ c ih =>
    have := hb (c + 1)
    have := penGap_bounds n M 0 (c + 1)
    unfold rowH0; split <;> omega

theorem rowH_le {n : Nat} {M : Nat → Bool} {first : Nat} {b : Nat → Int} {Hp : Nat → Int} {Cp : Nat → Nat} {K : Int}
    (hb : ∀ i, b i ≤ 10) (hK : 0 ≤ K) (hH : ∀ c, Hp c + 26 ≤ K) (c : Nat) : rowH n M first b Hp Cp c ≤ K := by
  induction c with
  | zero => exact hK
  | succ c ih =>
    have h1 := penGap_bounds n M first (c + 1)
    have h2 := penLeft_bounds M first (c + 1)
    have h3 := cell_le hb (c + 1) (rowH n M first b Hp Cp c - penLeft M first (c + 1)) (Hp c) (Cp c)
    have h4 := hH c
    unfold rowH
    split
    · exact hK
    · split <;> omega

theorem rowH_ge {n : Nat} {M : Nat → Bool} {first : Nat} {b : Nat → Int} {Hp : Nat → Int} {Cp : Nat → Nat} (c : Nat) :
    -3 * (c : Int) ≤ rowH n M first b Hp Cp c := by
  induction c with
  | zero => unfold rowH; omega
  | succ c ih =>
    have h1 := penGap_bounds n M first (c + 1)
    have h2 := penLeft_bounds M first (c + 1)
    have h3 := cell_ge_left b (c + 1) (rowH n M first b Hp Cp c - penLeft M first (c + 1)) (Hp c) (Cp c)
    unfold rowH
    split
    · omega
    · split <;> omega

/-- Moving right in a row costs at most 3 per column. -/
theorem rowH_step {n : Nat} {M : Nat → Bool} {first : Nat} {b : Nat → Int} {Hp : Nat → Int} {Cp : Nat → Nat} {c : Nat}
    (hc : first ≤ c) : rowH n M first b Hp Cp c - 3 ≤ rowH n M first b Hp Cp (c + 1) := by
  have h1 := penGap_bounds n M first (c + 1)
  have h2 := penLeft_bounds M first (c + 1)
  have h3 := cell_ge_left b (c + 1) (rowH n M first b Hp Cp c - penLeft M first (c + 1)) (Hp c) (Cp c)
  conv_rhs => unfold rowH
  rw [if_neg (by omega)]
  split <;> omega

theorem rowH_right {n : Nat} {M : Nat → Bool} {first : Nat} {b : Nat → Int} {Hp : Nat → Int} {Cp : Nat → Nat} {c : Nat}
    (hc : first ≤ c) (k : Nat) : rowH n M first b Hp Cp c - 3 * (k : Int) ≤ rowH n M first b Hp Cp (c + k) := by
  induction k with
  | zero => simp
  | succ k ih =>
    have := rowH_step (n := n) (M := M) (b := b) (Hp := Hp) (Cp := Cp) (c := c + k) (first := first) (by omega)
    rw [← Nat.add_assoc]; omega

/-- A match costs nothing beyond the cell up-left. -/
theorem rowH_match {n : Nat} {M : Nat → Bool} {first : Nat} {b : Nat → Int} {Hp : Nat → Int} {Cp : Nat → Nat} {c : Nat}
    (hc : first ≤ c + 1) (hM : M (c + 1) = true) : Hp c + 16 + b (c + 1) ≤ rowH n M first b Hp Cp (c + 1) := by
  unfold rowH
  rw [if_neg (by omega), if_pos hM]
  exact cell_ge_diag _ _ _ _ _

section Dp
variable {eq : CharEq} {w : List Char} {pat : Nat → Char} {fst : Nat → Nat} {b : Nat → Int}

theorem dp_le (hb : ∀ i, b i ≤ 10) (r c : Nat) : (dp eq w pat fst b r).1 c ≤ 26 * ((r : Int) + 1) + 10 := by
  induction r generalizing c with
  | zero => have := rowH0_le (n := w.length) (M := dpM eq w pat fst 0) hb c; simp only [dp]; omega
  | succ r ih =>
    simp only [dp]
    refine rowH_le hb (by omega) (fun c => ?_) c
    have := ih c
    omega

theorem dp_ge (hb : ∀ i, 0 ≤ b i) (r c : Nat) : -3 * (c : Int) ≤ (dp eq w pat fst b r).1 c := by
  cases r with
  | zero => have := rowH0_ge (n := w.length) (M := dpM eq w pat fst 0) hb c; simp only [dp]; omega
  | succ r => simp only [dp]; exact rowH_ge c

/-! ### The best cell -/

theorem bestRow_ge_acc (n r : Nat) (f : Nat → Int) (offs : List Nat) (acc : Int × Nat) :
    acc.1 ≤ (bestRow n r f offs acc).1 := by
  induction offs generalizing acc with
  | nil => exact Int.le_refl _
  | cons i offs ih =>
    simp only [bestRow, List.foldl_cons]
    by_cases h : f i > acc.1
    · rw [if_pos h]
      exact Int.le_trans (Int.le_of_lt h) (ih (f i, r * n + i))
    · rw [if_neg h]; exact ih acc

theorem bestRow_ge (n r : Nat) (f : Nat → Int) (offs : List Nat) (acc : Int × Nat) {i : Nat} (hi : i ∈ offs) :
    f i ≤ (bestRow n r f offs acc).1 := by
  induction offs generalizing acc with
  | nil => simp at hi
  | cons j offs ih =>
    simp only [bestRow, List.foldl_cons]
    rcases List.mem_cons.mp hi with rfl | hi
    · by_cases h : f i > acc.1
      · rw [if_pos h]; exact bestRow_ge_acc n r f offs (f i, r * n + i)
      · rw [if_neg h]; exact Int.le_trans (Int.not_lt.mp h) (bestRow_ge_acc n r f offs acc)
    · exact ih _ hi

theorem bestRow_attained (n r : Nat) (f : Nat → Int) (offs : List Nat) (acc : Int × Nat) :
    bestRow n r f offs acc = acc ∨ ∃ i ∈ offs, bestRow n r f offs acc = (f i, r * n + i) := by
  induction offs generalizing acc with
  | nil => exact Or.inl rfl
  | cons j offs ih =>
    have hstep : bestRow n r f (j :: offs) acc =
        bestRow n r f offs (if f j > acc.1 then (f j, r * n + j) else acc) := rfl
    rw [hstep]
    by_cases h : f j > acc.1
    · rw [if_pos h]
      right
      rcases ih (f j, r * n + j) with h | ⟨i, hi, h⟩
      · exact ⟨j, by simp, h⟩
      · exact ⟨i, by simp [hi], h⟩
    · rw [if_neg h]
      rcases ih acc with h | ⟨i, hi, h⟩
      · exact Or.inl h
      · exact Or.inr ⟨i, by simp [hi], h⟩

theorem mem_row {r c : Nat} : c ∈ idxsFrom (fun x => eq (pat r) x) w (fst r) ↔ dpM eq w pat fst r c = true := by
  rw [mem_idxsFrom, dpM, matchAt_iff]

theorem dpBest_ge {R r c : Nat} (hr : r ≤ R) (hM : dpM eq w pat fst r c = true) :
    (dp eq w pat fst b r).1 c ≤ (dpBest eq w pat fst b R).1 := by
  induction R with
  | zero =>
    obtain rfl : r = 0 := by omega
    exact bestRow_ge _ _ _ _ _ (mem_row.mpr hM)
  | succ R ih =>
    by_cases h : r = R + 1
    · subst h; exact bestRow_ge _ _ _ _ _ (mem_row.mpr hM)
    · exact Int.le_trans (ih (by omega)) (bestRow_ge_acc _ _ _ _ _)

theorem dpBest_attained (R : Nat) (h0 : dpBest eq w pat fst b R ≠ (0, 0)) :
    ∃ r c, r ≤ R ∧ dpM eq w pat fst r c = true ∧
      dpBest eq w pat fst b R = ((dp eq w pat fst b r).1 c, r * w.length + c) := by
  induction R with
  | zero =>
    rcases bestRow_attained w.length 0 (dp eq w pat fst b 0).1 (idxsFrom (fun x => eq (pat 0) x) w (fst 0)) (0, 0) with
      h | ⟨i, hi, h⟩
    · exact absurd h h0
    · exact ⟨0, i, Nat.le_refl _, mem_row.mp hi, h⟩
  | succ R ih =>
    rcases bestRow_attained w.length (R + 1) (dp eq w pat fst b (R + 1)).1
        (idxsFrom (fun x => eq (pat (R + 1)) x) w (fst (R + 1))) (dpBest eq w pat fst b R) with h | ⟨i, hi, h⟩
    · have h' : dpBest eq w pat fst b (R + 1) = dpBest eq w pat fst b R := h
      rw [h'] at h0 ⊢
      obtain ⟨r, c, h1, h2, h3⟩ := ih h0
      exact ⟨r, c, by omega, h2, h3⟩
    · exact ⟨R + 1, i, Nat.le_refl _, mem_row.mp hi, h⟩

theorem dpM_lt {r c : Nat} (h : dpM eq w pat fst r c = true) : fst r ≤ c ∧ c < w.length := by
  obtain ⟨h1, x, hx, _⟩ := matchAt_iff.mp h
  exact ⟨h1, (List.getElem?_eq_some_iff.mp hx).1⟩

/-! ### What the traceback highlights -/

/-- First match offsets: strictly increasing from 0, each at a matching column. -/
structure FirstOk (eq : CharEq) (w : List Char) (pat : Nat → Char) (fst : Nat → Nat) (m : Nat) : Prop where
  zero : fst 0 = 0
  lt : ∀ r, r + 1 < m → fst r < fst (r + 1)
  hit : ∀ r, r < m → dpM eq w pat fst r (fst r) = true

theorem FirstOk.ge {m : Nat} (h : FirstOk eq w pat fst m) : ∀ r, r < m → r ≤ fst r := by
  intro r
  induction r with
  | zero => omega
  | succ r ih => intro hr; have := h.lt r hr; have := ih (by omega); omega

/-- The columns highlighted from row `row` on are, in reverse, one matching column per row. -/
theorem tb_spells {m : Nat} (hf : FirstOk eq w pat fst m) (hb : ∀ i, 0 ≤ b i)
    (hpos : ∀ r, r + 1 < m → -16 < (dp eq w pat fst b r).1 (fst (r + 1) - 1)) {h n : Nat} {C : Nat → Nat → Nat} :
    ∀ (col row : Nat) (prefer : Bool), row < m → fst row ≤ col →
    ∃ l : List Nat, tb h n (fun r => (dp eq w pat fst b r).1) C prefer row col = l.reverse ∧ l.length = row + 1 ∧
      l.Pairwise (· < ·) ∧ (∀ i ∈ l, i ≤ col) ∧ ∀ k (hk : k < l.length), dpM eq w pat fst k l[k] = true := by
  intro col
  induction col with
  | zero =>
    intro row prefer hrow hcol
    obtain rfl : row = 0 := by have := hf.ge row hrow; omega
    refine ⟨[0], ?_, rfl, by simp, by simp, ?_⟩
    · unfold tb
      rw [if_pos]
      · rfl
      · have := hb 0; simp only [dp, rowH0]; omega
    · intro k hk
      simp at hk; subst hk
      have := hf.hit 0 hrow
      rw [hf.zero] at this
      exact this
  | succ c ih =>
    intro row prefer hrow hcol
    -- a matching column is highlighted at the latest at the first match of the row
    have hgap : dpM eq w pat fst row (c + 1) = false → fst row ≤ c ∧
        (dp eq w pat fst b row).1 (c + 1) < (dp eq w pat fst b row).1 c := by
      intro hM
      have hne : fst row ≠ c + 1 := by
        intro he
        have := hf.hit row hrow
        rw [he] at this; rw [hM] at this; simp at this
      refine ⟨by omega, ?_⟩
      cases row with
      | zero =>
        have := penGap_bounds w.length (dpM eq w pat fst 0) 0 (c + 1)
        simp only [dp]
        conv_lhs => unfold rowH0
        rw [if_neg (by simp [hM])]; omega
      | succ r =>
        have := penGap_bounds w.length (dpM eq w pat fst (r + 1)) (fst (r + 1)) (c + 1)
        simp only [dp]
        conv_lhs => unfold rowH
        rw [if_neg (by omega), if_neg (by simp [hM])]; omega
    unfold tb
    by_cases hc : (dp eq w pat fst b row).1 (c + 1) > (if row = 0 then 0 else (dp eq w pat fst b (row - 1)).1 c) ∧
        ((dp eq w pat fst b row).1 (c + 1) > (dp eq w pat fst b row).1 c ∨
          ((dp eq w pat fst b row).1 (c + 1) = (dp eq w pat fst b row).1 c ∧ prefer = true))
    · rw [if_pos hc]
      have hM : dpM eq w pat fst row (c + 1) = true := by
        by_contra hcon
        have := hgap (by simpa using hcon)
        omega
      by_cases hr0 : row = 0
      · subst hr0
        refine ⟨[c + 1], by simp, rfl, by simp, by simp, ?_⟩
        intro k hk
        simp at hk; subst hk; exact hM
      · rw [if_neg hr0]
        have hlt := hf.lt (row - 1) (by omega)
        rw [show row - 1 + 1 = row by omega] at hlt
        obtain ⟨l, h1, h2, h3, h4, h5⟩ := ih (row - 1)
          (decide (C row (c + 1) > 1 ∨ (row + 1 < h ∧ c + 2 < n ∧ C (row + 1) (c + 2) > 0))) (by omega) (by omega)
        refine ⟨l ++ [c + 1], ?_, ?_, ?_, ?_, ?_⟩
        · rw [h1]; simp
        · simp [h2]; omega
        · rw [List.pairwise_append]
          refine ⟨h3, by simp, ?_⟩
          intro i hi j hj
          simp at hj; subst hj
          have := h4 i hi; omega
        · intro i hi
          rcases List.mem_append.mp hi with hi | hi
          · have := h4 i hi; omega
          · simp at hi; omega
        · intro k hk
          simp at hk
          by_cases hkl : k < l.length
          · rw [List.getElem_append_left hkl]; exact h5 k hkl
          · rw [List.getElem_append_right (by omega)]
            have : k = row := by omega
            subst this
            simp; exact hM
    · rw [if_neg hc]
      have hfc : fst row ≤ c := by
        by_contra hcon
        have he : fst row = c + 1 := by omega
        have hr0 : row ≠ 0 := by intro h; subst h; rw [hf.zero] at he; omega
        obtain ⟨r, rfl⟩ : ∃ r, row = r + 1 := ⟨row - 1, by omega⟩
        have h1 := hpos r hrow
        have h2 := rowH_match (n := w.length) (first := fst (r + 1)) (b := b) (Hp := (dp eq w pat fst b r).1)
          (Cp := (dp eq w pat fst b r).2) (c := c) (M := dpM eq w pat fst (r + 1)) (by omega)
          (by have := hf.hit (r + 1) hrow; rwa [he] at this)
        have h3 : rowH w.length (dpM eq w pat fst (r + 1)) (fst (r + 1)) b (dp eq w pat fst b r).1
            (dp eq w pat fst b r).2 c = 0 := by
          cases c with
          | zero => rfl
          | succ c => unfold rowH; rw [if_pos (by omega)]
        apply hc
        rw [if_neg hr0, Nat.add_sub_cancel]
        rw [he, Nat.add_sub_cancel] at h1
        have h4 := hb (c + 1)
        simp only [dp] at h1 h2 h3 ⊢
        rw [h3]
        omega
      obtain ⟨l, h1, h2, h3, h4, h5⟩ := ih row
          (decide (C row (c + 1) > 1 ∨ (row + 1 < h ∧ c + 2 < n ∧ C (row + 1) (c + 2) > 0))) hrow hfc
      exact ⟨l, h1, h2, h3, fun i hi => by have := h4 i hi; omega, h5⟩

/-- Scores right of the first match of a row are large when few characters are skipped. -/
theorem dp_ge_first {m : Nat} (hf : FirstOk eq w pat fst m) (hb : ∀ i, 0 ≤ b i) :
    ∀ r, r < m → ∀ c, fst r ≤ c → 16 * ((r : Int) + 1) - 3 * ((c : Int) - r) ≤ (dp eq w pat fst b r).1 c := by
  intro r
  induction r with
  | zero =>
    intro _ c _
    have := rowH0_ge (n := w.length) (M := dpM eq w pat fst 0) hb c
    simp only [dp]; omega
  | succ r ih =>
    intro hr c hc
    obtain ⟨k, rfl⟩ := Nat.exists_eq_add_of_le hc
    have h1 := rowH_right (n := w.length) (first := fst (r + 1)) (b := b) (Hp := (dp eq w pat fst b r).1)
          (Cp := (dp eq w pat fst b r).2) (c := fst (r + 1)) (M := dpM eq w pat fst (r + 1)) (Nat.le_refl _) k
    have hlt := hf.lt r hr
    obtain ⟨f, hfe⟩ : ∃ f, fst (r + 1) = f + 1 := ⟨fst (r + 1) - 1, by omega⟩
    have h2 := rowH_match (n := w.length) (first := fst (r + 1)) (b := b) (Hp := (dp eq w pat fst b r).1)
          (Cp := (dp eq w pat fst b r).2) (c := f) (M := dpM eq w pat fst (r + 1)) (by omega)
          (by have := hf.hit (r + 1) hr; rwa [hfe] at this)
    have h3 := ih (by omega) f (by omega)
    have h4 := hb (f + 1)
    simp only [dp] at h3 ⊢
    rw [hfe] at h1 h2 ⊢
    push_cast
    omega

/-! ### Lower bounds from alignments -/

/-- Without further matches, moving right costs an affine penalty. -/
theorem rowH_gapAffine {n : Nat} {M : Nat → Bool} {first : Nat} {Hp : Nat → Int} {Cp : Nat → Nat} {c : Nat}
    (hc : first ≤ c) (k : Nat) (hM : ∀ j, c < j → j ≤ c + k + 1 → M j = false) :
    rowH n M first b Hp Cp c - 3 - (k : Int) ≤ rowH n M first b Hp Cp (c + k + 1) := by
  induction k with
  | zero =>
    have := rowH_step (n := n) (M := M) (b := b) (Hp := Hp) (Cp := Cp) (c := c) (first := first) hc
    simp only [Nat.add_zero]; omega
  | succ k ih =>
    have h1 := ih (fun j h1 h2 => hM j h1 (by omega))
    conv_rhs => unfold rowH
    rw [show c + (k + 1) = c + k + 1 by omega, if_neg (by omega), if_neg (by simp [hM (c + k + 1 + 1) (by omega) (by omega)])]
    have : penGap n M first (c + k + 1 + 1) = 1 := by
      unfold penGap; rw [Nat.add_sub_cancel, if_neg (by simp [hM (c + k + 1) (by omega) (by omega)])]
    rw [this]; push_cast; omega

theorem rowH0_gapAffine {n : Nat} {M : Nat → Bool} {c : Nat}
    (k : Nat) (hM : ∀ j, c < j → j ≤ c + k + 1 → M j = false) :
    rowH0 n M b c - 3 - (k : Int) ≤ rowH0 n M b (c + k + 1) := by
  induction k with
  | zero =>
    have := penGap_bounds n M 0 (c + 1)
    simp only [Nat.add_zero]
    conv_rhs => unfold rowH0
    rw [if_neg (by simp [hM (c + 1) (by omega) (by omega)])]; simp; omega
  | succ k ih =>
    have h1 := ih (fun j h1 h2 => hM j h1 (by omega))
    conv_rhs => unfold rowH0
    rw [show c + (k + 1) = c + k + 1 by omega, if_neg (by simp [hM (c + k + 1 + 1) (by omega) (by omega)])]
    have : penGap n M 0 (c + k + 1 + 1) = 1 := by
      unfold penGap; rw [Nat.add_sub_cancel, if_neg (by simp [hM (c + k + 1) (by omega) (by omega)])]
    rw [this]; push_cast; omega

/-- One step of an alignment: from a matching column of row `r` to a matching column of the next row, at 3 per
skipped character. -/
theorem dp_next {r c c' : Nat} (hM : dpM eq w pat fst r c = true) (hM' : dpM eq w pat fst (r + 1) c' = true)
    (hlt : c < c') (h0 : r = 0 → ∀ i, c < i → i < c' → dpM eq w pat fst 0 i = false) :
    (dp eq w pat fst b r).1 c + 16 + b c' - 3 * ((c' : Int) - c - 1) ≤ (dp eq w pat fst b (r + 1)).1 c' := by
  obtain ⟨k, rfl⟩ : ∃ k, c' = c + k + 1 := ⟨c' - c - 1, by omega⟩
  have hfirst := (dpM_lt hM').1
  have h1 := rowH_match (n := w.length) (first := fst (r + 1)) (b := b) (Hp := (dp eq w pat fst b r).1)
          (Cp := (dp eq w pat fst b r).2) (c := c + k) (M := dpM eq w pat fst (r + 1)) (by omega) hM'
  have h2 : (dp eq w pat fst b r).1 c - 3 * (k : Int) ≤ (dp eq w pat fst b r).1 (c + k) := by
    cases r with
    | zero =>
      cases k with
      | zero => simp
      | succ k =>
        have := rowH0_gapAffine (n := w.length) (b := b) (M := dpM eq w pat fst 0) (c := c) k
          (fun j h1 h2 => h0 rfl j h1 (by omega))
        simp only [dp]
        rw [← Nat.add_assoc]; push_cast; omega
    | succ r =>
      simp only [dp]
      exact rowH_right (dpM_lt hM).1 k
  simp only [dp] at h1 h2 ⊢
  push_cast; omega

/-- One step of an alignment with an affine penalty, if the row's character does not occur in the gap. -/
theorem dp_next_affine {r c c' : Nat} (hM : dpM eq w pat fst r c = true) (hM' : dpM eq w pat fst (r + 1) c' = true)
    (hlt : c < c') (h0 : ∀ i, c < i → i < c' → dpM eq w pat fst r i = false) :
    (dp eq w pat fst b r).1 c + 16 + b c' - (if c' = c + 1 then 0 else 3 + ((c' - c - 2 : Nat) : Int)) ≤
      (dp eq w pat fst b (r + 1)).1 c' := by
  obtain ⟨k, rfl⟩ : ∃ k, c' = c + k + 1 := ⟨c' - c - 1, by omega⟩
  have hfirst := (dpM_lt hM').1
  have h1 := rowH_match (n := w.length) (first := fst (r + 1)) (b := b) (Hp := (dp eq w pat fst b r).1)
          (Cp := (dp eq w pat fst b r).2) (c := c + k) (M := dpM eq w pat fst (r + 1)) (by omega) hM'
  cases k with
  | zero => simp only [dp] at h1 ⊢; simp at h1 ⊢; omega
  | succ k =>
    have h2 : (dp eq w pat fst b r).1 c - 3 - (k : Int) ≤ (dp eq w pat fst b r).1 (c + k + 1) := by
      cases r with
      | zero => exact rowH0_gapAffine k (fun j h1 h2 => h0 j h1 (by omega))
      | succ r => exact rowH_gapAffine (dpM_lt hM).1 k (fun j h1 h2 => h0 j h1 (by omega))
    rw [if_neg (by omega)]
    simp only [dp] at h1 h2 ⊢
    rw [show c + (k + 1) = c + k + 1 by omega] at h1 ⊢
    have : ((c + k + 1 + 1 - c - 2 : Nat) : Int) = k := by omega
    rw [this]
    omega

/-- A path of matching columns bounds the score of the last row from below. -/
theorem dp_path (pen : Nat → Nat → Int) (T : Nat → Prop)
    (hstep : ∀ r c c', dpM eq w pat fst r c = true → dpM eq w pat fst (r + 1) c' = true → c < c' →
      (T r → ∀ i, c < i → i < c' → dpM eq w pat fst r i = false) →
      (dp eq w pat fst b r).1 c + 16 + b c' - pen c c' ≤ (dp eq w pat fst b (r + 1)).1 c') :
    ∀ (ps : List Nat) (r c : Nat) (X : Int), dpM eq w pat fst r c = true → X ≤ (dp eq w pat fst b r).1 c →
    (c :: ps).Pairwise (· < ·) → (∀ k (hk : k < ps.length), dpM eq w pat fst (r + 1 + k) ps[k] = true) →
    (∀ k i j, T (r + k) → (c :: ps)[k]? = some i → (c :: ps)[k + 1]? = some j →
      ∀ l, i < l → l < j → dpM eq w pat fst (r + k) l = false) →
    ∃ c', dpM eq w pat fst (r + ps.length) c' = true ∧
      X + plainRest pen b c ps ≤ (dp eq w pat fst b (r + ps.length)).1 c' := by
  intro ps
  induction ps with
  | nil => intro r c X hM hX _ _ _; exact ⟨c, hM, by simp only [plainRest]; simpa using hX⟩
  | cons i ps ih =>
    intro r c X hM hX hs hall ht
    obtain ⟨h1, h2⟩ := List.pairwise_cons.mp hs
    have hi : dpM eq w pat fst (r + 1) i = true := by have := hall 0 (by simp); simpa using this
    have hst := hstep r c i hM hi (h1 i (by simp)) (fun hT => ht 0 c i hT (by simp) (by simp))
    obtain ⟨c', h3, h4⟩ := ih (r + 1) i (X + (16 + b i - pen c i)) hi (by omega) h2
      (by
        intro k hk
        have := hall (k + 1) (by simpa using hk)
        simp only [List.getElem_cons_succ] at this
        rwa [show r + 1 + (k + 1) = r + 1 + 1 + k by omega] at this)
      (by
        intro k i' j' hT hi' hj' l hl1 hl2
        have := ht (k + 1) i' j' (by rwa [show r + (k + 1) = r + 1 + k by omega]) (by simpa using hi')
          (by simpa using hj') l hl1 hl2
        rwa [show r + (k + 1) = r + 1 + k by omega] at this)
    refine ⟨c', ?_, ?_⟩
    · simp only [List.length_cons]; rwa [show r + (ps.length + 1) = r + 1 + ps.length by omega]
    · simp only [List.length_cons, plainRest]
      rw [show r + (ps.length + 1) = r + 1 + ps.length by omega]
      omega

end Dp

/-! ### Facts about `v2Result` -/

section Result
variable {B : Nat → Int} {eq : CharEq} {p s : List Char}

theorem v2_firstOk {g : List Nat} (hp : p ≠ []) (hg : greedyFrom eq s p 0 = some g) :
    FirstOk eq (v2Chars eq p s g) (fun r => p.getD r 'a') (v2Fst eq p s g) p.length := by
  obtain ⟨hW, _⟩ := windowOk hp hg
  have hinc := (greedyFrom_align hg).1.increasing
  rw [List.pairwise_iff_getElem] at hinc
  refine ⟨hW.fst0, ?_, ?_⟩
  · intro r hr
    have h1 := hinc r (r + 1) (by rw [hW.galen]; omega) (by rw [hW.galen]; omega) (by omega)
    have hrl : r < g.length := by rw [hW.galen]; omega
    have h2 := hW.gge g[r] (by simp)
    unfold v2Fst
    rw [getD_of_lt _ (by rw [hW.galen]; omega), getD_of_lt _ (by rw [hW.galen]; omega)]
    omega
  · intro r hr
    obtain ⟨_, x, hx, he⟩ := hW.hit r hr
    rw [dpM, matchAt_iff]
    exact ⟨Nat.le_refl _, x, hx, he⟩

theorem v2Best_ge {g : List Nat} (hB : ∀ i, 0 ≤ B i) (hp : p ≠ []) (hg : greedyFrom eq s p 0 = some g) (R : Nat) :
    16 ≤ (v2Best B eq p s g R).1 := by
  have hf := v2_firstOk hp hg
  have hM := hf.hit 0 (List.length_pos_iff.mpr hp)
  rw [hf.zero] at hM
  have h1 := dpBest_ge (b := fun i => B ((v2Window eq p s g).1 + i)) (Nat.zero_le R) hM
  have h2 := hB ((v2Window eq p s g).1 + 0)
  simp only [dp, rowH0] at h1
  unfold v2Best
  omega

theorem v2Best_attained {g : List Nat} (hB : ∀ i, 0 ≤ B i) (hp : p ≠ []) (hg : greedyFrom eq s p 0 = some g) (R : Nat) :
    ∃ r c, r ≤ R ∧ dpM eq (v2Chars eq p s g) (fun r => p.getD r 'a') (v2Fst eq p s g) r c = true ∧
      v2Best B eq p s g R = ((v2Dp B eq p s g r).1 c, r * (v2Chars eq p s g).length + c) := by
  refine dpBest_attained R ?_
  have := v2Best_ge hB hp hg R
  intro h
  unfold v2Best at this
  rw [h] at this
  omega

theorem v2Result_score (hB : ∀ i, 0 ≤ B i) (hB' : ∀ i, B i ≤ 10) (hp : p ≠ []) {x : List Nat × Int}
    (h : v2Result B eq p s = some x) : 16 ≤ x.2 ∧ x.2 ≤ 26 * (p.length : Int) + 10 := by
  have hlen := List.length_pos_iff.mpr hp
  unfold v2Result at h
  split at h
  · rename_i h1
    obtain ⟨i, c, rfl, _⟩ := singleResult_some h
    have := hB i
    have := hB' i
    simp only
    omega
  · cases hg : greedyFrom eq s p 0 with
    | none => rw [hg] at h; simp at h
    | some g =>
      rw [hg] at h
      obtain rfl := Option.some.inj h
      refine ⟨v2Best_ge hB hp hg _, ?_⟩
      obtain ⟨r, c, hr, _, he⟩ := v2Best_attained hB hp hg (p.length - 1)
      simp only [he]
      have := dp_le (eq := eq) (w := v2Chars eq p s g) (pat := fun r => p.getD r 'a') (fst := v2Fst eq p s g)
        (b := fun i => B ((v2Window eq p s g).1 + i)) (fun i => hB' _) r c
      unfold v2Dp
      omega

/-- Every alignment lies in the window, to the right of the first match offsets. -/
theorem window_align {g : List Nat} (hp : p ≠ []) (hg : greedyFrom eq s p 0 = some g) {ps : List Nat}
    (ha : Alignment (rel eq) p s ps) : ∀ k (hk : k < ps.length), (v2Window eq p s g).1 ≤ ps[k] ∧
      dpM eq (v2Chars eq p s g) (fun r => p.getD r 'a') (v2Fst eq p s g) k (ps[k] - (v2Window eq p s g).1) = true := by
  intro k hk
  obtain ⟨hW, _⟩ := windowOk hp hg
  have hlen := ha.length_eq
  obtain ⟨g', hg', hle⟩ := greedyFrom_least (off := 0) ha (by simp)
  rw [hg] at hg'
  obtain rfl := Option.some.inj hg'
  have hlek := (List.forall₂_iff_get.mp hle).2 k (by rw [hW.galen]; omega) hk
  simp only [List.get_eq_getElem] at hlek
  have hkg : k < g.length := by rw [hW.galen]; omega
  have hge := hW.gge g[k] (by simp)
  have hspell := (List.forall₂_iff_get.mp ha.spells).2 k (by omega) hk
  obtain ⟨c, hc, hr⟩ := hspell
  simp only [List.get_eq_getElem] at hc hr
  have hlast : ∀ i ∈ ps, i < (v2Window eq p s g).2 := by
    have hpl := List.length_pos_iff.mpr hp
    have hl := (List.forall₂_iff_get.mp ha.spells).2 (p.length - 1) (by omega) (by omega)
    obtain ⟨cl, hcl, hrl⟩ := hl
    simp only [List.get_eq_getElem] at hcl hrl
    have hlast' := hW.last _ cl (List.getElem?_eq_some_iff.mp hcl).1 hcl
      (by rw [getLastD_of_ne _ hp, List.getLast_eq_getElem]; exact hrl)
    intro i hi
    obtain ⟨j, hj, rfl⟩ := List.getElem_of_mem hi
    by_cases hjl : j = p.length - 1
    · subst hjl; exact hlast'
    · have := (List.pairwise_iff_getElem.mp ha.increasing) j (p.length - 1) hj (by omega) (by omega)
      omega
  have hk2 := hlast ps[k] (by simp)
  refine ⟨by omega, ?_⟩
  rw [dpM, matchAt_iff]
  refine ⟨?_, c, ?_, ?_⟩
  · unfold v2Fst; rw [getD_of_lt _ (by rw [hW.galen]; omega)]; omega
  · rw [hW.getw _ (by rw [hW.len]; omega), show (v2Window eq p s g).1 + (ps[k] - (v2Window eq p s g).1) = ps[k] by omega]
    exact hc
  · rw [getD_of_lt _ (by omega)]; exact hr

theorem plainRest_shift {pen : Nat → Nat → Int} (hpen : ∀ a i j, pen (a + i) (a + j) = pen i j) (a : Nat) :
    ∀ (ps : List Nat) (c : Nat), a ≤ c → (∀ i ∈ ps, a ≤ i) →
    plainRest pen (fun i => B (a + i)) (c - a) (ps.map (· - a)) = plainRest pen B c ps := by
  intro ps
  induction ps with
  | nil => intro c _ _; rfl
  | cons i ps ih =>
    intro c hc hps
    have hi := hps i (by simp)
    simp only [List.map_cons, plainRest]
    rw [ih i hi (fun j hj => hps j (by simp [hj])), show a + (i - a) = i by omega]
    have := hpen a (c - a) (i - a)
    rw [show a + (c - a) = c by omega, show a + (i - a) = i by omega] at this
    rw [this]

/-- The score is at least the simplified score of an alignment, for any penalty the rows respect. -/
theorem v2Result_ge {pen : Nat → Nat → Int} (hpen : ∀ a i j, pen (a + i) (a + j) = pen i j) (T : Nat → Prop)
    (hstep : ∀ (w : List Char) (pat : Nat → Char) (fst : Nat → Nat) (b : Nat → Int) r c c',
      dpM eq w pat fst r c = true → dpM eq w pat fst (r + 1) c' = true → c < c' →
      (T r → ∀ i, c < i → i < c' → dpM eq w pat fst r i = false) →
      (dp eq w pat fst b r).1 c + 16 + b c' - pen c c' ≤ (dp eq w pat fst b (r + 1)).1 c')
    (hp : p ≠ []) {ps : List Nat} (ha : Alignment (rel eq) p s ps)
    (ht : ∀ n, T n → TightAt (rel eq) p s ps n) {x : List Nat × Int} (h : v2Result B eq p s = some x) :
    plainScore pen B ps ≤ x.2 := by
  have hlen := ha.length_eq
  have hpl := List.length_pos_iff.mpr hp
  unfold v2Result at h
  split at h
  · rename_i h1
    obtain ⟨i, c, rfl, _, _, hmax⟩ := singleResult_some h
    obtain ⟨j, rfl⟩ := List.length_eq_one_iff.mp (show ps.length = 1 by omega)
    obtain ⟨q, rfl⟩ := List.length_eq_one_iff.mp h1
    obtain ⟨d, hd, hr⟩ := (List.forall₂_cons.mp ha.spells).1
    have := (hmax j d hd hr).1
    simp only [plainScore, plainRest]
    omega
  · cases hg : greedyFrom eq s p 0 with
    | none => rw [hg] at h; simp at h
    | some g =>
      rw [hg] at h
      obtain rfl := Option.some.inj h
      have hwa := window_align hp hg ha
      cases ps with
      | nil => simp at hlen; omega
      | cons c0 ps =>
        obtain ⟨h00, h0M⟩ := hwa 0 (by simp)
        simp only [List.getElem_cons_zero] at h00 h0M
        have hge : ∀ i ∈ c0 :: ps, (v2Window eq p s g).1 ≤ i := by
          intro i hi
          obtain ⟨k, hk, rfl⟩ := List.getElem_of_mem hi
          exact (hwa k hk).1
        obtain ⟨hW, _⟩ := windowOk hp hg
        obtain ⟨c', hc', hsc⟩ := dp_path (b := fun i => B ((v2Window eq p s g).1 + i)) pen T
          (fun r c c' => hstep _ _ _ _ r c c')
          (ps.map (· - (v2Window eq p s g).1)) 0 (c0 - (v2Window eq p s g).1) (16 + 2 * B c0) h0M
          (by
            simp only [dp]
            have : rowH0 (v2Chars eq p s g).length
                (dpM eq (v2Chars eq p s g) (fun r => p.getD r 'a') (v2Fst eq p s g) 0)
                (fun i => B ((v2Window eq p s g).1 + i)) (c0 - (v2Window eq p s g).1) = 16 + B c0 * 2 := by
              generalize hce : c0 - (v2Window eq p s g).1 = c1 at h0M
              have hce' : c0 = (v2Window eq p s g).1 + c1 := by omega
              cases c1 with
              | zero => simp only [rowH0, hce']
              | succ c1 => unfold rowH0; rw [if_pos h0M, hce']
            rw [this]; omega)
          (by
            have hinc := ha.increasing
            rw [← List.map_cons (f := (· - (v2Window eq p s g).1)), List.pairwise_map]
            refine hinc.imp_of_mem ?_
            intro x y hx hy hxy
            have := hge x hx
            have := hge y hy
            omega)
          (by
            intro k hk
            simp at hk
            have := (hwa (k + 1) (by simpa using hk)).2
            simp only [List.getElem_cons_succ] at this
            simp only [List.getElem_map, Nat.zero_add]
            rwa [Nat.add_comm 1 k])
          (by
            intro k i j hT hi hj l hl1 hl2
            rw [Nat.zero_add] at hT ⊢
            rw [← List.map_cons (f := (· - (v2Window eq p s g).1)), List.getElem?_map,
              Option.map_eq_some_iff] at hi hj
            obtain ⟨i', hi', rfl⟩ := hi
            obtain ⟨j', hj', rfl⟩ := hj
            have hi2 := hge i' (List.mem_of_getElem? hi')
            have hkl : k < p.length := by
              have := (List.getElem?_eq_some_iff.mp hi').1
              omega
            cases hdp : dpM eq (v2Chars eq p s g) (fun r => p.getD r 'a') (v2Fst eq p s g) k l with
            | false => rfl
            | true =>
              exfalso
              obtain ⟨_, x, hx, he⟩ := matchAt_iff.mp hdp
              have hlw := (List.getElem?_eq_some_iff.mp hx).1
              rw [hW.getw l hlw] at hx
              refine ht k hT i' j' (p.getD k 'a') hi' hj' ?_ ((v2Window eq p s g).1 + l) x (by omega) (by omega) hx he
              rw [List.getElem?_eq_getElem hkl, getD_of_lt _ hkl])
        have hle := dpBest_ge (b := fun i => B ((v2Window eq p s g).1 + i)) (R := p.length - 1)
          (by simp at hlen; simp; omega) hc'
        rw [plainRest_shift hpen _ _ _ h00 (fun i hi => hge i (by simp [hi]))] at hsc
        unfold v2Best plainScore
        simp only
        omega

/-- C48: at 3 per skipped character. -/
theorem v2Result_ge_linear (hp : p ≠ []) {ps : List Nat} (ha : Alignment (rel eq) p s ps)
    (ht : TightAt (rel eq) p s ps 0) {x : List Nat × Int} (h : v2Result B eq p s = some x) :
    plainScore gapLinear B ps ≤ x.2 := by
  refine v2Result_ge (pen := gapLinear) (T := (· = 0)) ?_ ?_ hp ha ?_ h
  · intro a i j; unfold gapLinear; push_cast; omega
  · intro w pat fst b r c c' h1 h2 h3 h4
    refine dp_next h1 h2 h3 ?_
    intro hr i hi1 hi2
    have := h4 hr i hi1 hi2
    rwa [hr] at this
  · intro n hn; subst hn; exact ht

/-- The affine version, for tight alignments. -/
theorem v2Result_ge_affine (hp : p ≠ []) {ps : List Nat} (ha : Alignment (rel eq) p s ps)
    (ht : ∀ n, TightAt (rel eq) p s ps n) {x : List Nat × Int} (h : v2Result B eq p s = some x) :
    plainScore gapAffine B ps ≤ x.2 := by
  refine v2Result_ge (pen := gapAffine) (T := fun _ => True) ?_ ?_ hp ha (fun n _ => ht n) h
  · intro a i j
    unfold gapAffine
    by_cases hji : j = i + 1
    · rw [if_pos hji, if_pos (by omega)]
    · rw [if_neg hji, if_neg (by omega)]
      congr 2; omega
  · intro w pat fst b r c c' h1 h2 h3 h4
    exact dp_next_affine h1 h2 h3 (h4 trivial)

/-- Without adjacent positions the documented score is the simplified one. -/
theorem runScore_plain : ∀ (ps : List Nat) (prev : Nat) (run : Int),
    (∀ n i, (prev :: ps)[n]? = some i → (prev :: ps)[n + 1]? ≠ some (i + 1)) →
    runScore B prev run ps = plainRest gapAffine B prev ps := by
  intro ps
  induction ps with
  | nil => intro _ _ _; rfl
  | cons i ps ih =>
    intro prev run h
    have h0 : i ≠ prev + 1 := by have := h 0 prev (by simp); simpa using this
    simp only [runScore, plainRest, gapAffine, if_neg h0]
    rw [ih i (B i) (fun n j hj => h (n + 1) j (by simpa using hj))]

theorem alignScore_plain {ps : List Nat} (h : ∀ (n i : Nat), ps[n]? = some i → ps[n + 1]? ≠ some (i + 1)) :
    alignScore B ps = plainScore gapAffine B ps := by
  cases ps with
  | nil => rfl
  | cons i ps => simp only [alignScore, plainScore, runScore_plain ps i (B i) h]

/-- What V2 highlights when few characters are skipped by the leftmost alignment. -/
theorem v2Result_spells (hB : ∀ i, 0 ≤ B i) (hB' : ∀ i, B i ≤ 10) (hp : p ≠ [])
    (hgap : ∀ g, Alignment (rel eq) p s g → (∀ ps, Alignment (rel eq) p s ps → List.Forall₂ (· ≤ ·) g ps) →
      ∀ k i j, g[0]? = some i → g[k]? = some j → 3 * (j - i - k) < 16 * (k + 1))
    {x : List Nat × Int} (h : v2Result B eq p s = some x) :
    ∃ k l, 1 ≤ k ∧ k ≤ p.length ∧ x.1 = l.reverse ∧ Alignment (rel eq) (p.take k) s l ∧
      (26 * ((p.length : Int) - 1) + 10 < x.2 → k = p.length) := by
  have hpl := List.length_pos_iff.mpr hp
  unfold v2Result at h
  split at h
  · rename_i h1
    obtain ⟨i, c, rfl, hc, hq, _⟩ := singleResult_some h
    obtain ⟨q, rfl⟩ := List.length_eq_one_iff.mp h1
    refine ⟨1, [i], by omega, by omega, rfl, ?_, fun _ => h1.symm⟩
    exact ⟨by simp, .cons ⟨c, hc, hq⟩ .nil⟩
  · cases hg : greedyFrom eq s p 0 with
    | none => rw [hg] at h; simp at h
    | some g =>
      rw [hg] at h
      obtain rfl := Option.some.inj h
      have hf := v2_firstOk hp hg
      obtain ⟨hW, _⟩ := windowOk hp hg
      obtain ⟨r, c, hr, hM, he⟩ := v2Best_attained hB hp hg (p.length - 1)
      obtain ⟨hc1, hc2⟩ := dpM_lt hM
      obtain ⟨l, h1, h2, h3, h4, h5⟩ := tb_spells hf (b := fun i => B ((v2Window eq p s g).1 + i)) (fun i => hB _)
        (by
          intro r hr
          have hlt := hf.lt r hr
          have h1 := dp_ge_first hf (b := fun i => B ((v2Window eq p s g).1 + i)) (fun i => hB _) r (by omega)
            (v2Fst eq p s g (r + 1) - 1) (by omega)
          have hgr : r + 1 < g.length := by rw [hW.galen]; omega
          have h2 := hgap g (greedyFrom_align hg).1 (fun ps hps => by
            obtain ⟨g', hg', hle⟩ := greedyFrom_least (off := 0) hps (by simp)
            rw [hg] at hg'
            obtain rfl := Option.some.inj hg'
            exact hle) (r + 1) g[0] g[r + 1] (List.getElem?_eq_getElem (by omega)) (List.getElem?_eq_getElem hgr)
          have h3 : v2Fst eq p s g (r + 1) = g[r + 1] - g[0] := by
            unfold v2Fst
            rw [getD_of_lt _ hgr]
            congr 1
            cases g with
            | nil => simp at hgr
            | cons a g => rfl
          have h4 := hf.ge (r + 1) hr
          rw [← h3] at h2
          omega)
        (h := p.length) (n := (v2Chars eq p s g).length) (C := fun i => (v2Dp B eq p s g i).2) c r true (by omega) hc1
      refine ⟨r + 1, l.map ((v2Window eq p s g).1 + ·), by omega, by omega, ?_, ?_, ?_⟩
      · simp only [v2Trace, he]
        rw [Nat.mul_comm, Nat.mul_add_div (by omega), Nat.mul_add_mod, Nat.mod_eq_of_lt hc2, Nat.div_eq_of_lt hc2,
          Nat.add_zero, ← List.map_reverse]
        congr 1
      · refine ⟨?_, ?_⟩
        · rw [List.pairwise_map]
          exact h3.imp (fun h => by omega)
        · rw [List.forall₂_iff_get]
          refine ⟨by simp [h2]; omega, ?_⟩
          intro k hk1 hk2
          simp at hk1 hk2
          obtain ⟨_, x, hx, hm⟩ := matchAt_iff.mp (h5 k hk2)
          refine ⟨x, ?_, ?_⟩
          · simp only [List.get_eq_getElem, List.getElem_map]
            rw [← hW.getw _ (List.getElem?_eq_some_iff.mp hx).1]
            exact hx
          · simp only [List.get_eq_getElem, List.getElem_take]
            have hm' : eq (p.getD k 'a') x = true := hm
            rw [getD_of_lt _ (by omega)] at hm'
            exact hm'
      · intro hx
        simp only [he] at hx
        have := dp_le (eq := eq) (w := v2Chars eq p s g) (pat := fun r => p.getD r 'a') (fst := v2Fst eq p s g)
          (b := fun i => B ((v2Window eq p s g).1 + i)) (fun i => hB' _) r c
        unfold v2Dp at hx
        omega

/-- The leftmost alignment of a query skips few characters of a short candidate. -/
theorem gap_of_short {R : Char → Char → Prop} (hshort : s.length ≤ p.length + 10) {g : List Nat}
    (hg : Alignment R p s g) {k i j : Nat} (hi : g[0]? = some i) (hj : g[k]? = some j) :
    3 * (j - i - k) < 16 * (k + 1) := by
  have hlen := hg.length_eq
  obtain ⟨hkl, rfl⟩ := List.getElem?_eq_some_iff.mp hj
  obtain ⟨h0l, rfl⟩ := List.getElem?_eq_some_iff.mp hi
  have hinc := List.pairwise_iff_getElem.mp hg.increasing
  have hup : ∀ d (hd : k + d < g.length), g[k] + d ≤ g[k + d] := by
    intro d
    induction d with
    | zero => intro _; simp
    | succ d ih =>
      intro hd
      have h1 := ih (by omega)
      have h2 := hinc (k + d) (k + (d + 1)) (by omega) hd (by omega)
      omega
  have h1 := hup (g.length - 1 - k) (by omega)
  have h2 := hg.lt_length (g[k + (g.length - 1 - k)]'(by omega)) (by simp)
  by_cases hk : k = 0
  · subst hk; omega
  · omega

end Result

end Norm
