import Verif.Proofs.Append
import Verif.Proofs.Outcome

/-! # Text of the candidate that no match depends on -/

namespace Norm
open Spec

/-! ### The table depends on the bonuses of the window's columns only -/

section
variable {b b' : Nat → Int} {k : Nat}

theorem runBonus_congr (hb : ∀ i ≤ k, b i = b' i) {c cons : Nat} (hc : c ≤ k) :
    runBonus b c cons = runBonus b' c cons := by
  unfold runBonus
  rw [hb c hc]
  split
  · rw [hb (c + 1 - cons) (by omega)]
  · rfl

theorem cell_congr (hb : ∀ i ≤ k, b i = b' i) {c : Nat} (hc : c ≤ k) (left diag : Int) (pc : Nat) :
    cell b c left diag pc = cell b' c left diag pc := by
  unfold cell
  rw [runBonus_congr hb hc, hb c hc]

theorem rowH0_congr (hb : ∀ i ≤ k, b i = b' i) (n : Nat) (M : Nat → Bool) {c : Nat} (hc : c ≤ k) :
    rowH0 n M b c = rowH0 n M b' c := by
  induction c with
  | zero => simp only [rowH0, hb 0 hc]
  | succ c ih => simp only [rowH0, hb (c + 1) hc, ih (by omega)]

theorem rowH_congr (hb : ∀ i ≤ k, b i = b' i) (n : Nat) (M : Nat → Bool) (first : Nat) {Hp Hp' : Nat → Int} {Cp Cp' : Nat → Nat}
    (hH : ∀ i ≤ k, Hp i = Hp' i) (hC : ∀ i ≤ k, Cp i = Cp' i) {c : Nat} (hc : c ≤ k) :
    rowH n M first b Hp Cp c = rowH n M first b' Hp' Cp' c := by
  induction c with
  | zero => rfl
  | succ c ih => simp only [rowH, ih (by omega), hH c (by omega), hC c (by omega), cell_congr hb hc]

theorem rowC_congr (hb : ∀ i ≤ k, b i = b' i) (n : Nat) (M : Nat → Bool) (first : Nat) {Hp Hp' : Nat → Int} {Cp Cp' : Nat → Nat}
    (hH : ∀ i ≤ k, Hp i = Hp' i) (hC : ∀ i ≤ k, Cp i = Cp' i) {c : Nat} (hc : c ≤ k) :
    rowC n M first b Hp Cp c = rowC n M first b' Hp' Cp' c := by
  cases c with
  | zero => rfl
  | succ c =>
    simp only [rowC, rowH_congr hb n M first hH hC (c := c) (by omega), hH c (by omega), hC c (by omega), cell_congr hb hc]

variable {eq : CharEq} {w : List Char} {pat : Nat → Char} {fst : Nat → Nat}

theorem dp_congr (hb : ∀ i ≤ k, b i = b' i) (r : Nat) : ∀ c ≤ k, (dp eq w pat fst b r).1 c = (dp eq w pat fst b' r).1 c ∧
    (dp eq w pat fst b r).2 c = (dp eq w pat fst b' r).2 c := by
  induction r with
  | zero => intro c hc; exact ⟨rowH0_congr hb _ _ hc, rfl⟩
  | succ r ih =>
    intro c hc
    exact ⟨rowH_congr hb _ _ _ (fun i hi => (ih i hi).1) (fun i hi => (ih i hi).2) hc,
      rowC_congr hb _ _ _ (fun i hi => (ih i hi).1) (fun i hi => (ih i hi).2) hc⟩

theorem bestRow_congr (n r : Nat) {f f' : Nat → Int} {offs : List Nat} (h : ∀ c ∈ offs, f c = f' c) (acc : Int × Nat) :
    bestRow n r f offs acc = bestRow n r f' offs acc := by
  unfold bestRow
  induction offs generalizing acc with
  | nil => rfl
  | cons c offs ih =>
    simp only [List.foldl_cons, h c (by simp)]
    exact ih (fun x hx => h x (by simp [hx])) _

theorem dpBest_congr (hb : ∀ i < w.length, b i = b' i) (r : Nat) :
    dpBest eq w pat fst b r = dpBest eq w pat fst b' r := by
  have ho : ∀ r, ∀ c ∈ idxsFrom (fun x => eq (pat r) x) w (fst r), c < w.length := by
    intro r c hc
    obtain ⟨_, x, hx, _⟩ := mem_idxsFrom.mp hc
    exact (List.getElem?_eq_some_iff.mp hx).1
  have hd : ∀ r, ∀ c ∈ idxsFrom (fun x => eq (pat r) x) w (fst r),
      (dp eq w pat fst b r).1 c = (dp eq w pat fst b' r).1 c := fun r c hc =>
    (dp_congr (k := w.length - 1) (fun i hi => hb i (by have := ho r c hc; omega)) r c (by have := ho r c hc; omega)).1
  induction r with
  | zero => exact bestRow_congr _ _ (hd 0) _
  | succ r ih => rw [dpBest, dpBest, ih]; exact bestRow_congr _ _ (hd (r + 1)) _

theorem tb_congr_cols {h n : Nat} {H H' : Nat → Nat → Int} {C C' : Nat → Nat → Nat}
    (hh : ∀ r c, c < n → H r c = H' r c ∧ C r c = C' r c) {col : Nat} (hc : col < n) (prefer : Bool) (row : Nat) :
    tb h n H C prefer row col = tb h n H' C' prefer row col := by
  induction col generalizing prefer row with
  | zero => simp only [tb, (hh row 0 hc).1]
  | succ c ih =>
    have h1 : decide (C row (c + 1) > 1 ∨ (row + 1 < h ∧ c + 2 < n ∧ C (row + 1) (c + 2) > 0)) =
        decide (C' row (c + 1) > 1 ∨ (row + 1 < h ∧ c + 2 < n ∧ C' (row + 1) (c + 2) > 0)) := by
      rw [decide_eq_decide, (hh row (c + 1) hc).2]
      refine or_congr_right (and_congr_right fun _ => and_congr_right fun h2 => ?_)
      rw [(hh (row + 1) (c + 2) h2).2]
    simp only [tb, h1, (hh row (c + 1) hc).1, (hh row c (by omega)).1, (hh (row - 1) c (by omega)).1,
      ih (by omega)]

end

section
variable {B B' : Nat → Int} {eq : CharEq} {p s z : List Char}

theorem bestPos_congr {offs : List Nat} (h : ∀ i ∈ offs, B i = B' i) (acc : Int × Nat) : bestPos B offs acc = bestPos B' offs acc := by
  unfold bestPos
  induction offs generalizing acc with
  | nil => rfl
  | cons c offs ih =>
    simp only [List.foldl_cons, h c (by simp)]
    exact ih (fun x hx => h x (by simp [hx])) _

theorem idxs_lt {f : Char → Bool} {c : Nat} (h : c ∈ idxsFrom f s 0) : c < s.length := by
  obtain ⟨_, x, hx, _⟩ := mem_idxsFrom.mp h
  exact (List.getElem?_eq_some_iff.mp hx).1

/-- The parts of `v2Result` that do not depend on the candidate but through the window. -/
theorem v2_of_window {s' : List Char} {g g' : List Nat} {k : Nat} (hn : 0 < (v2Chars eq p s g).length)
    (hc : v2Chars eq p s' g' = v2Chars eq p s g) (hf : v2Fst eq p s' g' = v2Fst eq p s g)
    (hw : (v2Window eq p s' g').1 = k + (v2Window eq p s g).1)
    (hB : ∀ i < (v2Chars eq p s g).length, B' (k + (v2Window eq p s g).1 + i) = B ((v2Window eq p s g).1 + i)) :
    v2Best B' eq p s' g' (p.length - 1) = v2Best B eq p s g (p.length - 1) ∧
      v2Trace B' eq p s' g' = (v2Trace B eq p s g).map (k + ·) := by
  have hbest : v2Best B' eq p s' g' (p.length - 1) = v2Best B eq p s g (p.length - 1) := by
    unfold v2Best
    rw [hc, hf, hw]
    exact dpBest_congr hB _
  refine ⟨hbest, ?_⟩
  unfold v2Trace
  rw [hbest, hc, hw, List.map_map]
  have : ((k + ·) ∘ ((v2Window eq p s g).1 + ·)) = (k + (v2Window eq p s g).1 + ·) := by funext i; simp only [Function.comp]; omega
  rw [this]
  congr 1
  refine tb_congr_cols (fun r c hcn => ?_) (Nat.mod_lt _ hn) _ _
  unfold v2Dp
  rw [hc, hf, hw]
  exact dp_congr (k := (v2Chars eq p s g).length - 1) (fun i hi => hB i (by omega)) r c (by omega)

theorem v2Chars_pos (hp : p ≠ []) {g : List Nat} (hg : greedyFrom eq s p 0 = some g) : 0 < (v2Chars eq p s g).length := by
  have h := (windowOk hp hg).1
  have := h.len
  have := h.le
  omega

/-! ### Text after the last match of the last character -/

theorem findLastIdx?_append_left {f : Char → Bool} (hz : ∀ c ∈ z, f c = false) :
    findLastIdx? f (s ++ z) = findLastIdx? f s := by
  unfold findLastIdx?
  rw [List.reverse_append, List.findIdx?_append, findIdx?_all_false (fun c hc => hz c (by simpa using hc))]
  simp only [Option.none_or, List.length_reverse, Option.map_map]
  congr 1
  funext i
  simp only [Function.comp, List.length_append]
  omega

theorem findLastIdx?_append_right {f : Char → Bool} {a : List Char} {j : Nat} (h : findLastIdx? f s = some j) :
    findLastIdx? f (a ++ s) = some (a.length + j) := by
  unfold findLastIdx? at h ⊢
  rw [Option.map_eq_some_iff] at h
  obtain ⟨i, hi, rfl⟩ := h
  rw [List.reverse_append, List.findIdx?_append, hi]
  have : i < s.length := by simpa using (List.findIdx?_eq_some_iff_getElem.mp hi).1
  simp only [Option.some_or, Option.map_some, List.length_append, Option.some.injEq]
  omega

theorem getLast?_getLastD {q : Char} (h : p.getLast? = some q) : p.getLastD 'a' = q := by
  rw [List.getLastD_eq_getLast?, h]
  rfl

theorem greedyFrom_append_iff (hp : p ≠ []) (hz : ∀ c ∈ z, eq (p.getLastD 'a') c = false) :
    greedyFrom eq (s ++ z) p 0 = greedyFrom eq s p 0 := by
  cases h : greedyFrom eq s p 0 with
  | some g => exact greedyFrom_append z _ _ _ h
  | none =>
    cases h' : greedyFrom eq (s ++ z) p 0 with
    | none => rfl
    | some g =>
      exfalso
      obtain ⟨m, hm, hr⟩ := greedyFrom_isSome.mp (by rw [h']; rfl : (greedyFrom eq (s ++ z) p 0).isSome = true)
      obtain ⟨m₁, m₂, rfl, h1, h2⟩ := List.sublist_append_iff.mp hm
      have h3 : m₂ = [] := by
        by_contra hne
        have hr := List.forall₂_reverse_iff.mpr hr
        rw [← List.dropLast_concat_getLast hp, ← List.dropLast_concat_getLast hne, ← List.append_assoc, List.reverse_concat,
          List.reverse_concat] at hr
        have h4 := (List.forall₂_cons.mp hr).1
        have h5 := hz _ (h2.subset (List.getLast_mem hne))
        rw [List.getLastD_eq_getLast?, List.getLast?_eq_some_getLast hp] at h5
        unfold rel at h4
        simp only [Option.getD_some] at h5
        rw [h5] at h4
        cases h4
      rw [h3, List.append_nil] at hr
      have := greedyFrom_isSome.mpr ⟨m₁, h1, hr⟩
      rw [h] at this
      cases this

theorem allIdxFrom_append {f : Char → Bool} (off : Nat) :
    allIdxFrom f (s ++ z) off = allIdxFrom f s off ++ allIdxFrom f z (off + s.length) := by
  induction s generalizing off with
  | nil => rfl
  | cons c s ih =>
    simp only [List.cons_append, allIdxFrom, ih, List.length_cons]
    rw [show off + 1 + s.length = off + (s.length + 1) by omega]
    split <;> rfl

theorem v2Result_after (hp : p ≠ []) (hz : ∀ c ∈ z, eq (p.getLastD 'a') c = false) (hB : ∀ i < s.length, B' i = B i) :
    v2Result B' eq p (s ++ z) = v2Result B eq p s := by
  unfold v2Result
  split
  · rename_i h1
    obtain ⟨q, rfl⟩ := List.length_eq_one_iff.mp h1
    have hi : idxsFrom (fun x => eq q x) (s ++ z) 0 = idxsFrom (fun x => eq q x) s 0 := by
      unfold idxsFrom
      rw [List.drop_zero, List.drop_zero, allIdxFrom_append, allIdxFrom_false (p := fun x => eq q x) hz, List.append_nil]
    show singleResult B' eq q (s ++ z) = singleResult B eq q s
    unfold singleResult
    rw [hi, bestPos_congr fun i hi => hB i (idxs_lt hi)]
  · rw [greedyFrom_append_iff hp hz]
    cases hg : greedyFrom eq s p 0 with
    | none => rfl
    | some g =>
      have hwin : v2Window eq p (s ++ z) g = v2Window eq p s g := by
        unfold v2Window
        rw [findLastIdx?_append_left hz]
      have hok := (windowOk hp hg).1
      have hc : v2Chars eq p (s ++ z) g = v2Chars eq p s g := by
        unfold v2Chars
        rw [hwin, List.take_append_of_le_length hok.lt]
      obtain ⟨h1, h2⟩ := v2_of_window (B := B) (B' := B') (s' := s ++ z) (g' := g) (k := 0) (v2Chars_pos hp hg) hc
        (by unfold v2Fst; rw [hwin]) (by rw [hwin]; omega) (by
          intro i hi
          have := hok.len
          have := hok.lt
          have := hok.le
          rw [Nat.zero_add]
          exact hB _ (by omega))
      simp only [Option.map_some, h1, h2, Nat.zero_add, List.map_id']

theorem v1Result_after (hp : p ≠ []) (hz : ∀ c ∈ z, eq (p.getLastD 'a') c = false) (hB : ∀ i < s.length, B' i = B i) :
    v1Result B' eq p (s ++ z) = v1Result B eq p s := by
  unfold v1Result
  cases hg : v1Align eq s p with
  | some g =>
    obtain ⟨_, _, _, _, _, ha, _⟩ := v1Align_some hp hg
    rw [v1Align_append hp z hg]
    simp only [Option.map_some]
    rw [alignScore_congr fun i hi => hB i (ha.lt_length i hi)]
  | none =>
    have hn : greedyFrom eq s p 0 = none := by
      cases h : greedyFrom eq s p 0 with
      | none => rfl
      | some g =>
        obtain ⟨a, g', l, b, h1, h2, h3, h4, _⟩ := v1Align_of_greedy hp h
        simp only [v1Align, h, h1, h2, h3, h4, Option.bind_some] at hg
        cases hg
    simp only [v1Align, greedyFrom_append_iff hp hz, hn, Option.bind_none, Option.map_none]

/-! ### Text before the first match of the first character -/

variable {a : List Char}

theorem findFrom_shift (f : Char → Bool) (off : Nat) :
    findFrom f (a ++ s) (a.length + off) = (findFrom f s off).map (a.length + ·) := by
  unfold findFrom
  rw [List.drop_append, List.drop_eq_nil_of_le (by omega : a.length ≤ a.length + off), List.nil_append,
    Nat.add_sub_cancel_left, Option.map_map]
  congr 1
  funext i
  simp only [Function.comp]
  omega

theorem greedyFrom_shift (p : List Char) (off : Nat) :
    greedyFrom eq (a ++ s) p (a.length + off) = (greedyFrom eq s p off).map (·.map (a.length + ·)) := by
  induction p generalizing off with
  | nil => rfl
  | cons c p ih =>
    simp only [greedyFrom, findFrom_shift]
    cases findFrom (fun x => eq c x) s off with
    | none => rfl
    | some j =>
      simp only [Option.map_some]
      rw [Nat.add_assoc, ih, Option.map_map, Option.map_map]
      rfl

theorem findFrom_skip {f : Char → Bool} (h : ∀ c ∈ a, f c = false) : findFrom f (a ++ s) 0 = findFrom f (a ++ s) a.length := by
  have := findFrom_shift (a := a) (s := s) f 0
  rw [Nat.add_zero] at this
  rw [this]
  unfold findFrom
  rw [List.drop_zero, List.findIdx?_append, findIdx?_all_false h]
  simp only [Option.none_or, Option.map_map, List.drop_zero]
  congr 1
  funext i
  simp only [Function.comp]
  omega

theorem greedyFrom_before (hp : p ≠ []) (h : ∀ c ∈ a, eq (p.headD 'a') c = false) :
    greedyFrom eq (a ++ s) p 0 = (greedyFrom eq s p 0).map (·.map (a.length + ·)) := by
  rw [← greedyFrom_shift, Nat.add_zero]
  cases p with
  | nil => exact absurd rfl hp
  | cons c p =>
    have := findFrom_skip (s := s) (f := fun x => eq c x) h
    simp only [greedyFrom, this]

theorem greedyBack_shift {p : List Char} {e : Nat} {b : List Nat} (h : greedyBack eq s p e = some b) :
    greedyBack eq (a ++ s) p (a.length + e) = some (b.map (a.length + ·)) := by
  induction p generalizing e b with
  | nil => simp only [greedyBack, Option.some.injEq] at h; subst h; rfl
  | cons c p ih =>
    simp only [greedyBack] at h ⊢
    rw [List.take_append, List.take_of_length_le (by omega : a.length ≤ a.length + e), Nat.add_sub_cancel_left]
    cases hj : findLastIdx? (fun x => eq c x) (s.take e) with
    | none => rw [hj] at h; cases h
    | some j =>
      rw [hj] at h
      rw [findLastIdx?_append_right hj]
      simp only [Option.map_eq_some_iff] at h
      obtain ⟨b', hb, rfl⟩ := h
      simp only [ih hb, Option.map_some, List.map_cons]

theorem alignment_pos {g : List Nat} (hp : p ≠ []) (h0 : ∀ c, s.head? = some c → eq (p.headD 'a') c = false)
    (h : Alignment (rel eq) p s g) : ∀ i ∈ g, 0 < i := by
  obtain ⟨hi, hs⟩ := h
  cases hs with
  | nil => exact absurd rfl hp
  | @cons c j p g hj _ =>
    obtain ⟨x, hx, hr⟩ := hj
    have hjpos : 0 < j := by
      rcases Nat.eq_zero_or_pos j with h | h
      · subst h
        have := h0 x (by rw [List.head?_eq_getElem?, hx])
        simp only [List.headD_cons] at this
        unfold rel at hr
        rw [this] at hr
        cases hr
      · exact h
    intro i hi'
    rcases List.mem_cons.mp hi' with rfl | h
    · exact hjpos
    · exact Nat.lt_trans hjpos ((List.pairwise_cons.mp hi).1 i h)

theorem runScore_shift (k : Nat) (g : List Nat) (hB : ∀ i ∈ g, B' (k + i) = B i) : ∀ prev run,
    runScore B' (k + prev) run (g.map (k + ·)) = runScore B prev run g := by
  induction g with
  | nil => intros; rfl
  | cons i g ih =>
    intro prev run
    have ih := ih fun j hj => hB j (by simp [hj])
    simp only [List.map_cons, runScore, hB i (by simp), ih]
    have h1 : (k + i = k + prev + 1) ↔ (i = prev + 1) := by omega
    have h2 : k + i - (k + prev) - 2 = i - prev - 2 := by omega
    simp only [h1, h2]

theorem alignScore_shift (k : Nat) {g : List Nat} (hB : ∀ i ∈ g, B' (k + i) = B i) :
    alignScore B' (g.map (k + ·)) = alignScore B g := by
  cases g with
  | nil => rfl
  | cons i g =>
    simp only [List.map_cons, alignScore, hB i (by simp), runScore_shift k g fun j hj => hB j (by simp [hj])]

theorem from_start {k : Nat} (hB : ∀ i < s.length, 0 < i → B' (k + i) = B i) {i : Nat} (hi : i < s.length)
    (h : 0 < i ∨ B' k = B 0) : B' (k + i) = B i := by
  rcases Nat.eq_zero_or_pos i with h0 | h0
  · subst h0
    rcases h with h | h
    · omega
    · exact h
  · exact hB i hi h0

theorem v1Result_before (hp : p ≠ []) (ha : ∀ c ∈ a, eq (p.headD 'a') c = false)
    (h0 : (∀ c, s.head? = some c → eq (p.headD 'a') c = false) ∨ B' a.length = B 0)
    (hB : ∀ i < s.length, 0 < i → B' (a.length + i) = B i) :
    v1Result B' eq p (a ++ s) = (v1Result B eq p s).map (fun x => (x.1.map (a.length + ·), x.2)) := by
  have hal : v1Align eq (a ++ s) p = (v1Align eq s p).map (·.map (a.length + ·)) := by
    cases hg : greedyFrom eq s p 0 with
    | none => simp only [v1Align, greedyFrom_before hp ha, hg, Option.map_none, Option.bind_none]
    | some g =>
      obtain ⟨f, g', l, b, h1, h2, h3, h4, _⟩ := v1Align_of_greedy hp hg
      simp only [v1Align, greedyFrom_before hp ha, hg, Option.map_some, Option.bind_some, List.getLast?_map, h1, Nat.add_assoc,
        greedyBack_shift h2, h2, h3, greedyFrom_shift]
  unfold v1Result
  rw [hal]
  cases hg : v1Align eq s p with
  | none => rfl
  | some g =>
    obtain ⟨_, _, _, _, _, hA, _⟩ := v1Align_some hp hg
    simp only [Option.map_some]
    rw [alignScore_shift a.length fun i hi =>
      from_start hB (hA.lt_length i hi) (h0.imp_left fun h0 => alignment_pos hp h0 hA i hi)]

theorem bestPos_shift (k : Nat) {offs : List Nat} (hB : ∀ i ∈ offs, B' (k + i) = B i) (acc acc' : Int × Nat)
    (h : acc'.1 = acc.1 ∧ (acc.1 ≠ 0 → acc'.2 = k + acc.2)) (hn : 0 ≤ acc.1) :
    (bestPos B' (offs.map (k + ·)) acc').1 = (bestPos B offs acc).1 ∧
      ((bestPos B offs acc).1 ≠ 0 → (bestPos B' (offs.map (k + ·)) acc').2 = k + (bestPos B offs acc).2) := by
  unfold bestPos
  induction offs generalizing acc acc' with
  | nil => exact h
  | cons i offs ih =>
    simp only [List.map_cons, List.foldl_cons, hB i (by simp)]
    refine ih (fun j hj => hB j (by simp [hj])) _ _ ?_ ?_
    · rw [h.1]
      split
      · exact ⟨rfl, fun _ => rfl⟩
      · exact h
    · split
      · simp only; omega
      · exact hn

theorem v2Result_before (hp : p ≠ []) (ha : ∀ c ∈ a, eq (p.headD 'a') c = false)
    (h0 : (∀ c, s.head? = some c → eq (p.headD 'a') c = false) ∨ B' a.length = B 0)
    (hB : ∀ i < s.length, 0 < i → B' (a.length + i) = B i) :
    v2Result B' eq p (a ++ s) = (v2Result B eq p s).map (fun x => (x.1.map (a.length + ·), x.2)) := by
  unfold v2Result
  split
  · rename_i h1
    obtain ⟨q, rfl⟩ := List.length_eq_one_iff.mp h1
    have hi : idxsFrom (fun x => eq q x) (a ++ s) 0 = (idxsFrom (fun x => eq q x) s 0).map (a.length + ·) := by
      unfold idxsFrom
      rw [List.drop_zero, List.drop_zero, allIdxFrom_append, allIdxFrom_false (p := fun x => eq q x) ha, List.nil_append,
        allIdxFrom_shift, Nat.add_comm]
    have hb : ∀ i ∈ idxsFrom (fun x => eq q x) s 0, B' (a.length + i) = B i := by
      intro i hi
      refine from_start hB (idxs_lt hi) (h0.imp_left fun h0 => ?_)
      obtain ⟨_, x, hx, hq⟩ := mem_idxsFrom.mp hi
      rcases Nat.eq_zero_or_pos i with h | h
      · subst h
        have := h0 x (by rw [List.head?_eq_getElem?, hx])
        simp only [List.headD_cons] at this
        rw [this] at hq
        cases hq
      · exact h
    show singleResult B' eq q (a ++ s) = (singleResult B eq q s).map _
    unfold singleResult
    rw [hi]
    obtain ⟨h1, h2⟩ := bestPos_shift a.length hb (0, 0) (0, 0) ⟨rfl, fun h => absurd rfl h⟩ (Int.le_refl _)
    simp only [h1]
    split
    · rfl
    · rename_i hne
      simp only [Option.map_some, List.map_cons, List.map_nil, h2 hne]
  · rw [greedyFrom_before hp ha]
    cases hg : greedyFrom eq s p 0 with
    | none => rfl
    | some g =>
      obtain ⟨hok, j, hj, hj'⟩ := windowOk hp hg
      have hA := (greedyFrom_align hg).1
      have hlen := hA.length_eq
      have hne : g ≠ [] := by
        rintro rfl
        rw [List.length_nil] at hlen
        exact hp (List.length_eq_zero_iff.mp (by omega))
      have hhead : (g.map (a.length + ·)).headD 0 = a.length + g.headD 0 := by
        cases g with
        | nil => exact absurd rfl hne
        | cons x g => rfl
      have hw1 : (v2Window eq p (a ++ s) (g.map (a.length + ·))).1 = a.length + (v2Window eq p s g).1 := hhead
      have hw2 : (v2Window eq p (a ++ s) (g.map (a.length + ·))).2 = a.length + (v2Window eq p s g).2 := by
        rw [hj']
        unfold v2Window
        rw [findLastIdx?_append_right hj]
        rfl
      have hc : v2Chars eq p (a ++ s) (g.map (a.length + ·)) = v2Chars eq p s g := by
        unfold v2Chars
        rw [hw1, hw2, List.take_append, List.take_of_length_le (by omega : a.length ≤ a.length + _), Nat.add_sub_cancel_left,
          List.drop_append, List.drop_eq_nil_of_le (by omega : a.length ≤ a.length + _), List.nil_append, Nat.add_sub_cancel_left]
      have hf : v2Fst eq p (a ++ s) (g.map (a.length + ·)) = v2Fst eq p s g := by
        funext r
        unfold v2Fst
        rw [hw1, List.getD_eq_getElem?_getD, List.getD_eq_getElem?_getD, List.getElem?_map]
        cases g[r]? with
        | none => simp only [Option.map_none, Option.getD_none]; omega
        | some x => simp only [Option.map_some, Option.getD_some]; omega
      obtain ⟨h1, h2⟩ := v2_of_window (B := B) (B' := B') (k := a.length) (v2Chars_pos hp hg) hc hf hw1 (by
          intro i hi
          have := hok.len
          have := hok.lt
          have := hok.le
          rw [Nat.add_assoc]
          refine from_start hB (by omega) (h0.imp_left fun h0 => ?_)
          have : 0 < (v2Window eq p s g).1 := by
            refine alignment_pos hp h0 hA _ ?_
            cases g with
            | nil => exact absurd rfl hne
            | cons x g => exact List.mem_cons_self
          omega)
      simp only [Option.map_some, h1, h2]

end

/-! ### The results of queries -/

section
variable {U : Unicode} {a : Algo} {st : Settings} {q : FzfQuery} {p : Pattern} {s z w : List Char}

/-- What a query finds in a candidate that `z`, without matches of the query's last character, is appended to. -/
theorem result_after (hf : FuzzyFor q p) (hq : QueryOk U q) (hp : p.text ≠ [])
    (hz : ∀ c ∈ z, ∀ l, p.text.getLast? = some l → ¬ Cmp U st p.text l c) :
    result U a st (s ++ z) q = result U a st s q := by
  have hz' : ∀ c ∈ z, st.eqOf p (p.text.getLastD 'a') c = false := by
    intro c hc
    have hl : p.text.getLast? = some (p.text.getLastD 'a') := by
      rw [List.getLastD_eq_getLast?, List.getLast?_eq_some_getLast hp]
      rfl
    have := hz c hc _ hl
    rw [← fuzzyFor_rel hf hq] at this
    simpa [rel] using this
  have key : pureOf a (posBonus U st.scheme (s ++ z)) (st.eqOf p) p.text (s ++ z) =
      pureOf a (posBonus U st.scheme s) (st.eqOf p) p.text s := by
    cases a with
    | v1 => exact v1Result_after hp hz' fun i hi => posBonus_append U st.scheme s z hi
    | v2 => exact v2Result_after hp hz' fun i hi => posBonus_append U st.scheme s z hi
  rw [result_fuzzy hf hp, result_fuzzy hf hp, key]
  cases hx : pureOf a (posBonus U st.scheme s) (st.eqOf p) p.text s with
  | none => rfl
  | some x =>
    simp only [Prod.mk.injEq, and_true]
    exact List.map_congr_left fun i hi => charRange_append s z (pos_lt a hp hx i hi)

/-- The range `r`, `n` bytes further. -/
def further (n : Nat) (r : Range) : Range := ⟨n + r.start, n + r.stop⟩

theorem charRange_before (w s : List Char) (i : Nat) : charRange (w ++ s) (w.length + i) = further (byteLen w) (charRange s i) := by
  unfold charRange byteRange further
  have : ∀ i, byteLen ((w ++ s).take (w.length + i)) = byteLen w + byteLen (s.take i) := by
    intro i
    rw [List.take_append, List.take_of_length_le (by omega : w.length ≤ w.length + i), Nat.add_sub_cancel_left, byteLen_append]
  rw [Nat.add_assoc, this, this]

theorem posBonus_before (U : Unicode) (S : FzfScheme) (w s : List Char) {i : Nat} (hi : i < s.length) (h0 : 0 < i) :
    posBonus U S (w ++ s) (w.length + i) = posBonus U S s i := by
  unfold posBonus classBefore
  have h1 : (w ++ s)[w.length + i]? = s[i]? := by
    rw [List.getElem?_append_right (by omega), Nat.add_sub_cancel_left]
  have h2 : ((w ++ s).take (w.length + i)).getLast? = (s.take i).getLast? := by
    have hne : s.take i ≠ [] := by
      intro h
      have := congrArg List.length h
      rw [List.length_take, List.length_nil] at this
      omega
    rw [List.take_append, List.take_of_length_le (by omega : w.length ≤ w.length + i), Nat.add_sub_cancel_left,
      List.getLast?_append, List.getLast?_eq_some_getLast hne]
    rfl
  rw [h1, h2]

theorem sep_further {l : List Range} (n : Nat) (h : Sep l) : Sep (l.map (further n)) := by
  refine ⟨?_, ?_⟩
  · intro r hr
    obtain ⟨x, hx, rfl⟩ := List.mem_map.mp hr
    have := h.1 x hx
    simp only [further]
    omega
  · rw [List.pairwise_map]
    exact h.2.imp fun {x y} hxy => by simp only [further]; omega

theorem covered_further (n : Nat) (l : List Range) (b : Nat) : Covered (l.map (further n)) b ↔ n ≤ b ∧ Covered l (b - n) := by
  unfold Covered
  constructor
  · rintro ⟨r, hr, h1, h2⟩
    obtain ⟨x, hx, rfl⟩ := List.mem_map.mp hr
    simp only [further] at h1 h2
    exact ⟨by omega, x, hx, by omega, by omega⟩
  · rintro ⟨hn, x, hx, h1, h2⟩
    exact ⟨further n x, List.mem_map.mpr ⟨x, hx, rfl⟩, by simp only [further]; omega, by simp only [further]; omega⟩

/-- What a query finds in a candidate that `w` is put before, when neither `w` nor the candidate's first character matches the
query's first character. -/
theorem result_before (hf : FuzzyFor q p) (hq : QueryOk U q) (hp : p.text ≠ [])
    (hw : ∀ c ∈ w ++ s.take 1, ∀ f, p.text.head? = some f → ¬ Cmp U st p.text f c) :
    (result U a st (w ++ s) q).2 = (result U a st s q).2 ∧
      insertAll [] (result U a st (w ++ s) q).1 = (insertAll [] (result U a st s q).1).map (further (byteLen w)) := by
  have hw' : ∀ c ∈ w ++ s.take 1, st.eqOf p (p.text.headD 'a') c = false := by
    intro c hc
    have hl : p.text.head? = some (p.text.headD 'a') := by
      obtain ⟨x, xs, hx⟩ := List.exists_cons_of_ne_nil hp
      rw [hx]
      rfl
    have := hw c hc _ hl
    rw [← fuzzyFor_rel hf hq] at this
    simpa [rel] using this
  have h0 : ∀ c, s.head? = some c → st.eqOf p (p.text.headD 'a') c = false := by
    intro c hc
    refine hw' c (List.mem_append_right _ ?_)
    obtain ⟨t, rfl⟩ := List.head?_eq_some_iff.mp hc
    simp
  have hw'' := fun c hc => hw' c (List.mem_append_left _ hc)
  have key : pureOf a (posBonus U st.scheme (w ++ s)) (st.eqOf p) p.text (w ++ s) =
      (pureOf a (posBonus U st.scheme s) (st.eqOf p) p.text s).map (fun x => (x.1.map (w.length + ·), x.2)) := by
    cases a with
    | v1 => exact v1Result_before hp hw'' (.inl h0) fun i hi hi0 => posBonus_before U st.scheme w s hi hi0
    | v2 => exact v2Result_before hp hw'' (.inl h0) fun i hi hi0 => posBonus_before U st.scheme w s hi hi0
  have hs1 : Sep (insertAll [] (result U a st s q).1) :=
    sep_insertAll sep_nil (fun r hr => (result_slice (a := a) (st := st) (s := s) hq r hr).lt)
  have hs2 : Sep (insertAll [] (result U a st (w ++ s) q).1) :=
    sep_insertAll sep_nil (fun r hr => (result_slice (a := a) (st := st) (s := w ++ s) hq r hr).lt)
  have hcov : ∀ b, Covered (insertAll [] (result U a st (w ++ s) q).1) b ↔
      Covered ((insertAll [] (result U a st s q).1).map (further (byteLen w))) b := by
    intro b
    rw [covered_further]
    rw [result_fuzzy hf hp, result_fuzzy hf hp, key]
    cases hx : pureOf a (posBonus U st.scheme s) (st.eqOf p) p.text s with
    | none => simp [insertAll]
    | some x =>
      have hlt := pos_lt a hp hx
      simp only [Option.map_some]
      rw [insertAll_chars sep_nil (by simp) (by
          intro i hi
          obtain ⟨j, hj, rfl⟩ := List.mem_map.mp hi
          have := hlt j hj
          rw [List.length_append]
          omega), insertAll_chars sep_nil (by simp) hlt]
      simp only [Covered, List.not_mem_nil, false_and, exists_false, false_or, List.mem_map, exists_exists_and_eq_and,
        charRange_before, further]
      constructor
      · rintro ⟨i, hi, h1, h2⟩
        exact ⟨by omega, i, hi, by omega, by omega⟩
      · rintro ⟨hn, i, hi, h1, h2⟩
        exact ⟨i, hi, by omega, by omega⟩
  refine ⟨?_, sep_ext hs2 (sep_further _ hs1) hcov⟩
  rw [result_fuzzy hf hp, result_fuzzy hf hp, key]
  cases pureOf a (posBonus U st.scheme s) (st.eqOf p) p.text s with
  | none => rfl
  | some x => rfl

end

end Norm
