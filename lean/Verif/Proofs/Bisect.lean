import Verif.SpecBisect
import Verif.Proofs.UsizeBase

/-!
# The binary search: helper lemmas
-/

namespace Norm

open Spec

/-- Strictly increasing starts. -/
abbrev StartsUp (l : List Range) : Prop := l.Pairwise (fun a b => a.start < b.start)

theorem StartsUp.lt {l : List Range} (h : StartsUp l) {i j : Nat} {a b : Range} (ha : l[i]? = some a) (hb : l[j]? = some b) (hij : i < j) :
    a.start < b.start := by
  obtain ⟨hi, rfl⟩ := List.getElem?_eq_some_iff.mp ha
  obtain ⟨hj, rfl⟩ := List.getElem?_eq_some_iff.mp hb
  exact List.pairwise_iff_getElem.mp h i j hi hj hij

/-- On a slice with strictly increasing starts there is one answer. -/
theorem answers_unique {l : List Range} (h : StartsUp l) {start : Nat} {x y : Search} (hx : Answers l start x) (hy : Answers l start y) :
    x = y := by
  cases x with
  | found i =>
    obtain ⟨a, ha, hsa⟩ := hx
    cases y with
    | found j =>
      obtain ⟨b, hb, hsb⟩ := hy
      rcases Nat.lt_trichotomy i j with hij | rfl | hij
      · have := h.lt ha hb hij; omega
      · rfl
      · have := h.lt hb ha hij; omega
    | notFound j => exact absurd hsa (hy.2.1 a (List.mem_of_getElem? ha))
  | notFound i =>
    cases y with
    | found j =>
      obtain ⟨b, hb, hsb⟩ := hy
      exact absurd hsb (hx.2.1 b (List.mem_of_getElem? hb))
    | notFound j =>
      obtain ⟨hi, hn, hi1, hi2⟩ := hx
      obtain ⟨hj, -, hj1, hj2⟩ := hy
      have key : ∀ {i j : Nat}, i < j → j ≤ l.length → (∀ r ∈ l.drop i, start ≤ r.start) → (∀ r ∈ l.take j, r.start ≤ start) → False := by
        intro i j hij hj h1 h2
        have hm : l[i]'(by omega) ∈ l := List.getElem_mem _
        have h3 := h1 _ (List.mem_drop_iff_getElem.mpr ⟨0, by omega, by simp; rfl⟩)
        have h4 := h2 _ (List.mem_take_iff_getElem.mpr ⟨i, by omega, rfl⟩)
        exact hn _ hm (by omega)
      rcases Nat.lt_trichotomy i j with hij | rfl | hij
      · exact (key hij hj hi2 hj1).elim
      · rfl
      · exact (key hij hi hj2 hi1).elim

/-- An element with the start that is searched, or the place between the smaller and the larger starts. -/
theorem answers_model {l : List Range} {start : Nat} {x : Search} (h : binarySearchStart l start = .ok x) :
    StartsUp l ∧ Answers l start x := by
  unfold binarySearchStart at h
  split at h
  · rename_i hs
    refine ⟨hs, ?_⟩
    split at h
    · rename_i i hi
      cases h
      obtain ⟨hlt, hp, -⟩ := List.findIdx?_eq_some_iff_getElem.mp hi
      exact ⟨l[i], List.getElem?_eq_getElem hlt, by simpa using hp⟩
    · rename_i hi
      cases h
      have hne : ∀ r ∈ l, r.start ≠ start := by
        have := List.findIdx?_eq_none_iff.mp hi
        intro r hr e
        have := this r hr
        simp [e] at this
      clear hi
      refine ⟨(List.takeWhile_sublist _).length_le, hne, ?_, ?_⟩
      · intro r hr
        rw [← (List.prefix_iff_eq_take.mp (List.takeWhile_prefix _))] at hr
        have : r.start < start := by simpa using List.all_eq_true.mp (List.all_takeWhile (l := l)) r hr
        omega
      · induction l with
        | nil => intro r hr; simp at hr
        | cons a l ih =>
          obtain ⟨h1, h2⟩ := List.pairwise_cons.mp hs
          by_cases ha : a.start < start
          · rw [List.takeWhile_cons_of_pos (by simpa using ha), List.length_cons, List.drop_succ_cons]
            exact ih h2 fun r hr => hne r (List.mem_cons_of_mem _ hr)
          · rw [List.takeWhile_cons_of_neg (by simpa using ha)]
            intro r hr
            rcases List.mem_cons.mp hr with rfl | hr
            · omega
            · have := h1 r hr; omega
  · cases h

/-- Whoever inserts a range without a panic has searched a slice with strictly increasing starts. -/
theorem insert_sorted {m m' : MatchedRanges} {r : Range} (h : m.insert r = .ok m') : StartsUp (m.ranges.drop m.initialLen) := by
  unfold MatchedRanges.insert at h
  obtain ⟨this, h1, h2⟩ := Res.bind_eq_ok.mp h
  obtain ⟨x, h3, -⟩ := Res.bind_eq_ok.mp h2
  obtain ⟨-, rfl⟩ := Usize.of_sliceFromR h1
  exact (answers_model h3).1

theorem halve_spec {l : List Range} (h : StartsUp l) {start : Nat} (size base : Nat) (h0 : 0 < size) (hb : base + size ≤ l.length)
    (h1 : base = 0 ∨ ∀ r, l[base]? = some r → r.start ≤ start) (h2 : ∀ (i : Nat) r, l[i]? = some r → base + size ≤ i → start < r.start) :
    ∃ b n, halve l start size base = .ok (b, n) ∧ (∀ k, size ≤ 2 ^ k → n ≤ k) ∧ b < l.length ∧
      (b = 0 ∨ ∀ r, l[b]? = some r → r.start ≤ start) ∧ ∀ (i : Nat) r, l[i]? = some r → b + 1 ≤ i → start < r.start := by
  induction size using Nat.strongRecOn generalizing base with
  | _ size ih =>
    rw [halve]
    by_cases hs : 1 < size
    · rw [if_pos hs]
      have hlt : base + size / 2 < l.length := by omega
      have hg : getR l (base + size / 2) = .ok l[base + size / 2] := getR_of_lt hlt
      simp only [hg, Res.bind_ok]
      have hx : l[base + size / 2]? = some l[base + size / 2] := List.getElem?_eq_getElem hlt
      have hpow : ∀ k, size ≤ 2 ^ k → ∃ j, k = j + 1 ∧ size - size / 2 ≤ 2 ^ j := by
        intro k hk
        cases k with
        | zero => rw [Nat.pow_zero] at hk; omega
        | succ j => rw [Nat.pow_succ] at hk; exact ⟨j, rfl, by omega⟩
      split
      · rename_i hlt2
        obtain ⟨b, n, e, hn, r⟩ := ih (size - size / 2) (by omega) base (by omega) (by omega) h1 (fun i r hi hle => by
          rcases Nat.lt_or_ge i (base + size / 2) with h' | h'
          · omega
          · rcases Nat.eq_or_lt_of_le h' with rfl | h'
            · rw [hx] at hi; cases hi; exact hlt2
            · have := h.lt hx hi h'; omega)
        refine ⟨b, n + 1, by rw [e]; rfl, fun k hk => ?_, r⟩
        obtain ⟨j, rfl, hj⟩ := hpow k hk
        have := hn j hj
        omega
      · rename_i hge
        obtain ⟨b, n, e, hn, r⟩ := ih (size - size / 2) (by omega) (base + size / 2) (by omega) (by omega)
          (.inr fun r hr => by rw [hx] at hr; cases hr; omega) (fun i r hi hle => h2 i r hi (by omega))
        refine ⟨b, n + 1, by rw [e]; rfl, fun k hk => ?_, r⟩
        obtain ⟨j, rfl, hj⟩ := hpow k hk
        have := hn j hj
        omega
    · rw [if_neg hs]
      have : size = 1 := by omega
      subst this
      exact ⟨base, 0, rfl, fun _ _ => Nat.zero_le _, by omega, h1, h2⟩

theorem stdSearch_spec {l : List Range} (h : StartsUp l) (start : Nat) :
    ∃ x n, stdSearch l start = .ok (x, n) ∧ Answers l start x ∧ ∀ k, l.length ≤ 2 ^ k → n ≤ k + 1 := by
  unfold stdSearch
  by_cases hl : l.length = 0
  · rw [if_pos hl]
    have : l = [] := List.eq_nil_of_length_eq_zero hl
    subst this
    exact ⟨.notFound 0, 0, rfl, ⟨Nat.le_refl _, by simp, by simp, by simp⟩, fun _ _ => Nat.zero_le _⟩
  · rw [if_neg hl]
    obtain ⟨b, n, e, hn, hb, h1, h2⟩ := halve_spec h l.length 0 (by omega) (by omega) (.inl rfl) (start := start) (fun i r hi hle => by
      obtain ⟨hi, -⟩ := List.getElem?_eq_some_iff.mp hi
      omega)
    have hg : getR l b = .ok l[b] := getR_of_lt hb
    have hx : l[b]? = some l[b] := List.getElem?_eq_getElem hb
    simp only [e, Res.bind_ok, hg]
    by_cases heq : l[b].start = start
    · rw [if_pos heq]
      exact ⟨_, _, rfl, ⟨_, hx, heq⟩, fun k hk => Nat.add_le_add_right (hn k hk) 1⟩
    · rw [if_neg heq]
      refine ⟨_, _, rfl, ⟨by split <;> omega, ?_, ?_, ?_⟩, fun k hk => Nat.add_le_add_right (hn k hk) 1⟩
      · intro r hr e'
        obtain ⟨i, hi, rfl⟩ := List.getElem_of_mem hr
        have hi' : l[i]? = some l[i] := List.getElem?_eq_getElem hi
        rcases Nat.lt_trichotomy i b with hib | rfl | hib
        · have h3 := h.lt hi' hx hib
          rcases h1 with rfl | h1
          · omega
          · have := h1 _ hx; omega
        · exact heq e'
        · have := h2 i _ hi' hib; omega
      · intro r hr
        obtain ⟨i, hi, rfl⟩ := List.mem_take_iff_getElem.mp hr
        have hi' : l[i]? = some l[i] := List.getElem?_eq_getElem (by omega)
        split at hi
        · rename_i hlt
          rcases Nat.lt_or_ge i b with hib | hib
          · have := h.lt hi' hx hib; omega
          · have : i = b := by omega
            subst this; omega
        · rcases h1 with rfl | h1
          · omega
          · have := h1 _ hx; omega
      · intro r hr
        obtain ⟨i, hi, rfl⟩ := List.mem_drop_iff_getElem.mp hr
        split
        · rename_i hlt
          exact Nat.le_of_lt (h2 _ _ (List.getElem?_eq_getElem _) (by omega))
        · rename_i hge
          cases i with
          | zero => simp only [Nat.add_zero]; omega
          | succ i => exact Nat.le_of_lt (h2 _ _ (List.getElem?_eq_getElem _) (by omega))

end Norm
