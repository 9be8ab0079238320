import Verif.Model.Normalize
import Verif.Spec
import Verif.Proofs.Utf8

/-! Correctness of the linearized normalization tables (C38). -/

namespace Norm
open Spec

/-- Association-list lookup, defaulting to the code point itself. -/
def lookupD (batch : List (Nat × Char)) (n : Nat) : Char :=
  match batch.find? (fun e => e.1 == n) with
  | some e => e.2
  | none => Char.ofNat n

theorem linearizeGo_correct (batch : List (Nat × Char)) (hs : batch.Pairwise (fun a b => a.1 < b.1))
    (hv : ∀ e ∈ batch, e.1 < 0xd800) (first : Nat) : ∀ (rem ai bi : Nat),
    (∀ e ∈ batch.take bi, e.1 < first + ai) → (∀ e ∈ batch.drop bi, first + ai ≤ e.1) →
    (0 < rem → ∃ e ∈ batch, e.1 = first + ai + rem - 1) →
    linearizeGo batch first rem ai bi =
      .ok ((List.range' (first + ai) rem).map (lookupD batch)) := by
  intro rem
  induction rem with
  | zero => intros; simp [linearizeGo]
  | succ rem ih =>
    intro ai bi hlt hge hlast
    obtain ⟨e, he, he1⟩ := hlast (by omega)
    have hbi : bi < batch.length := by
      by_contra hcon
      rw [List.take_of_length_le (by omega)] at hlt
      have := hlt e he; omega
    have hd : batch.drop bi = batch[bi] :: batch.drop (bi + 1) := List.drop_eq_getElem_cons hbi
    have ht : batch.take (bi + 1) = batch.take bi ++ [batch[bi]] := List.take_succ_eq_append_getElem hbi
    have hge0 : first + ai ≤ batch[bi].1 := hge _ (hd ▸ List.mem_cons_self)
    have hsd : ∀ x ∈ batch.drop (bi + 1), batch[bi].1 < x.1 := by
      have h1 : (batch.drop bi).Pairwise (fun a b => a.1 < b.1) := hs.sublist (List.drop_sublist _ _)
      rw [hd] at h1
      exact (List.pairwise_cons.mp h1).1
    have hfind : batch.find? (fun e => e.1 == first + ai) =
        if batch[bi].1 = first + ai then some batch[bi] else none := by
      conv_lhs => rw [← List.take_append_drop bi batch, hd]
      rw [List.find?_append]
      have h1 : (batch.take bi).find? (fun e => e.1 == first + ai) = none := by
        rw [List.find?_eq_none]; intro x hx; have := hlt x hx; simp; omega
      rw [h1]
      simp only [Option.none_or, List.find?_cons]
      by_cases hc : batch[bi].1 = first + ai
      · simp [hc]
      · have h2 : (batch.drop (bi + 1)).find? (fun e => e.1 == first + ai) = none := by
          rw [List.find?_eq_none]; intro x hx; have := hsd x hx; simp; omega
        simp [beq_eq_false_iff_ne.mpr hc, hc, h2]
    have hl : lookupD batch (first + ai) =
        if batch[bi].1 = first + ai then batch[bi].2 else Char.ofNat (first + ai) := by
      unfold lookupD; rw [hfind]
      by_cases hc : batch[bi].1 = first + ai <;> simp [hc]
    rw [List.range'_succ]
    have hval : (first + ai).isValidChar := Or.inl (by have := hv e he; omega)
    simp only [linearizeGo, Res.assert, hval, decide_true, if_true, getR_of_lt hbi, Res.bind_ok, List.map_cons, hl]
    by_cases hc : batch[bi].1 = first + ai
    · simp only [hc, beq_self_eq_true, if_true]
      rw [ih (ai + 1) (bi + 1)]
      · simp [Nat.add_assoc]
      · intro x hx
        rw [ht] at hx
        rcases List.mem_append.mp hx with h | h
        · have := hlt x h; omega
        · simp at h; subst h; omega
      · intro x hx; have := hsd x hx; omega
      · intro _; exact ⟨e, he, by omega⟩
    · simp only [hc, if_false, beq_iff_eq]
      rw [ih (ai + 1) bi]
      · simp [Nat.add_assoc]
      · intro x hx; have := hlt x hx; omega
      · intro x hx
        rw [hd] at hx
        rcases List.mem_cons.mp hx with h | h
        · subst h; omega
        · have := hsd x h; omega
      · intro hr; exact ⟨e, he, by omega⟩

theorem linearizedLookup_correct {batch : List (Nat × Char)} {a b n : Nat}
    (hs : batch.Pairwise (fun a b => a.1 < b.1)) (hv : ∀ e ∈ batch, e.1 < 0xd800) (ha : batchStart batch = a) (hb : batchEnd batch = b)
    (hne : batch ≠ []) (han : a ≤ n) (hnb : n ≤ b) :
    linearizedLookup batch n = .ok (lookupD batch n) := by
  have hstart : ∀ e ∈ batch, a ≤ e.1 := by
    cases batch with
    | nil => simp
    | cons x l =>
      simp [batchStart] at ha; subst ha
      intro e he
      rcases List.mem_cons.mp he with h | h
      · subst h; exact Nat.le_refl _
      · exact Nat.le_of_lt ((List.pairwise_cons.mp hs).1 e h)
  have hend : ∃ e ∈ batch, e.1 = b := by
    refine ⟨batch.getLast hne, List.getLast_mem hne, ?_⟩
    rw [← hb, batchEnd, List.getLast?_eq_getLast_of_ne_nil hne]; rfl
  have hlin : linearizeBatch batch = .ok ((List.range' a (b - a + 1)).map (lookupD batch)) := by
    unfold linearizeBatch
    rw [ha, hb, linearizeGo_correct batch hs hv a (b - a + 1) 0 0]
    · simp
    · simp
    · simpa using hstart
    · intro _
      obtain ⟨e, he, h⟩ := hend
      exact ⟨e, he, by omega⟩
  simp only [linearizedLookup, hlin, Res.bind_ok, ha, subR_of_le han]
  rw [getR_eq_ok, List.getElem?_map, List.getElem?_range' (by omega)]
  simp; congr 1; omega

theorem pairwise_of_chain (l : List (Nat × Char)) (h : l.IsChain (fun a b => a.1 < b.1)) :
    l.Pairwise (fun a b => a.1 < b.1) := by
  have : Trans (fun a b : Nat × Char => a.1 < b.1) (fun a b : Nat × Char => a.1 < b.1)
      (fun a b : Nat × Char => a.1 < b.1) := ⟨fun h1 h2 => Nat.lt_trans h1 h2⟩
  exact List.isChain_iff_pairwise.mp h

theorem firstBatch_sorted : firstBatch.Pairwise (fun a b => a.1 < b.1) :=
  pairwise_of_chain _ (by decide +kernel)
theorem secondBatch_sorted : secondBatch.Pairwise (fun a b => a.1 < b.1) :=
  pairwise_of_chain _ (by decide +kernel)
theorem thirdBatch_sorted : thirdBatch.Pairwise (fun a b => a.1 < b.1) :=
  pairwise_of_chain _ (by decide +kernel)
theorem firstStart : batchStart firstBatch = 192 := by decide +kernel
theorem firstEnd : batchEnd firstBatch = 879 := by decide +kernel
theorem secondStart : batchStart secondBatch = 7424 := by decide +kernel
theorem secondEnd : batchEnd secondBatch = 7929 := by decide +kernel
theorem thirdStart : batchStart thirdBatch = 8305 := by decide +kernel
theorem thirdEnd : batchEnd thirdBatch = 8580 := by decide +kernel
theorem firstBounds : ∀ e ∈ firstBatch, 192 ≤ e.1 ∧ e.1 ≤ 879 := by decide +kernel
theorem secondBounds : ∀ e ∈ secondBatch, 7424 ≤ e.1 ∧ e.1 ≤ 7929 := by decide +kernel
theorem thirdBounds : ∀ e ∈ thirdBatch, 8305 ≤ e.1 ∧ e.1 ≤ 8580 := by decide +kernel

/-- All pairs of the source's tables. -/
def normTable : List (Nat × Char) := firstBatch ++ secondBatch ++ thirdBatch

theorem variants_sound : ∀ e ∈ variants, ∀ c ∈ e.2.toList, (c.toNat, e.1) ∈ normTable := by decide +kernel
theorem variants_complete : ∀ x ∈ normTable, ∃ e ∈ variants, e.1 = x.2 ∧ Char.ofNat x.1 ∈ e.2.toList := by decide +kernel

/-- The specified replacements are those of the tables. -/
theorem listed_iff {c t : Char} : Listed c t ↔ (c.toNat, t) ∈ normTable := by
  constructor
  · rintro ⟨e, he, rfl, hc⟩
    exact variants_sound e he c hc
  · intro h
    obtain ⟨e, he, h1, h2⟩ := variants_complete _ h
    exact ⟨e, he, h1, by simpa using h2⟩

/-- Every listed replacement is an ASCII letter. -/
theorem normTable_targets : ∀ e ∈ normTable, isAsciiLower e.2 || isAsciiUpper e.2 := by decide +kernel

/-- The whole table has at most one entry per code point. -/
theorem normTable_sorted : normTable.Pairwise (fun a b => a.1 < b.1) :=
  pairwise_of_chain _ (by decide +kernel)

theorem isNormalized_iff (c : Char) : isNormalized c = true ↔
    ¬ ((192 ≤ c.toNat ∧ c.toNat ≤ 879) ∨ (7424 ≤ c.toNat ∧ c.toNat ≤ 7929) ∨
      (8305 ≤ c.toNat ∧ c.toNat ≤ 8580)) := by
  unfold isNormalized
  rw [firstStart, firstEnd, secondStart, secondEnd, thirdStart, thirdEnd]
  simp [Bool.and_eq_true, Bool.or_eq_true]
  omega

theorem normTable_find (c : Char) : lookupD normTable c.toNat =
    if c.toNat ≤ 879 then lookupD firstBatch c.toNat
    else if c.toNat ≤ 7929 then lookupD secondBatch c.toNat
    else lookupD thirdBatch c.toNat := by
  unfold lookupD normTable
  rw [List.find?_append, List.find?_append]
  have f : ¬ c.toNat ≤ 879 → firstBatch.find? (fun e => e.1 == c.toNat) = none := by
    intro h; rw [List.find?_eq_none]; intro x hx; have := firstBounds x hx; simp; omega
  have s : ¬ (7424 ≤ c.toNat ∧ c.toNat ≤ 7929) → secondBatch.find? (fun e => e.1 == c.toNat) = none := by
    intro h; rw [List.find?_eq_none]; intro x hx; have := secondBounds x hx; simp; omega
  have t : ¬ (8305 ≤ c.toNat) → thirdBatch.find? (fun e => e.1 == c.toNat) = none := by
    intro h; rw [List.find?_eq_none]; intro x hx; have := thirdBounds x hx; simp; omega
  by_cases h1 : c.toNat ≤ 879
  · rw [if_pos h1, s (by omega), t (by omega)]; simp
  · rw [if_neg h1, f (by omega)]
    by_cases h2 : c.toNat ≤ 7929
    · rw [if_pos h2, t (by omega)]; simp
    · rw [if_neg h2, s (by omega)]; simp

theorem lookupD_of_outside {c : Char} (h : isNormalized c = true) : lookupD normTable c.toNat = c := by
  have h := (isNormalized_iff c).mp h
  unfold lookupD
  have : normTable.find? (fun e => e.1 == c.toNat) = none := by
    rw [List.find?_eq_none]
    intro x hx
    unfold normTable at hx
    simp only [List.mem_append] at hx
    rcases hx with (hx | hx) | hx
    · have := firstBounds x hx; simp; omega
    · have := secondBounds x hx; simp; omega
    · have := thirdBounds x hx; simp; omega
  rw [this]; simp

/-- `normalize` never indexes its tables out of bounds and is the association-list lookup. -/
theorem normalizeR_ok (c : Char) : normalizeR c = .ok (lookupD normTable c.toNat) := by
  unfold normalizeR
  cases hn : isNormalized c with
  | true => simp [lookupD_of_outside hn]
  | false =>
    have hn : ¬ isNormalized c = true := by simp [hn]
    rw [isNormalized_iff, not_not] at hn
    simp only [Bool.false_eq_true, if_false, firstEnd, secondEnd]
    rw [normTable_find]
    split
    · exact linearizedLookup_correct firstBatch_sorted (fun e he => by have := firstBounds e he; omega) firstStart firstEnd (by decide +kernel) (by omega) (by omega)
    · split
      · exact linearizedLookup_correct secondBatch_sorted (fun e he => by have := secondBounds e he; omega) secondStart secondEnd (by decide +kernel) (by omega) (by omega)
      · exact linearizedLookup_correct thirdBatch_sorted (fun e he => by have := thirdBounds e he; omega) thirdStart thirdEnd (by decide +kernel) (by omega) (by omega)

theorem normalize_eq (c : Char) : normalize c = lookupD normTable c.toNat := by
  unfold normalize; rw [normalizeR_ok]

theorem lookupD_listed {c t : Char} (h : Listed c t) : lookupD normTable c.toNat = t := by
  unfold lookupD
  have : normTable.find? (fun e => e.1 == c.toNat) = some (c.toNat, t) := by
    rw [List.find?_eq_some_iff_append]
    obtain ⟨as, bs, hab⟩ := List.append_of_mem (listed_iff.mp h)
    refine ⟨by simp, as, bs, hab, ?_⟩
    intro x hx
    have hs := normTable_sorted
    rw [hab, List.pairwise_append] at hs
    have := hs.2.2 x hx (c.toNat, t) (by simp)
    simp at this ⊢; omega
  rw [this]

theorem lookupD_not_listed {c : Char} (h : ∀ t, ¬ Listed c t) : lookupD normTable c.toNat = c := by
  unfold lookupD
  have : normTable.find? (fun e => e.1 == c.toNat) = none := by
    rw [List.find?_eq_none]
    intro x hx he
    apply h x.2
    rw [listed_iff]
    have : c.toNat = x.1 := by simpa using (beq_iff_eq.mp he).symm
    rw [this]; exact hx
  rw [this]; simp

theorem normalize_listed {c t : Char} (h : Listed c t) : normalize c = t := by
  rw [normalize_eq, lookupD_listed h]

theorem normalize_not_listed {c : Char} (h : ∀ t, ¬ Listed c t) : normalize c = c := by
  rw [normalize_eq, lookupD_not_listed h]

theorem Spec.Listed.ascii {c t : Char} (h : Listed c t) : isAscii t = true := by
  have := normTable_targets _ (listed_iff.mp h)
  simp [isAsciiLower, isAsciiUpper] at this
  simp [isAscii]; omega

theorem Spec.Listed.range {c t : Char} (h : Listed c t) : isNormalized c = false := by
  by_contra hn
  have hn : isNormalized c = true := by simpa using hn
  rw [isNormalized_iff] at hn
  rw [listed_iff] at h
  unfold normTable at h
  simp only [List.mem_append] at h
  rcases h with (hx | hx) | hx
  · have := firstBounds _ hx; omega
  · have := secondBounds _ hx; omega
  · have := thirdBounds _ hx; omega

theorem isNormalized_ascii {c : Char} (h : isAscii c = true) : isNormalized c = true := by
  rw [isNormalized_iff]; simp [isAscii] at h; omega

theorem normalize_ascii {c : Char} (h : isAscii c = true) : normalize c = c :=
  normalize_not_listed (fun _ ht => by have := ht.range; rw [isNormalized_ascii h] at this; simp at this)

end Norm
