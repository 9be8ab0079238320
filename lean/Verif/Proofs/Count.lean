import Verif.SpecCount
import Verif.Proofs.Highlighted
import Verif.Proofs.UsizeRanges
import Verif.Proofs.Calls
import Verif.Proofs.Outcome

/-!
# The number of ranges: helper lemmas
-/

namespace Norm

open Spec

variable {U : Unicode} {a : Algo} {st : Settings} {q : FzfQuery} {s : List Char} {p : Pattern}

theorem glueAfter_length (o : Option Range) (l : List Range) (r : Range) : (glueAfter o l r).length ≤ o.toList.length + l.length + 1 := by
  unfold glueAfter
  repeat' split
  all_goals simp <;> omega

theorem glueFound_length (x : Range) (l : List Range) (r : Range) : (glueFound x l r).length ≤ l.length + 1 := by
  unfold glueFound
  repeat' split
  all_goals simp

theorem pinsert_length (l : List Range) (r : Range) : (pinsert l r).length ≤ l.length + 1 := by
  induction l with
  | nil => simp [pinsert]
  | cons x l ih =>
    unfold pinsert
    split
    · have := glueAfter_length none (x :: l) r
      simpa using this
    · split
      · have := glueFound_length x l r
        rw [List.length_cons]; omega
      · cases l with
        | nil =>
          have := glueAfter_length (some x) [] r
          simpa using this
        | cons y l =>
          dsimp only
          split
          · have := glueAfter_length (some x) (y :: l) r
            simp only [Option.toList_some, List.length_cons, List.length_nil] at this ⊢
            omega
          · rw [List.length_cons, List.length_cons]
            omega

theorem insertAll_length (rs l : List Range) : (insertAll l rs).length ≤ l.length + rs.length := by
  induction rs generalizing l with
  | nil => simp
  | cons r rs ih =>
    have h1 := ih (pinsert l r)
    have h2 := pinsert_length l r
    rw [insertAll_cons, List.length_cons]
    omega

theorem pureOf_length {B : Nat → Int} {eq : CharEq} {p s : List Char} (hB : ∀ i, 0 ≤ B i) (hp : p ≠ []) {x : List Nat × Int}
    (h : pureOf a B eq p s = some x) : x.1.length ≤ p.length := by
  cases a with
  | v1 =>
    simp only [pureOf, v1Result, Option.map_eq_some_iff] at h
    obtain ⟨g, hg, rfl⟩ := h
    obtain ⟨_, _, _, _, _, h1, _⟩ := v1Align_some hp hg
    exact Nat.le_of_eq h1.spells.length_eq.symm
  | v2 =>
    obtain ⟨k, -, -, -, hk, -, -, -, -, h1⟩ := v2Result_last hB hp h
    omega

theorem patHit_length (hp : p.text ≠ []) {h : List Range × Int} (hh : patHit U (pureOf a) st s p = some h) : h.1.length ≤ mostOf p := by
  unfold mostOf
  rcases patHit_shape hp hh with ⟨h1, h2⟩ | ⟨h1, hk, -⟩ | ⟨h1, hk, r, -, h2⟩
  · rw [h2]; exact Nat.zero_le _
  · unfold patHit rawHit at hh
    simp only [h1, hk, Bool.false_eq_true, if_false, Option.map_eq_some_iff] at hh
    obtain ⟨x, hx, rfl⟩ := hh
    simp only [h1, hk, Bool.false_eq_true, if_false, List.length_map]
    exact pureOf_length (posBonus_nonneg U st.scheme s) hp hx
  · rw [h1, h2, if_neg (by decide)]
    split
    · rename_i e; exact absurd e hk
    · exact Nat.le_refl _

theorem le_foldl_max (l : List Nat) (b : Nat) : b ≤ l.foldl max b ∧ ∀ x ∈ l, x ≤ l.foldl max b := by
  induction l generalizing b with
  | nil => exact ⟨Nat.le_refl _, by simp⟩
  | cons y l ih =>
    obtain ⟨h1, h2⟩ := ih (max b y)
    rw [List.foldl_cons]
    refine ⟨by omega, fun x hx => ?_⟩
    rcases List.mem_cons.mp hx with rfl | hx
    · omega
    · exact h2 x hx

theorem condsHit_length {cs : List Condition} (hq : QueryOk U (.extended cs)) :
    (condsHit U (pureOf a) st s cs).1.length ≤ most (.extended cs) := by
  induction cs with
  | nil => exact Nat.le_refl _
  | cons c cs ih =>
    have ih := ih fun c hc => hq c (List.mem_cons_of_mem _ hc)
    unfold condsHit
    simp only [most, List.map_cons, List.sum_cons] at ih ⊢
    cases hc : condHit U (pureOf a) st s c with
    | none => exact Nat.zero_le _
    | some x =>
      unfold condHit at hc
      obtain ⟨p, hp, hx⟩ := List.exists_of_findSome?_eq_some hc
      have h1 := patHit_length ((hq c List.mem_cons_self).2 p hp).1 hx
      have h2 := (le_foldl_max (c.map mostOf) 0).2 _ (List.mem_map_of_mem hp)
      simp only [List.length_append]
      omega

theorem result_length (hq : QueryOk U q) : (result U a st s q).1.length ≤ most q := by
  cases q with
  | extended cs => rw [result_extended]; exact condsHit_length hq
  | notExtended p =>
    by_cases hp : p.text = []
    · have : (result U a st s (.notExtended p)).1 = [] := by
        unfold result queryHit
        rw [if_pos (by simp [FzfQuery.isEmpty, Pattern.isEmpty, hp])]
      rw [this]; exact Nat.zero_le _
    · rw [result_notExtended hp]
      cases h : pureOf a (posBonus U st.scheme s) (st.eqOf p) p.text s with
      | none => exact Nat.zero_le _
      | some x =>
        simp only [List.length_map]
        exact pureOf_length (posBonus_nonneg U st.scheme s) hp h

/-! ### Characters -/

/-- The bytes of some ranges belong to the characters `is` of the candidate. -/
def Within (s : List Char) (rs : List Range) (is : List Nat) : Prop :=
  (∀ i ∈ is, i < s.length) ∧ ∀ b, Covered rs b → ∃ i ∈ is, (charRange s i).start ≤ b ∧ b < (charRange s i).stop

theorem within_chars {is : List Nat} (h : ∀ i ∈ is, i < s.length) : Within s (is.map (charRange s)) is := by
  refine ⟨h, fun b hb => ?_⟩
  obtain ⟨r, hr, h1⟩ := hb
  obtain ⟨i, hi, rfl⟩ := List.mem_map.mp hr
  exact ⟨i, hi, h1⟩

theorem patHit_within (hp : PatternOk U p) {h : List Range × Int} (hh : patHit U (pureOf a) st s p = some h) :
    ∃ is, Within s h.1 is ∧ is.length ≤ if p.isInverse then 0 else p.text.length := by
  rcases patHit_shape hp.1 hh with ⟨h1, h2⟩ | ⟨h1, hk, is, his, h2⟩ | ⟨h1, hk, -⟩
  · rw [h2]
    exact ⟨[], ⟨by simp, fun b hb => by simp at hb⟩, Nat.zero_le _⟩
  · have := patHit_length hp.1 hh
    unfold mostOf at this
    rw [h2] at this ⊢
    rw [hk, List.length_map] at this
    exact ⟨is, within_chars his, this⟩
  · unfold patHit at hh
    rw [h1, if_neg (by decide)] at hh
    obtain ⟨i, -, hi, rfl⟩ := rawHit_block hk hp hh
    rw [h1, if_neg (by decide)]
    refine ⟨List.range' i p.text.length, ⟨fun j hj => ?_, fun b hb => ?_⟩, by simp⟩
    · have := List.mem_range'_1.mp hj; omega
    · obtain ⟨r, hr, hb⟩ := hb
      rw [List.mem_singleton] at hr
      subst hr
      obtain ⟨j, h3, h4, h5⟩ := slice_bytes hi hb
      exact ⟨j, List.mem_range'_1.mpr ⟨h3, h4⟩, h5⟩

theorem condsHit_within {cs : List Condition} (hq : QueryOk U (.extended cs)) :
    ∃ is, Within s (condsHit U (pureOf a) st s cs).1 is ∧ is.length ≤ mostChars (.extended cs) := by
  induction cs with
  | nil => exact ⟨[], ⟨by simp, fun b hb => by simp [condsHit] at hb⟩, Nat.zero_le _⟩
  | cons c cs ih =>
    obtain ⟨is, h1, h2⟩ := ih fun c hc => hq c (List.mem_cons_of_mem _ hc)
    unfold condsHit
    simp only [mostChars, List.map_cons, List.sum_cons] at h2 ⊢
    cases hc : condHit U (pureOf a) st s c with
    | none => exact ⟨[], ⟨by simp, fun b hb => by simp at hb⟩, Nat.zero_le _⟩
    | some x =>
      unfold condHit at hc
      obtain ⟨p, hp, hx⟩ := List.exists_of_findSome?_eq_some hc
      obtain ⟨js, h3, h4⟩ := patHit_within ((hq c List.mem_cons_self).2 p hp) hx
      have h5 := (le_foldl_max (c.map fun p => if p.isInverse then 0 else p.text.length) 0).2 _ (List.mem_map_of_mem hp)
      refine ⟨js ++ is, ⟨fun i hi => ?_, fun b hb => ?_⟩, by rw [List.length_append]; omega⟩
      · rcases List.mem_append.mp hi with hi | hi
        · exact h3.1 i hi
        · exact h1.1 i hi
      · rcases (covered_append ..).mp hb with hb | hb
        · obtain ⟨i, hi, hb⟩ := h3.2 b hb
          exact ⟨i, List.mem_append_left _ hi, hb⟩
        · obtain ⟨i, hi, hb⟩ := h1.2 b hb
          exact ⟨i, List.mem_append_right _ hi, hb⟩

theorem result_within (hq : QueryOk U q) : ∃ is, Within s (result U a st s q).1 is ∧ is.length ≤ mostChars q := by
  cases q with
  | extended cs => rw [result_extended]; exact condsHit_within hq
  | notExtended p =>
    by_cases hp : p.text = []
    · have : (result U a st s (.notExtended p)).1 = [] := by
        unfold result queryHit
        rw [if_pos (by simp [FzfQuery.isEmpty, Pattern.isEmpty, hp])]
      rw [this]
      exact ⟨[], ⟨by simp, fun b hb => by simp at hb⟩, Nat.zero_le _⟩
    · have hsl := result_slice (a := a) (st := st) (s := s) hq
      rw [result_notExtended hp] at hsl ⊢
      cases h : pureOf a (posBonus U st.scheme s) (st.eqOf p) p.text s with
      | none => exact ⟨[], ⟨by simp, fun b hb => by simp at hb⟩, Nat.zero_le _⟩
      | some x =>
        rw [h] at hsl
        refine ⟨x.1, within_chars fun i hi => ?_, pureOf_length (posBonus_nonneg U st.scheme s) hp h⟩
        have hlt := (hsl _ (List.mem_map_of_mem hi)).lt
        by_contra hc
        simp only [charRange, byteRange] at hlt
        rw [List.take_of_length_le (by omega), List.take_of_length_le (by omega)] at hlt
        omega

end Norm
