import Verif.Proofs.Outcome
import Verif.Props.Grammar
import Verif.Props.Concrete

/-!
# The results of every query

Property C57: a complete description of what the two calls return, for both algorithms, every query and every candidate. -/

namespace Norm.Props
open Spec

variable {U : Unicode} {a : Algo} {m : Metric} {st : Settings} {q : FzfQuery} {s t : List Char}

/-- **C57**, for `parse`: it returns the query that the string stands for, and no other. -/
theorem C57_parse : Parsed U t q ↔ StandsFor U t q := by
  have fwd : ∀ {q}, Parsed U t q → StandsFor U t q := by
    intro q hq
    obtain ⟨ps, h1, _, ts, h2, h3⟩ := C30_words hq
    exact ⟨ps, ts, h1, h2, h3, C31_representation hq⟩
  refine ⟨fwd, ?_⟩
  rintro ⟨ps, ts, h1, h2, h3, h4⟩
  have hq := parsed_new U t
  obtain ⟨ps', h1', hu, ts', h2', h3'⟩ := C30_words hq
  obtain rfl := hu ps h1
  have e : ts = ts' := by
    obtain ⟨f, rfl, hb, hf⟩ := h2
    obtain ⟨f', rfl, hb', hf'⟩ := h2'
    congr 1
    funext w
    by_cases hw : w = ['|']
    · rw [hw, hb, hb']
    · obtain ⟨i, g, d, x, hd, hx⟩ := hf w hw
      obtain ⟨i', g', d', x', hd', hx'⟩ := hf' w hw
      obtain ⟨rfl, rfl, rfl, rfl⟩ := decorates_unique hd hd'
      rw [hx, hx']
  subst e
  have hc := h3.unique h3'
  have h4' := C31_representation hq
  have : q = query U t := by
    rw [hc, ← h4'] at h4
    cases q with
    | notExtended p =>
      obtain ⟨p', hp'⟩ := h4.mp ⟨p, rfl⟩
      rw [hp'] at hc ⊢
      simp only [conditions] at hc
      cases hc
      rfl
    | extended cs =>
      cases hq' : query U t with
      | notExtended p => exact absurd (h4.mpr ⟨p, hq'⟩) (by simp)
      | extended cs' =>
        rw [hq'] at hc
        simp only [conditions] at hc
        rw [hc]
  rw [this]
  exact hq

/-- **C57.** `distance_and_ranges` returns the described score, and appends the ranges of the described characters; and
whatever is described is what it returns. -/
theorem C57_ranges (h : Reachable U a m st) (hq : QueryOk U q) {buf buf' : List Range} {d : Option FzfDistance} :
    ReturnsRanges U m q s buf buf' d ↔
      ∃ H new, Outcome U a st s q H d ∧ Highlights s H new ∧ buf' = buf ++ new := by
  rw [returnsRanges_iff h hq]
  have hsep : Sep (insertAll [] (result U a st s q).1) :=
    sep_insertAll sep_nil (fun r hr => (result_slice (a := a) (st := st) (s := s) hq r hr).lt)
  constructor
  · rintro ⟨rfl, rfl⟩
    obtain ⟨H, d, ho⟩ := outcome_exists (a := a) (st := st) (s := s) hq
    obtain ⟨rfl, h2⟩ := outcome_result hq ho
    exact ⟨H, _, ho, ⟨hsep.1, hsep.2, h2⟩, rfl⟩
  · rintro ⟨H, new, ho, hh, rfl⟩
    obtain ⟨rfl, h2⟩ := outcome_result hq ho
    refine ⟨?_, rfl⟩
    rw [sep_ext hsep ⟨hh.nonempty, hh.separate⟩ (fun b => (h2 b).trans (hh.covers b).symm)]

/-- **C57**, for `distance`. -/
theorem C57_distance (h : Reachable U a m st) (hq : QueryOk U q) {d : Option FzfDistance} :
    Returns U m q s d ↔ ∃ H, Outcome U a st s q H d := by
  rw [returns_iff h hq]
  constructor
  · rintro rfl
    obtain ⟨H, d, ho⟩ := outcome_exists (a := a) (st := st) (s := s) hq
    obtain ⟨rfl, _⟩ := outcome_result hq ho
    exact ⟨H, ho⟩
  · rintro ⟨H, ho⟩
    exact (outcome_result hq ho).1.symm

/-- **C57**, the description is unambiguous. -/
theorem C57_unique (hq : QueryOk U q) {H H' : Nat → Prop} {d d' : Option FzfDistance} (h : Outcome U a st s q H d)
    (h' : Outcome U a st s q H' d') : d = d' ∧ ∀ i < s.length, H i ↔ H' i := by
  obtain ⟨rfl, h2⟩ := outcome_result hq h
  obtain ⟨rfl, h3⟩ := outcome_result hq h'
  refine ⟨rfl, fun i hi => ?_⟩
  have hm := start_mem hi
  rw [← bytes_char (H := H) hm, ← bytes_char (H := H') hm, ← h2, ← h3]

/-- `^ab !z` in `abc`, with either algorithm: the block `ab`, and nothing for the negated `z`. -/
example (a : Algo) : ∃ H, Outcome Concrete.U a defaultSettings "abc".toList (Concrete.parse "^ab !z") H (some ⟨62⟩) ∧
    Highlights "abc".toList H [⟨0, 2⟩] ∧ H 0 ∧ H 1 ∧ ¬ H 2 := by
  have hr : ∀ t : List Char, t.any Concrete.U.isUppercase = false →
      Cmp Concrete.U defaultSettings t = rel (charEq false false) := by
    intro t ht
    funext q c
    refine propext (Iff.trans ?_ (charEq_iff _ _ q c).symm)
    unfold Cmp sensitive
    simp only [defaultSettings, ht]
  let p₁ := mkPattern Concrete.U false .prefixExact "ab".toList
  let p₂ := mkPattern Concrete.U true .exact "z".toList
  have hparse : Concrete.parse "^ab !z" = .extended ([] ++ [[p₁]] ++ [[p₂]]) := by decide +kernel
  have hocc : OccursAt (Cmp Concrete.U defaultSettings p₁.text) p₁.text "abc".toList 0 := by
    rw [hr _ (by decide +kernel)]
    exact ⟨[], ['a', 'b'], ['c'], rfl, rfl, .cons (by decide +kernel) (.cons (by decide +kernel) .nil)⟩
  have hz : ¬ RawMatches Concrete.U defaultSettings p₂ "abc".toList := by
    unfold RawMatches
    rw [hr _ (by decide +kernel)]
    rintro ⟨i, x, m, y, h1, h2, h3⟩
    obtain ⟨c, rfl, hc⟩ : ∃ c, m = [c] ∧ rel (charEq false false) 'z' c := by
      cases h3 with
      | cons h h' => cases h'; exact ⟨_, rfl, h⟩
    have : c ∈ "abc".toList := by rw [h1]; simp
    have key : ∀ c ∈ "abc".toList, charEq false false 'z' c = false := by decide +kernel
    have := key c this
    unfold rel at hc
    rw [this] at hc
    cases hc
  have h₁ : FirstMatch Concrete.U defaultSettings "abc".toList [p₁] p₁ :=
    ⟨[], [], rfl, by simp, ⟨0, ['a', 'b'], ['c'], rfl, by decide +kernel, by
      rw [hr _ (by decide +kernel)]
      exact .cons (by decide +kernel) (.cons (by decide +kernel) .nil)⟩⟩
  have h₂ : FirstMatch Concrete.U defaultSettings "abc".toList [p₂] p₂ := ⟨[], [], rfl, by simp, hz⟩
  have c₁ : Contributes Concrete.U a defaultSettings "abc".toList p₁ [0, 1] 62 :=
    ⟨0, ⟨hocc, by decide +kernel⟩, rfl, by decide +kernel⟩
  have c₂ : Contributes Concrete.U a defaultSettings "abc".toList p₂ [] 0 := ⟨hz, rfl, rfl⟩
  have hall := AllMatch.snoc (AllMatch.snoc AllMatch.nil h₁ c₁) h₂ c₂
  rw [hparse]
  refine ⟨_, .extended hall, ⟨by decide, by decide, fun b => ?_⟩, ?_⟩
  · have hc : Covers [⟨0, 2⟩] b ↔ b < 2 := by simp [Covers]
    rw [hc]
    constructor
    · intro hb
      refine ⟨b, .inl (.inr ⟨?_, .inr ?_⟩), ?_⟩
      · have : b = 0 ∨ b = 1 := by omega
        rcases this with rfl | rfl <;> simp
      · intro x _ j k _ h; exact h.elim
      · have : b = 0 ∨ b = 1 := by omega
        rcases this with rfl | rfl <;> decide
    · rintro ⟨i, (h | ⟨h, _⟩) | ⟨h, _⟩, h1, h2⟩
      · exact h.elim
      · simp at h
        rcases h with rfl | rfl
        · have : (charRange "abc".toList 0).stop = 1 := by decide
          omega
        · have : (charRange "abc".toList 1).stop = 2 := by decide
          omega
      · simp at h
  · have hk : ∀ x i, Kept (fun _ => False) x i := by intro x i j k _ h; exact h.elim
    exact ⟨.inl (.inr ⟨by simp, .inr (fun _ _ => hk _ _)⟩), .inl (.inr ⟨by simp, .inr (fun _ _ => hk _ _)⟩), by simp⟩

end Norm.Props
