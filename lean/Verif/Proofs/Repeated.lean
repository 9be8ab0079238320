import Verif.Proofs.Highlights
import Verif.Proofs.Calls

/-!
# Inserting what is there already, and queries that repeat a part of themselves -/

namespace Norm
open Spec

variable {U : Unicode} {a : Algo} {st : Settings} {s : List Char} {p : Pattern}

/-! ### Ranges -/

theorem Range.max_stop {r : Range} {n : Nat} (h : n ≤ r.stop) :
    ({ start := r.start, stop := max r.stop n } : Range) = r := by
  cases r
  simp only [Range.mk.injEq, true_and] at h ⊢
  omega

/-- A range that is covered is inserted without any effect. -/
theorem pinsert_same {l : List Range} {new : Range} (hl : Sep l) (hn : new.start < new.stop)
    (h : ∀ b, new.start ≤ b → b < new.stop → Covered l b) : pinsert l new = l := by
  have key : ∃ x ∈ l, x.start ≤ new.start ∧ new.stop ≤ x.stop := by
    obtain ⟨x, hx, h1, h2⟩ := h new.start (Nat.le_refl _) hn
    refine ⟨x, hx, h1, ?_⟩
    by_contra hcon
    obtain ⟨y, hy, h3, h4⟩ := h x.stop (by omega) (by omega)
    by_cases e : x = y
    · subst e; omega
    rcases List.pairwise_iff_getElem.mp hl.2 with hp
    obtain ⟨i, hi, rfl⟩ := List.mem_iff_getElem.mp hx
    obtain ⟨j, hj, rfl⟩ := List.mem_iff_getElem.mp hy
    rcases Nat.lt_trichotomy i j with h5 | h5 | h5
    · have := hp i j hi hj h5; omega
    · subst h5; exact e rfl
    · have := hp j i hj hi h5; omega
  clear h
  obtain ⟨x, hx, h1, h2⟩ := key
  fun_induction pinsert l new <;>
    grind [glueAfter.eq_def, glueFound.eq_def, sep_cons, sep_nil, sep_mem, Range.max_stop]

theorem insertAll_same {rs : List Range} {l : List Range} (hl : Sep l) (hr : ∀ r ∈ rs, r.start < r.stop)
    (h : ∀ b, Covered rs b → Covered l b) : insertAll l rs = l := by
  induction rs with
  | nil => rfl
  | cons r rs ih =>
    rw [insertAll_cons, pinsert_same hl (hr r (by simp)) fun b h1 h2 => h b (by simp [h1, h2])]
    exact ih (fun r hr' => hr r (by simp [hr'])) fun b hb => h b (by simp [hb])

/-- Inserting a range that is not covered has some effect. -/
theorem pinsert_changes {l : List Range} {new : Range} (hl : Sep l) (h : pinsert l new = l) {b : Nat}
    (h1 : new.start ≤ b) (h2 : b < new.stop) : Covered l b := by
  induction b using Nat.strongRecOn with
  | _ b ih =>
    by_contra hcon
    refine hcon (h ▸ pinsert_kept hl h1 h2 ?_)
    intro r hr hlt
    by_contra hb
    have h3 := hl.1 r hr
    obtain ⟨x, hx, h4, h5⟩ := ih (r.start - 1) (by omega) (by omega) (by omega)
    by_cases e : x = r
    · subst e; omega
    obtain ⟨i, hi, rfl⟩ := List.mem_iff_getElem.mp hx
    obtain ⟨j, hj, rfl⟩ := List.mem_iff_getElem.mp hr
    have hp := List.pairwise_iff_getElem.mp hl.2
    rcases Nat.lt_trichotomy i j with h6 | h6 | h6
    · have := hp i j hi hj h6; omega
    · subst h6; exact e rfl
    · have := hp j i hj hi h6; omega

/-- What is inserted for a pattern has no effect iff it is covered already. -/
theorem insertAll_patHit (hp : p.text ≠ []) {x : List Range × Int} (hx : patHit U (pureOf a) st s p = some x)
    {l : List Range} (hl : Sep l) (hs : ∀ r ∈ l, Slice s r) :
    insertAll l x.1 = l ↔ ∀ b, Covered x.1 b → Covered l b := by
  refine ⟨?_, insertAll_same hl fun r hr => (patHit_slice hp hx r hr).lt⟩
  intro h b hb
  rcases patHit_shape hp hx with ⟨_, h1⟩ | ⟨_, _, is, h1, h2⟩ | ⟨_, _, r, _, h1⟩
  · rw [h1] at hb; simp at hb
  · rw [h2, covered_chars] at hb
    rw [← h, h2, insertAll_chars hl hs h1]
    exact .inr hb
  · rw [h1] at h hb
    simp only [covered_cons, covered_nil, or_false] at hb
    exact pinsert_changes hl (by simpa using h) hb.1 hb.2

/-! ### Alternatives -/

/-- An alternative that only matches when an earlier one does has no effect. -/
theorem condHit_drop {c₁ c₂ : Condition} (hc : ∀ x ∈ c₁, PatternOk U x) (hp : PatternOk U p)
    (h : PatternMatches U st p s → ∃ x ∈ c₁, PatternMatches U st x s) :
    condHit U (pureOf a) st s (c₁ ++ p :: c₂) = condHit U (pureOf a) st s (c₁ ++ c₂) := by
  unfold condHit
  rw [List.findSome?_append, List.findSome?_append, List.findSome?_cons]
  cases hx : patHit U (pureOf a) st s p with
  | none => rfl
  | some x =>
    have h1 : (condHit U (pureOf a) st s c₁).isSome = true :=
      (condHit_isSome (accepts a) hc).mpr (h ((patHit_isSome (accepts a) hp).mp (by rw [hx]; rfl)))
    unfold condHit at h1
    obtain ⟨y, hy⟩ := Option.isSome_iff_exists.mp h1
    rw [hy]
    rfl

theorem condsHit_replace {cs₁ cs₂ : List Condition} {c c' : Condition}
    (h : condHit U (pureOf a) st s c = condHit U (pureOf a) st s c') :
    condsHit U (pureOf a) st s (cs₁ ++ c :: cs₂) = condsHit U (pureOf a) st s (cs₁ ++ c' :: cs₂) := by
  induction cs₁ with
  | nil => simp only [List.nil_append, condsHit, h]
  | cons x cs₁ ih => simp only [List.cons_append, condsHit, ih]

/-! ### Conditions -/

theorem condsHit_member {cs : List Condition} {c : Condition} (hc : c ∈ cs)
    (h : (condsHit U (pureOf a) st s cs).2.isSome = true) : (condHit U (pureOf a) st s c).isSome = true := by
  induction cs with
  | nil => simp at hc
  | cons x cs ih =>
    simp only [condsHit] at h
    cases hx : condHit U (pureOf a) st s x with
    | none => rw [hx] at h; simp at h
    | some y =>
      rw [hx] at h
      rcases List.mem_cons.mp hc with rfl | hc
      · rw [hx]; rfl
      · exact ih hc (by simpa using h)

theorem condsHit_again {cs cs' : List Condition}
    (h : (condsHit U (pureOf a) st s cs).2 = none) : condsHit U (pureOf a) st s (cs ++ cs') = condsHit U (pureOf a) st s cs := by
  induction cs with
  | nil => simp [condsHit] at h
  | cons x cs ih =>
    simp only [List.cons_append, condsHit] at h ⊢
    cases hx : condHit U (pureOf a) st s x with
    | none => rfl
    | some y =>
      rw [hx] at h
      have h : (condsHit U (pureOf a) st s cs).2 = none := by simpa using h
      simp only [ih h]

theorem condsHit_prefix {cs₁ cs₂ : List Condition} (h : (condsHit U (pureOf a) st s (cs₁ ++ cs₂)).2.isSome = true) :
    (condsHit U (pureOf a) st s cs₁).2.isSome = true := by
  cases hx : (condsHit U (pureOf a) st s cs₁).2 with
  | none => rw [condsHit_again hx, hx] at h; exact h
  | some x => rfl

/-! ### Words -/

/-- A fuzzy word that does not start with `!'` is not negated. -/
theorem fuzzy_word {w : List Char} (hp : wordPattern U w = some p) (hk : p.matchType = .fuzzy) (hn : ¬ ['!', '\''] <+: w) :
    p.text ≠ [] ∧ p.isInverse = false := by
  have hd := decorates_exists w
  rw [wordPattern_of_decorates hd] at hp
  split at hp
  · cases hp
  · rename_i ht
    cases hp
    refine ⟨ht, ?_⟩
    have hw := hd.word
    cases hi : (splitBang w).1 with
    | false => rfl
    | true =>
      exfalso
      have hk : kind (splitBang w).1 (splitDollar (splitBang w).2).1 (splitSigil (splitDollar (splitBang w).2).2).1 = .fuzzy := hk
      cases hs : (splitSigil (splitDollar (splitBang w).2).2).1 with
      | none => rw [hi, hs] at hk; simp only [kind] at hk; split at hk <;> simp at hk
      | caret => rw [hs] at hk; simp only [kind] at hk; split at hk <;> simp at hk
      | quote =>
        rw [hi, hs] at hw
        apply hn
        rw [hw]
        simp [Sigil.chars]

end Norm
