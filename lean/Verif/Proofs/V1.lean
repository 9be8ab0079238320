import Verif.Proofs.Score
import Verif.Model.V1

/-! `FzfV1::fuzzy`: forward pass, backward pass and scoring. -/

namespace Norm
open Spec

variable {eq : CharEq} {s : List Char}

theorem forwardLoop_eq {c : Candidate} (hwf : c.WF) (sens n : Bool) :
    ∀ (ps : List Char) (q : Char) (off : Nat), off ≤ c.toChars.length →
    forwardLoop c (CandidateOpts.new sens n) ps q off =
      .ok ((greedyFrom (charEq sens n) c.toChars (q :: ps) off).bind (fun g => g.getLast?.map (· + 1))) := by
  intro ps
  induction ps with
  | nil =>
    intro q off ho
    rw [forwardLoop]
    simp only [CandidateOpts.new, Candidate.findFirstFrom_eq hwf sens n ho, Res.bind_ok, greedyFrom]
    cases findFrom (fun x => charEq sens n q x) c.toChars off <;> simp
  | cons q' ps ih =>
    intro q off ho
    rw [forwardLoop]
    simp only [CandidateOpts.new, Candidate.findFirstFrom_eq hwf sens n ho, Res.bind_ok]
    cases hf : findFrom (fun x => charEq sens n q x) c.toChars off with
    | none => simp [greedyFrom, hf]
    | some j =>
      obtain ⟨_, ⟨x, hx, _⟩, _⟩ := findFrom_some hf
      have hj := (List.getElem?_eq_some_iff.mp hx).1
      have := ih q' (j + 1) (by omega)
      simp only [CandidateOpts.new] at this
      simp only [this]
      have hstep : greedyFrom (charEq sens n) c.toChars (q :: q' :: ps) off =
          (greedyFrom (charEq sens n) c.toChars (q' :: ps) (j + 1)).map (j :: ·) := by
        conv_lhs => rw [greedyFrom]
        rw [hf]
      rw [hstep]
      cases hg : greedyFrom (charEq sens n) c.toChars (q' :: ps) (j + 1) with
      | none => rfl
      | some g =>
        obtain ⟨i, g', rfl⟩ := alignment_cons_left (greedyFrom_align hg).1
        simp

theorem forwardPass_eq {c : Candidate} (hwf : c.WF) (sens n : Bool) (p : Pattern) :
    forwardPass p c (CandidateOpts.new sens n) =
      .ok ((greedyFrom (charEq sens n) c.toChars p.text 0).bind (fun g => g.getLast?.map (· + 1))) := by
  unfold forwardPass
  cases h : p.text with
  | nil => simp [greedyFrom]
  | cons q ps => exact forwardLoop_eq hwf sens n ps q 0 (by omega)

theorem backwardLoop_eq {c : Candidate} (hwf : c.WF) (sens n : Bool) :
    ∀ (ps : List Char) (q : Char) (e : Nat) (b : List Nat), e ≤ c.toChars.length →
    greedyBack (charEq sens n) c.toChars (q :: ps) e = some b →
    ∃ a, b.getLast? = some a ∧ backwardLoop c (CandidateOpts.new sens n) ps q e = .ok a := by
  intro ps
  induction ps with
  | nil =>
    intro q e b he hb
    rw [backwardLoop]
    simp only [CandidateOpts.new, Candidate.findLastFrom_eq hwf sens n he, Res.bind_ok]
    rw [greedyBack] at hb
    split at hb
    · simp at hb
    · rename_i j hj
      simp [greedyBack] at hb
      subst hb
      exact ⟨j, rfl, by simp [hj, Res.unwrap]⟩
  | cons q' ps ih =>
    intro q e b he hb
    rw [backwardLoop]
    simp only [CandidateOpts.new, Candidate.findLastFrom_eq hwf sens n he, Res.bind_ok]
    rw [greedyBack] at hb
    split at hb
    · simp at hb
    · rename_i j hj
      rw [Option.map_eq_some_iff] at hb
      obtain ⟨b', hb', rfl⟩ := hb
      have hj' := (findLastIdx?_some hj).1
      rw [List.length_take] at hj'
      obtain ⟨a, ha, hl⟩ := ih q' j b' (by omega) hb'
      refine ⟨a, ?_, ?_⟩
      · cases b' with
        | nil => simp at ha
        | cons _ _ => rw [List.getLast?_cons_cons]; exact ha
      · simpa [hj, Res.unwrap, CandidateOpts.new] using hl

variable (eq s) in
/-- The alignment scored by `FzfV1::fuzzy`. -/
def v1Align (p : List Char) : Option (List Nat) :=
  (greedyFrom eq s p 0).bind fun g => g.getLast?.bind fun l =>
    (greedyBack eq s p.reverse (l + 1)).bind fun b => b.getLast?.bind fun a => greedyFrom eq s p a

/-- `[a, e)` is the window of `FzfV1` for a query `p`: `e` is the least end of a prefix with a match, and
`a` is the greatest start of a match in that prefix. -/
structure V1Window (R : Char → Char → Prop) (p s : List Char) (a e : Nat) : Prop where
  least : ∀ ps, Alignment R p s ps → ∃ l ∈ ps, e ≤ l + 1
  greatest : ∀ ps, Alignment R p s ps → (∀ i ∈ ps, i < e) → ∃ i ∈ ps, i ≤ a

theorem forall₂_le_head {g qs : List Nat} (h : List.Forall₂ (· ≤ ·) g qs) {x : Nat} (hx : g.head? = some x) :
    ∃ y, qs.head? = some y ∧ x ≤ y := by
  cases h with
  | nil => simp at hx
  | cons h _ => simp at hx; subst hx; exact ⟨_, rfl, h⟩

theorem forall₂_le_last {g qs : List Nat} (h : List.Forall₂ (· ≤ ·) g qs) {x : Nat} (hx : g.getLast? = some x) :
    ∃ y, qs.getLast? = some y ∧ x ≤ y := by
  induction h generalizing x with
  | nil => simp at hx
  | cons h hs ih =>
    cases hs with
    | nil => simp at hx; subst hx; exact ⟨_, by simp, h⟩
    | cons h' hs' =>
      rw [List.getLast?_cons_cons] at hx
      obtain ⟨y, hy, hxy⟩ := ih hx
      exact ⟨y, by rw [List.getLast?_cons_cons]; exact hy, hxy⟩

theorem le_last_of_increasing {g : List Nat} (h : g.Pairwise (· < ·)) {l : Nat} (hl : g.getLast? = some l) :
    ∀ x ∈ g, x ≤ l := by
  intro x hx
  obtain ⟨ys, rfl⟩ := List.getLast?_eq_some_iff.mp hl
  rw [List.pairwise_append] at h
  rcases List.mem_append.mp hx with hx | hx
  · exact Nat.le_of_lt (h.2.2 x hx l (by simp))
  · simp at hx; omega

theorem v1Align_of_greedy {p : List Char} (hp : p ≠ []) {g0 : List Nat} (h0 : greedyFrom eq s p 0 = some g0) :
    ∃ a g l b, g0.getLast? = some l ∧ greedyBack eq s p.reverse (l + 1) = some b ∧ b.getLast? = some a ∧
      greedyFrom eq s p a = some (a :: g) ∧ (a :: g).getLast? = some l ∧
      V1Window (rel eq) p s a (l + 1) := by
  obtain ⟨q, qs, rfl⟩ := List.exists_cons_of_ne_nil hp
  obtain ⟨ha0, _⟩ := greedyFrom_align h0
  have hg0 : g0 ≠ [] := by obtain ⟨i, g, rfl⟩ := alignment_cons_left ha0; simp
  obtain ⟨l, hl⟩ : ∃ l, g0.getLast? = some l := ⟨_, List.getLast?_eq_some_getLast hg0⟩
  have hle := le_last_of_increasing ha0.increasing hl
  obtain ⟨b, hb, hbge⟩ := greedyBack_greatest (eq := eq) (s := s) (p := (q :: qs).reverse) (e := l + 1)
    (qs := g0.reverse) (List.rel_reverse ha0.spells) (by rw [List.pairwise_reverse]; exact ha0.increasing)
    (by intro x hx; have := hle x (by simpa using hx); omega)
  obtain ⟨hbs, hbd, hbl⟩ := greedyBack_spells hb
  have hba : Alignment (rel eq) (q :: qs) s b.reverse := ⟨by rw [List.pairwise_reverse]; exact hbd, by
    have := List.rel_reverse hbs; rwa [List.reverse_reverse] at this⟩
  obtain ⟨a, bs, hab⟩ := alignment_cons_left hba
  have hbl' : b.getLast? = some a := by
    rw [← List.head?_reverse, hab]; rfl
  have hage : ∀ x ∈ b.reverse, a ≤ x := by
    rw [hab] at hba ⊢
    intro x hx
    rcases List.mem_cons.mp hx with rfl | hx
    · exact Nat.le_refl _
    · exact Nat.le_of_lt ((alignment_cons.mp hba).2.1 x hx)
  obtain ⟨g, hg, hgle⟩ := greedyFrom_least hba hage
  obtain ⟨hga, hgge⟩ := greedyFrom_align hg
  obtain ⟨i, g, rfl⟩ := alignment_cons_left hga
  obtain ⟨y, hy, hiy⟩ := forall₂_le_head hgle (x := i) rfl
  rw [hab] at hy; simp at hy; subst hy
  have := hgge i (by simp)
  obtain rfl : i = a := by omega
  -- the last position
  obtain ⟨m, hm⟩ : ∃ m, (i :: g).getLast? = some m := ⟨_, List.getLast?_eq_some_getLast (by simp)⟩
  obtain ⟨z, hz, hmz⟩ := forall₂_le_last hgle hm
  have hzl : z ≤ l := by have := hbl z (by simpa using List.mem_of_getLast? hz); omega
  obtain ⟨g1, hg1, hle1⟩ := greedyFrom_least hga (off := 0) (by simp)
  rw [h0] at hg1; simp at hg1; subst hg1
  obtain ⟨w, hw, hlw⟩ := forall₂_le_last hle1 hl
  rw [hm] at hw; simp at hw; subst hw
  obtain rfl : m = l := by omega
  refine ⟨i, g, m, b, hl, hb, hbl', hg, hm, ?_, ?_⟩
  · intro ps hps
    obtain ⟨g2, hg2, hle2⟩ := greedyFrom_least hps (off := 0) (by simp)
    rw [h0] at hg2; simp at hg2; subst hg2
    obtain ⟨w, hw, hlw⟩ := forall₂_le_last hle2 hl
    exact ⟨w, List.mem_of_getLast? hw, by omega⟩
  · intro ps hps hlt
    obtain ⟨b2, hb2, hge2⟩ := greedyBack_greatest (eq := eq) (s := s) (p := (q :: qs).reverse) (e := m + 1)
      (qs := ps.reverse) (List.rel_reverse hps.spells) (by rw [List.pairwise_reverse]; exact hps.increasing)
      (by intro x hx; exact hlt x (by simpa using hx))
    rw [hb] at hb2; simp at hb2; subst hb2
    have hge2' : List.Forall₂ (· ≤ ·) ps.reverse b := hge2.flip
    obtain ⟨k, ks, rfl⟩ := alignment_cons_left hps
    obtain ⟨y, hy, hky⟩ := forall₂_le_last hge2' (x := k) (by rw [List.getLast?_reverse]; rfl)
    rw [hbl'] at hy; simp at hy; subst hy
    exact ⟨k, by simp, hky⟩

theorem v1Align_none {p : List Char} (hp : p ≠ []) :
    v1Align eq s p = none ↔ greedyFrom eq s p 0 = none := by
  unfold v1Align
  cases h0 : greedyFrom eq s p 0 with
  | none => simp
  | some g0 =>
    obtain ⟨a, g, l, b, h1, h2, h3, h4, _⟩ := v1Align_of_greedy hp h0
    simp [h1, h2, h3, h4]

theorem v1Align_some {p : List Char} (hp : p ≠ []) {g : List Nat} (h : v1Align eq s p = some g) :
    ∃ a l, greedyFrom eq s p a = some g ∧ g.head? = some a ∧ g.getLast? = some l ∧
      Alignment (rel eq) p s g ∧ V1Window (rel eq) p s a (l + 1) := by
  unfold v1Align at h
  cases h0 : greedyFrom eq s p 0 with
  | none => simp [h0] at h
  | some g0 =>
    obtain ⟨a, g', l, b, h1, h2, h3, h4, h5, h6⟩ := v1Align_of_greedy hp h0
    simp [h0, h1, h2, h3, h4] at h
    subst h
    exact ⟨a, l, h4, rfl, h5, (greedyFrom_align h4).1, h6⟩

/-- `FzfV1::fuzzy`. -/
theorem FzfV1.fuzzy_eq (U : Unicode) (R : Bool) (self : FzfV1) (p : Pattern) (hp : p.text ≠ [])
    {c : Candidate} (hwf : c.WF) (pre this : List Range) (hsep : Sep this) :
    FzfV1.fuzzy U R self p c ⟨pre ++ this, pre.length⟩ =
      .ok (self,
        match v1Align (self.charEq p) c.toChars p.text with
        | none => (⟨pre ++ this, pre.length⟩, none)
        | some g =>
          (⟨pre ++ (if R then insertAll this (g.map (charRange c.toChars)) else this), pre.length⟩,
            some (alignScore (bonusOf U self.scoringScheme c.toChars) g))) := by
  unfold FzfV1.fuzzy
  simp only [forwardPass_eq hwf, Res.bind_ok]
  have hceq : self.charEq p = Norm.charEq (isSensitive self.caseSensitivity p) self.candidateNormalization := rfl
  rw [hceq]
  cases h0 : greedyFrom (Norm.charEq (isSensitive self.caseSensitivity p) self.candidateNormalization)
      c.toChars p.text 0 with
  | none => simp [(v1Align_none hp).mpr h0]
  | some g0 =>
    obtain ⟨a, g, l, b, h1, h2, h3, h4, h5, h6⟩ := v1Align_of_greedy hp h0
    have hv : v1Align (Norm.charEq (isSensitive self.caseSensitivity p) self.candidateNormalization)
        c.toChars p.text = some (a :: g) := by
      unfold v1Align; simp [h0, h1, h2, h3, h4]
    have hga := (greedyFrom_align h4).1
    have hlen := hga.lt_length l (List.mem_of_getLast? h5)
    have hback : backwardPass p c (l + 1)
        (CandidateOpts.new (isSensitive self.caseSensitivity p) self.candidateNormalization) = .ok a := by
      unfold backwardPass
      cases hr : p.text.reverse with
      | nil => simp at hr; exact absurd hr hp
      | cons q qs =>
        rw [hr] at h2
        obtain ⟨a', ha', h⟩ := backwardLoop_eq hwf _ _ qs q (l + 1) b (by omega) h2
        rw [h3] at ha'; simp at ha'; subst ha'; exact h
    simp only [h1, Option.bind_some, Option.map_some, hback, Res.bind_ok, hv]
    simp only [CandidateOpts.new]
    rw [computeScore_eq U self.scoringScheme R hwf p _ (e := l + 1) (by omega) hp h4 (by
      intro j hj; have := le_last_of_increasing hga.increasing h5 j hj; omega) pre this hsep]
    rfl

end Norm
