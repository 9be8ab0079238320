import Verif.Proofs.Candidate

/-! Alignments and the greedy searches of the forward and backward passes. -/

namespace Norm
open Spec

variable {R : Char → Char → Prop}

/-- The relation "query character matches the candidate character at this index". -/
abbrev At (R : Char → Char → Prop) (s : List Char) : Char → Nat → Prop :=
  fun q i => ∃ c, s[i]? = some c ∧ R q c

theorem alignment_nil {s : List Char} : Alignment R [] s [] := ⟨List.Pairwise.nil, .nil⟩

theorem alignment_cons {q : Char} {p s : List Char} {i : Nat} {ps : List Nat} :
    Alignment R (q :: p) s (i :: ps) ↔ At R s q i ∧ (∀ j ∈ ps, i < j) ∧ Alignment R p s ps := by
  constructor
  · rintro ⟨h1, h2⟩
    rw [List.pairwise_cons] at h1
    rw [List.forall₂_cons] at h2
    exact ⟨h2.1, h1.1, h1.2, h2.2⟩
  · rintro ⟨h1, h2, h3⟩
    exact ⟨List.pairwise_cons.mpr ⟨h2, h3.increasing⟩, List.forall₂_cons.mpr ⟨h1, h3.spells⟩⟩

theorem alignment_cons_left {q : Char} {p s : List Char} {ps : List Nat}
    (h : Alignment R (q :: p) s ps) : ∃ i ps', ps = i :: ps' := by
  cases h.spells; exact ⟨_, _, rfl⟩

theorem Spec.Alignment.length_eq {p s : List Char} {ps : List Nat} (h : Alignment R p s ps) :
    ps.length = p.length := h.spells.length_eq.symm

theorem Spec.Alignment.lt_length {p s : List Char} {ps : List Nat} (h : Alignment R p s ps) :
    ∀ i ∈ ps, i < s.length := by
  obtain ⟨_, h2⟩ := h
  induction h2 with
  | nil => simp
  | cons h _ ih =>
    rename_i hp
    intro i hi
    rcases List.mem_cons.mp hi with rfl | hi
    · obtain ⟨c, hc, _⟩ := h
      exact (List.getElem?_eq_some_iff.mp hc).1
    · exact ih (List.pairwise_cons.mp hp).2 i hi

/-- Subsequences are alignments. -/
theorem subseq_iff {p s : List Char} : Subseq R p s ↔ ∃ ps, Alignment R p s ps := by
  constructor
  · rintro ⟨s', hs, hf⟩
    induction hs generalizing p with
    | slnil => cases hf; exact ⟨[], alignment_nil⟩
    | cons a _ ih =>
      obtain ⟨ps, h⟩ := ih hf
      exact ⟨ps.map (· + 1), shift h⟩
    | cons_cons a _ ih =>
      cases hf with
      | cons hq hf =>
        obtain ⟨ps, h⟩ := ih hf
        refine ⟨0 :: ps.map (· + 1), alignment_cons.mpr ⟨⟨a, by simp, hq⟩, by simp, shift h⟩⟩
  · rintro ⟨ps, h⟩
    induction s generalizing p ps with
    | nil =>
      cases h.spells with
      | nil => exact ⟨[], List.Sublist.refl _, .nil⟩
      | cons hq _ => simp at hq
    | cons x s ih =>
      cases p with
      | nil => exact ⟨[], List.nil_sublist _, .nil⟩
      | cons q p =>
        obtain ⟨i, ps, rfl⟩ := alignment_cons_left h
        rw [alignment_cons] at h
        cases i with
        | zero =>
          obtain ⟨⟨c, hc, hq⟩, hlt, ha⟩ := h
          simp at hc; subst hc
          obtain ⟨s', hs', hf⟩ := ih _ (unshift ha (fun j hj => by have := hlt j hj; omega))
          exact ⟨x :: s', hs'.cons_cons x, .cons hq hf⟩
        | succ i =>
          obtain ⟨s', hs', hf⟩ := ih (((i + 1) :: ps).map (· - 1)) (unshift (alignment_cons.mpr h) (by
            intro j hj
            rcases List.mem_cons.mp hj with rfl | hj
            · omega
            · have := h.2.1 j hj; omega))
          exact ⟨s', hs'.cons x, hf⟩
where
  shift {p s : List Char} {a : Char} {ps : List Nat} (h : Alignment R p s ps) :
      Alignment R p (a :: s) (ps.map (· + 1)) := by
    refine ⟨?_, ?_⟩
    · rw [List.pairwise_map]; exact h.increasing.imp (by omega)
    · rw [List.forall₂_map_right_iff]
      exact h.spells.imp (fun q i ⟨c, hc, hr⟩ => ⟨c, by simpa using hc, hr⟩)
  unshift {p s : List Char} {a : Char} {ps : List Nat} (h : Alignment R p (a :: s) ps)
      (hpos : ∀ j ∈ ps, 0 < j) : Alignment R p s (ps.map (· - 1)) := by
    refine ⟨?_, ?_⟩
    · rw [List.pairwise_map]
      refine h.increasing.imp_of_mem ?_
      intro x y hx hy hxy
      have := hpos x hx; have := hpos y hy; omega
    · rw [List.forall₂_map_right_iff]
      have h2 := h.spells
      clear h
      induction h2 with
      | nil => exact .nil
      | cons hq _ ih =>
        rename_i q i p ps _
        refine .cons ?_ (ih (fun j hj => hpos j (by simp [hj])))
        obtain ⟨c, hc, hr⟩ := hq
        have hi := hpos i (by simp)
        obtain ⟨k, rfl⟩ : ∃ k, i = k + 1 := ⟨i - 1, by omega⟩
        exact ⟨c, by simpa using hc, hr⟩

/-! ### Greedy forward search -/

variable (eq : CharEq) (s : List Char)

/-- The relation of a Boolean comparison. -/
abbrev rel (eq : CharEq) : Char → Char → Prop := fun a b => eq a b = true

/-- Leftmost alignment starting at or after `off`. -/
def greedyFrom : List Char → Nat → Option (List Nat)
  | [], _ => some []
  | c :: p, off =>
    match findFrom (fun x => eq c x) s off with
    | none => none
    | some j => (greedyFrom p (j + 1)).map (j :: ·)

variable {eq s}

theorem findFrom_some {p : Char → Bool} {off j : Nat} (h : findFrom p s off = some j) :
    off ≤ j ∧ (∃ c, s[j]? = some c ∧ p c = true) ∧
      ∀ k c, off ≤ k → k < j → s[k]? = some c → p c = false := by
  unfold findFrom at h
  rw [Option.map_eq_some_iff] at h
  obtain ⟨i, hi, rfl⟩ := h
  rw [List.findIdx?_eq_some_iff_getElem] at hi
  obtain ⟨hlt, hp, hmin⟩ := hi
  refine ⟨by omega, ⟨(s.drop off)[i], ?_, hp⟩, ?_⟩
  · have : s[i + off]? = (s.drop off)[i]? := by rw [List.getElem?_drop, Nat.add_comm]
    rw [this, List.getElem?_eq_getElem hlt]
  · intro k c h1 h2 hk
    have h3 := hmin (k - off) (by omega)
    have h4 : (s.drop off)[k - off]? = some c := by
      rw [List.getElem?_drop, show off + (k - off) = k by omega, hk]
    have h5 := (List.getElem?_eq_some_iff.mp h4)
    obtain ⟨h6, h7⟩ := h5
    rw [h7] at h3
    simpa using h3

theorem findFrom_none {p : Char → Bool} {off : Nat} (h : findFrom p s off = none) :
    ∀ k c, off ≤ k → s[k]? = some c → p c = false := by
  intro k c hk hc
  unfold findFrom at h
  rw [Option.map_eq_none_iff, List.findIdx?_eq_none_iff] at h
  apply h
  have : (s.drop off)[k - off]? = some c := by rw [List.getElem?_drop, show off + (k - off) = k by omega, hc]
  exact List.mem_of_getElem? this

theorem greedyFrom_align {p : List Char} {off : Nat} {g : List Nat} (h : greedyFrom eq s p off = some g) :
    Alignment (rel eq) p s g ∧ ∀ x ∈ g, off ≤ x := by
  induction p generalizing off g with
  | nil => simp [greedyFrom] at h; subst h; exact ⟨alignment_nil, by simp⟩
  | cons c p ih =>
    simp only [greedyFrom] at h
    split at h
    · simp at h
    · rename_i j hj
      rw [Option.map_eq_some_iff] at h
      obtain ⟨g', hg', rfl⟩ := h
      obtain ⟨h1, h2⟩ := ih hg'
      obtain ⟨h3, h4, _⟩ := findFrom_some hj
      refine ⟨alignment_cons.mpr ⟨h4, fun x hx => by have := h2 x hx; omega, h1⟩, ?_⟩
      intro x hx
      rcases List.mem_cons.mp hx with rfl | hx
      · exact h3
      · have := h2 x hx; omega

theorem greedyFrom_least {p : List Char} {off : Nat} {qs : List Nat}
    (h : Alignment (rel eq) p s qs) (ho : ∀ x ∈ qs, off ≤ x) :
    ∃ g, greedyFrom eq s p off = some g ∧ List.Forall₂ (· ≤ ·) g qs := by
  induction p generalizing off qs with
  | nil => cases h.spells; exact ⟨[], rfl, .nil⟩
  | cons c p ih =>
    obtain ⟨i, qs, rfl⟩ := alignment_cons_left h
    obtain ⟨⟨x, hx, hr⟩, h2, h3⟩ := alignment_cons.mp h
    have hi := ho i (by simp)
    simp only [greedyFrom]
    cases hf : findFrom (fun x => eq c x) s off with
    | none => have := findFrom_none hf i x hi hx; simp [rel] at hr; rw [hr] at this; simp at this
    | some j =>
      obtain ⟨h4, h5, h6⟩ := findFrom_some hf
      have hji : j ≤ i := by
        by_contra hcon
        have := h6 i x hi (by omega) hx
        simp [rel] at hr; rw [hr] at this; simp at this
      obtain ⟨g, hg, hle⟩ := ih h3 (off := j + 1) (fun x hx => by have := h2 x hx; omega)
      exact ⟨j :: g, by simp [hg], .cons hji hle⟩

theorem greedyFrom_isSome {p : List Char} : (greedyFrom eq s p 0).isSome = true ↔ Subseq (rel eq) p s := by
  rw [subseq_iff]
  constructor
  · intro h
    obtain ⟨g, hg⟩ := Option.isSome_iff_exists.mp h
    exact ⟨g, (greedyFrom_align hg).1⟩
  · rintro ⟨ps, h⟩
    obtain ⟨g, hg, _⟩ := greedyFrom_least h (off := 0) (by simp)
    simp [hg]

/-! ### Greedy backward search -/

variable (eq s) in
/-- Rightmost alignment (positions listed from the last one) of a reversed pattern, ending before `e`. -/
def greedyBack : List Char → Nat → Option (List Nat)
  | [], _ => some []
  | c :: p, e =>
    match findLastIdx? (fun x => eq c x) (s.take e) with
    | none => none
    | some j => (greedyBack p j).map (j :: ·)

theorem findLastIdx?_some {p : Char → Bool} {l : List Char} {j : Nat} (h : findLastIdx? p l = some j) :
    j < l.length ∧ (∃ c, l[j]? = some c ∧ p c = true) ∧
      ∀ k c, j < k → l[k]? = some c → p c = false := by
  unfold findLastIdx? at h
  rw [Option.map_eq_some_iff] at h
  obtain ⟨i, hi, rfl⟩ := h
  rw [List.findIdx?_eq_some_iff_getElem] at hi
  obtain ⟨hlt, hp, hmin⟩ := hi
  rw [List.length_reverse] at hlt
  refine ⟨by omega, ⟨l[l.length - 1 - i], ?_, ?_⟩, ?_⟩
  · rw [List.getElem?_eq_getElem]
  · rw [List.getElem_reverse] at hp; exact hp
  · intro k c hk hc
    obtain ⟨hkl, hkc⟩ := List.getElem?_eq_some_iff.mp hc
    have := hmin (l.length - 1 - k) (by omega)
    rw [List.getElem_reverse] at this
    have h2 : l.length - 1 - (l.length - 1 - k) = k := by omega
    simp only [h2, hkc] at this
    simpa using this

theorem findLastIdx?_none {p : Char → Bool} {l : List Char} (h : findLastIdx? p l = none) :
    ∀ c ∈ l, p c = false := by
  unfold findLastIdx? at h
  rw [Option.map_eq_none_iff, List.findIdx?_eq_none_iff] at h
  intro c hc
  exact h c (by simpa using hc)

theorem greedyBack_spells {p : List Char} {e : Nat} {g : List Nat} (h : greedyBack eq s p e = some g) :
    List.Forall₂ (At (rel eq) s) p g ∧ g.Pairwise (· > ·) ∧ ∀ x ∈ g, x < e := by
  induction p generalizing e g with
  | nil => simp [greedyBack] at h; subst h; simp
  | cons c p ih =>
    simp only [greedyBack] at h
    split at h
    · simp at h
    · rename_i j hj
      rw [Option.map_eq_some_iff] at h
      obtain ⟨g', hg', rfl⟩ := h
      obtain ⟨h1, h2, h3⟩ := ih hg'
      obtain ⟨h4, ⟨x, hx, hr⟩, _⟩ := findLastIdx?_some hj
      rw [List.length_take] at h4
      rw [List.getElem?_take_of_lt (by omega)] at hx
      refine ⟨.cons ⟨x, hx, hr⟩ h1, List.pairwise_cons.mpr ⟨h3, h2⟩, ?_⟩
      intro y hy
      rcases List.mem_cons.mp hy with rfl | hy
      · omega
      · have := h3 y hy; omega

theorem greedyBack_greatest {p : List Char} {e : Nat} {qs : List Nat}
    (h : List.Forall₂ (At (rel eq) s) p qs) (hd : qs.Pairwise (· > ·)) (he : ∀ x ∈ qs, x < e) :
    ∃ g, greedyBack eq s p e = some g ∧ List.Forall₂ (· ≥ ·) g qs := by
  induction h generalizing e with
  | nil => exact ⟨[], rfl, .nil⟩
  | cons hq _ ih =>
    rename_i c i p qs _
    obtain ⟨x, hx, hr⟩ := hq
    obtain ⟨hd1, hd2⟩ := List.pairwise_cons.mp hd
    have hi := he i (by simp)
    have hx' : (s.take e)[i]? = some x := by rw [List.getElem?_take_of_lt hi, hx]
    simp only [greedyBack]
    cases hf : findLastIdx? (fun x => eq c x) (s.take e) with
    | none =>
      have := findLastIdx?_none hf x (List.mem_of_getElem? hx')
      simp [rel] at hr; rw [hr] at this; simp at this
    | some j =>
      obtain ⟨_, _, h6⟩ := findLastIdx?_some hf
      have hij : i ≤ j := by
        by_contra hcon
        have := h6 i x (by omega) hx'
        simp [rel] at hr; rw [hr] at this; simp at this
      obtain ⟨g, hg, hge⟩ := ih hd2 (e := j) (fun y hy => by have := hd1 y hy; omega)
      exact ⟨j :: g, by simp [hg], .cons hij hge⟩

end Norm
