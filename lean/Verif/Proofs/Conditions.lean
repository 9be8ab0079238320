import Verif.Proofs.Grammar
import Verif.SpecGrammar

/-!
# The parser's grouping satisfies its declarative description, which determines it -/

namespace Norm

open Spec

variable {U : Unicode}

theorem conditions_collapse (cs : List (List Pattern)) : conditions (collapse cs) = cs := by
  unfold collapse
  split
  · split <;> rfl
  · rfl

theorem patterns_eq (q : FzfQuery) : patterns q = (conditions q).flatten := by
  cases q <;> simp [patterns, conditions]

theorem tokenizes (ws : List (List Char)) : Tokenizes U ws (tokens U ws) := by
  refine ⟨_, rfl, rfl, fun w hw => ?_⟩
  refine ⟨_, _, _, _, decorates_exists w, ?_⟩
  rw [if_neg hw, wordPattern_of_decorates (decorates_exists w)]
  split <;> rfl

theorem pats_append (x y : List Token) : pats (x ++ y) = pats x ++ pats y := List.filterMap_append ..

theorem groups_pats (ts : List Token) : (groups ts).flatten = pats ts := groups_flatten ts

theorem grouped (ts : List Token) : Grouped ts (groups ts) where
  order := groups_flatten ts
  nonempty c hc := (groups_mem c hc).1
  split x p p' y h := by
    subst h
    refine ⟨_, _, groups_split x p p' y, ?_, ?_⟩
    · rw [groups_pats]; exact pats_append x [.pat p]
    · rw [groups_pats]; rfl
  join x p k p' y h := by
    subst h
    obtain ⟨G, g, g', G', h1, h2, h3⟩ := groups_join x p p' k y
    refine ⟨G, g, g', G', h3, ?_, ?_⟩
    · have := groups_pats (x ++ [.pat p])
      have h4 : pats (x ++ [.pat p]) = pats x ++ [p] := pats_append x [.pat p]
      rw [h1, h4] at this
      simpa [← List.append_assoc] using this
    · have := groups_pats (.pat p' :: y)
      have h4 : pats (.pat p' :: y) = p' :: pats y := rfl
      rw [h2, h4] at this
      simpa using this

theorem flatten_nil {cs : List (List Pattern)} (h : cs.flatten = []) (hn : ∀ c ∈ cs, c ≠ []) : cs = [] := by
  cases cs with
  | nil => rfl
  | cons c cs =>
    simp only [List.flatten_cons, List.append_eq_nil_iff] at h
    exact absurd h.1 (hn c (by simp))

theorem flatten_single {cs : List (List Pattern)} {p : Pattern} (h : cs.flatten = [p]) (hn : ∀ c ∈ cs, c ≠ []) :
    cs = [[p]] := by
  cases cs with
  | nil => simp at h
  | cons c cs =>
    cases c with
    | nil => exact absurd rfl (hn [] (by simp))
    | cons x c =>
      simp only [List.flatten_cons, List.cons_append, List.cons.injEq, List.append_eq_nil_iff] at h
      obtain ⟨rfl, rfl, h⟩ := h
      rw [flatten_nil h (fun c hc => hn c (by simp [hc]))]

theorem pats_span (ts : List Token) : pats ts = [] ∨ ∃ k p y, ts = List.replicate k .bar ++ .pat p :: y := by
  induction ts with
  | nil => exact Or.inl rfl
  | cons t ts ih =>
    cases t with
    | pat p => exact Or.inr ⟨0, p, ts, rfl⟩
    | bar =>
      rcases ih with h | ⟨k, p, y, rfl⟩
      · exact Or.inl h
      · exact Or.inr ⟨k + 1, p, y, rfl⟩

theorem pats_bars (k : Nat) (y : List Token) : pats (List.replicate k .bar ++ y) = pats y := by
  induction k with
  | zero => rfl
  | succ k ih => exact ih

/-- A first condition of one pattern can be removed. -/
theorem Spec.Grouped.tail {p : Pattern} {ts : List Token} {cs : List (List Pattern)} (h : Grouped (.pat p :: ts) ([p] :: cs)) :
    Grouped ts cs where
  order := by
    have h1 : _ = p :: pats ts := h.order
    simpa using h1
  nonempty c hc := h.nonempty c (by simp [hc])
  split x a b y hx := by
    obtain ⟨G, G', h1, h2, h3⟩ := h.split (.pat p :: x) a b y (by rw [hx]; rfl)
    cases G with
    | nil => simp at h2
    | cons c G =>
      obtain ⟨rfl, rfl⟩ := List.cons.inj h1
      refine ⟨G, G', rfl, ?_, h3⟩
      have h2 : _ = p :: pats x ++ [a] := h2
      simpa using h2
  join x a k b y hx := by
    obtain ⟨G, g, g', G', h1, h2, h3⟩ := h.join (.pat p :: x) a k b y (by rw [hx]; rfl)
    cases G with
    | nil =>
      obtain ⟨h1, -⟩ := List.cons.inj h1
      have := congrArg List.length h1
      simp at this
      omega
    | cons c G =>
      obtain ⟨rfl, rfl⟩ := List.cons.inj h1
      refine ⟨G, g, g', G', rfl, ?_, h3⟩
      have h2 : _ = p :: pats x := h2
      simpa using h2

/-- The first pattern of a longer first condition can be removed. -/
theorem Spec.Grouped.tail' {p p' : Pattern} {ts : List Token} {g : List Pattern} {cs : List (List Pattern)}
    (h : Grouped (.pat p :: ts) ((p :: p' :: g) :: cs)) : Grouped ts ((p' :: g) :: cs) where
  order := by
    have h1 : _ = p :: pats ts := h.order
    simpa using h1
  nonempty c hc := by
    rcases List.mem_cons.mp hc with rfl | hc
    · simp
    · exact h.nonempty c (by simp [hc])
  split x a b y hx := by
    obtain ⟨G, G', h1, h2, h3⟩ := h.split (.pat p :: x) a b y (by rw [hx]; rfl)
    cases G with
    | nil => simp at h2
    | cons c G =>
      obtain ⟨rfl, rfl⟩ := List.cons.inj h1
      refine ⟨(p' :: g) :: G, G', rfl, ?_, h3⟩
      have h2 : _ = p :: pats x ++ [a] := h2
      simpa using h2
  join x a k b y hx := by
    obtain ⟨G, g1, g', G', h1, h2, h3⟩ := h.join (.pat p :: x) a k b y (by rw [hx]; rfl)
    have h2 : _ = p :: pats x := h2
    cases G with
    | nil =>
      simp only [List.flatten_nil, List.nil_append] at h2
      subst h2
      simp only [List.nil_append, List.cons_append, List.cons.injEq, true_and] at h1
      exact ⟨[], pats x, g', G', by simp [h1.1, h1.2], by simp, h3⟩
    | cons c G =>
      obtain ⟨rfl, rfl⟩ := List.cons.inj h1
      refine ⟨(p' :: g) :: G, g1, g', G', rfl, ?_, h3⟩
      simpa using h2

/-- The tokens determine the conditions. -/
theorem Spec.Grouped.unique {ts : List Token} {cs cs' : List (List Pattern)} (h : Grouped ts cs) (h' : Grouped ts cs') :
    cs = cs' := by
  induction ts generalizing cs cs' with
  | nil => rw [flatten_nil h.order h.nonempty, flatten_nil h'.order h'.nonempty]
  | cons t ts ih =>
    cases t with
    | bar =>
      have key : ∀ {cs}, Grouped (.bar :: ts) cs → Grouped ts cs := fun {cs} h =>
        ⟨h.order, h.nonempty, fun x p p' y hx => h.split (.bar :: x) p p' y (by rw [hx]; rfl),
          fun x p k p' y hx => h.join (.bar :: x) p k p' y (by rw [hx]; rfl)⟩
      exact ih (key h) (key h')
    | pat p =>
      rcases pats_span ts with hn | ⟨k, p', y, hts⟩
      · have key : ∀ {cs}, Grouped (.pat p :: ts) cs → cs = [[p]] := by
          intro cs h
          have h1 : _ = p :: pats ts := h.order
          rw [hn] at h1
          exact flatten_single h1 h.nonempty
        rw [key h, key h']
      · cases k with
        | zero =>
          have key : ∀ {cs}, Grouped (.pat p :: ts) cs → ∃ cs₀, cs = [p] :: cs₀ := by
            intro cs h
            obtain ⟨G, G', h1, h2, -⟩ := h.split [] p p' y (by rw [hts]; rfl)
            have h2 : G.flatten = [p] := h2
            have := flatten_single h2 (fun c hc => h.nonempty c (by rw [h1]; simp [hc]))
            exact ⟨G', by rw [h1, this]; rfl⟩
          obtain ⟨c₀, rfl⟩ := key h
          obtain ⟨c₁, rfl⟩ := key h'
          rw [ih h.tail h'.tail]
        | succ k =>
          have key : ∀ {cs}, Grouped (.pat p :: ts) cs → ∃ g cs₀, cs = (p :: p' :: g) :: cs₀ := by
            intro cs h
            obtain ⟨G, g, g', G', h1, h2, -⟩ := h.join [] p k p' y (by rw [hts]; rfl)
            have h2 : G.flatten ++ g = [] := h2
            rw [List.append_eq_nil_iff] at h2
            have := flatten_nil h2.1 (fun c hc => h.nonempty c (by rw [h1]; simp [hc]))
            exact ⟨g', G', by rw [h1, this, h2.2]; rfl⟩
          obtain ⟨g₀, c₀, rfl⟩ := key h
          obtain ⟨g₁, c₁, rfl⟩ := key h'
          have := ih h.tail' h'.tail'
          simp only [List.cons.injEq, true_and] at this
          rw [this.1, this.2]

theorem escape_append (x y : List Char) : escape (x ++ y) = escape x ++ escape y := List.flatMap_append ..

end Norm
