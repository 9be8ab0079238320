import Verif.Proofs.Shortfall
import Verif.Proofs.Folding
import Verif.SpecLetters

/-! Candidates on which FzfV2 scores too much or too little, for queries of any length that are made of distinct letters. -/

namespace Norm
open Spec

variable {U : Unicode} {S : FzfScheme} {l : List Char} {st : Settings}

theorem not_upper_of_lower {c : Char} (h : classOf U S c = .lower) : isAsciiUpper c = false := by
  by_contra hu
  have hu : isAsciiUpper c = true := by simpa using hu
  simp only [isAsciiUpper, Bool.and_eq_true, decide_eq_true_eq] at hu
  unfold classOf at h
  have h1 : 'A'.toNat = 65 := rfl
  have h2 : 'Z'.toNat = 90 := rfl
  have h3 : 'a'.toNat = 97 := rfl
  have h4 : 'A'.toNat ≤ c.toNat := hu.1
  have h5 : c.toNat ≤ 'Z'.toNat := hu.2
  rw [if_pos (by omega), if_neg (by omega), if_pos ⟨h4, h5⟩] at h
  cases h

theorem space_class : classOf U S ' ' = .whiteSpace := by
  unfold classOf
  rw [if_pos (by decide), if_neg (by decide), if_neg (by decide), if_neg (by decide), if_pos (by decide)]

theorem space_plain (t : Char) : ¬ Listed ' ' t := (by decide +kernel : ∀ t, ¬ Listed ' ' t) t

namespace Spec.PlainLetters

theorem fold_eq {b : Bool} {c : Char} (h : isAsciiUpper c = false) : fold b c = c := by
  cases b with
  | true => rfl
  | false => exact lower_of_not h

/-- A letter matches itself only. -/
theorem cmp {text : List Char} (h : PlainLetters U S l) {q x : Char} (hq : q ∈ l) (hx : x ∈ ' ' :: l) :
    Cmp U st text q x ↔ q = x := by
  have h1 : isAsciiUpper x = false ∧ ∀ t, ¬ Listed x t := by
    rcases List.mem_cons.mp hx with rfl | hx
    · exact ⟨by decide, space_plain⟩
    · exact ⟨not_upper_of_lower (h.lower x hx), h.plain x hx⟩
  unfold Cmp CharMatches
  rw [fold_eq (not_upper_of_lower (h.lower q hq)), fold_eq h1.1]
  exact ⟨fun h => h.resolve_right fun ⟨_, t, ht, _⟩ => h1.2 t ht, .inl⟩

theorem space_notMem (h : PlainLetters U S l) : ' ' ∉ l := by
  intro hm
  have := h.lower _ hm
  rw [space_class] at this
  cases this

end Spec.PlainLetters

theorem posBonus_succ {s : List Char} {i : Nat} {a b : Char} (ha : s[i]? = some a) (hb : s[i + 1]? = some b) :
    posBonus U S s (i + 1) = bonus S (classOf U S a) (classOf U S b) := by
  unfold posBonus classBefore
  rw [hb, List.take_add_one, ha]
  simp

theorem getElem?_blocks {m : Nat} {f : Char → List Char} (hf : ∀ c, (f c).length = m) : ∀ (l : List Char) (j i : Nat), i < m →
    (l.flatMap f)[m * j + i]? = l[j]?.bind fun c => (f c)[i]?
  | [], j, i, _ => by simp
  | c :: l, 0, i, hi => by
    simp only [List.flatMap_cons, Nat.mul_zero, Nat.zero_add]
    rw [List.getElem?_append_left (by rw [hf]; exact hi)]
    simp
  | c :: l, j + 1, i, hi => by
    simp only [List.flatMap_cons]
    rw [List.getElem?_append_right (by rw [hf, Nat.mul_succ]; omega), hf,
      show m * (j + 1) + i - m = m * j + i by rw [Nat.mul_succ]; omega, getElem?_blocks hf l j i hi]
    simp

theorem length_blocks {m : Nat} {f : Char → List Char} (hf : ∀ c, (f c).length = m) (l : List Char) :
    (l.flatMap f).length = m * l.length := by
  induction l with
  | nil => simp
  | cons c l ih => simp only [List.flatMap_cons, List.length_append, hf, ih, List.length_cons, Nat.mul_succ]; omega

theorem nodup_index {l : List Char} (h : l.Nodup) {i j : Nat} {c : Char} (hi : l[i]? = some c) (hj : l[j]? = some c) : i = j :=
  (List.getElem?_inj (List.getElem?_eq_some_iff.mp hi).1 h).mp (hi.trans hj.symm)

/-! ### ` a b c a b c` -/

theorem twice_space {j : Nat} (hj : j < 2 * l.length) : (twice l)[2 * j]? = some ' ' := by
  have := getElem?_blocks (m := 2) (f := fun c => [' ', c]) (fun _ => rfl) (l ++ l) j 0 (by omega)
  rw [Nat.add_zero] at this
  rw [twice, this, List.getElem?_eq_getElem (by simp; omega)]
  rfl

theorem twice_letter (j : Nat) : (twice l)[2 * j + 1]? = (l ++ l)[j]? := by
  rw [twice, getElem?_blocks (m := 2) (f := fun c => [' ', c]) (fun _ => rfl) (l ++ l) j 1 (by omega)]
  cases (l ++ l)[j]? <;> rfl

theorem twice_length : (twice l).length = 4 * l.length := by
  rw [twice, length_blocks (m := 2) (fun _ => rfl)]
  simp
  omega

theorem twice_mem {x : Char} (h : x ∈ twice l) : x ∈ ' ' :: l := by
  simp only [twice, List.mem_flatMap, List.mem_append, List.mem_cons, List.not_mem_nil, or_false] at h ⊢
  obtain ⟨c, hc, rfl | rfl⟩ := h
  · exact .inl rfl
  · exact .inr (by tauto)

/-- Where the `r`-th letter is. -/
theorem twice_at (h : PlainLetters U S l) {r c : Nat} {q : Char} (hq : l[r]? = some q) :
    (twice l)[c]? = some q ↔ c = 2 * r + 1 ∨ c = 2 * (l.length + r) + 1 := by
  have hr : r < l.length := (List.getElem?_eq_some_iff.mp hq).1
  have hm : q ∈ l := List.mem_of_getElem? hq
  constructor
  · intro hc
    have hlen : c < (twice l).length := (List.getElem?_eq_some_iff.mp hc).1
    rw [twice_length] at hlen
    obtain ⟨j, rfl | rfl⟩ : ∃ j, c = 2 * j ∨ c = 2 * j + 1 := ⟨c / 2, by omega⟩
    · rw [twice_space (by omega)] at hc
      exact absurd (Option.some.inj hc ▸ hm) h.space_notMem
    · rw [twice_letter] at hc
      by_cases hj : j < l.length
      · rw [List.getElem?_append_left hj] at hc
        have := nodup_index h.nodup hc hq
        omega
      · rw [List.getElem?_append_right (by omega)] at hc
        have := nodup_index h.nodup hc hq
        omega
  · rintro (rfl | rfl)
    · rw [twice_letter, List.getElem?_append_left hr, hq]
    · rw [twice_letter, List.getElem?_append_right (by omega), Nat.add_sub_cancel_left, hq]

theorem twice_bonus (h : PlainLetters U S l) {j : Nat} (hj : j < 2 * l.length) :
    posBonus U S (twice l) (2 * j + 1) = whiteBonus S := by
  obtain ⟨c, hc⟩ : ∃ c, (l ++ l)[j]? = some c := ⟨(l ++ l)[j]'(by simp; omega), List.getElem?_eq_getElem _⟩
  have hm : c ∈ l := by have := List.mem_of_getElem? hc; simpa using this
  rw [posBonus_succ (twice_space hj) (by rw [twice_letter, hc]), space_class, h.lower c hm]
  rfl

/-! ### Grids -/

/-- Where the rows start, when every row's first match is in order. -/
theorem Spec.GridOf.first_eq {R : Char → Char → Prop} {B : Nat → Int} {p s : List Char} {G : Grid} (hG : GridOf R B p s G) {f : Nat → Nat}
    (hf : Alignment R p s ((List.range p.length).map f))
    (hmin : ∀ r q c x, p[r]? = some q → s[c]? = some x → R q x → f r ≤ c) {r : Nat} (hr : r < p.length) : G.first r = f r := by
  have h1 := hG.first.2 _ hf
  rw [List.forall₂_iff_get] at h1
  have h2 := h1.2 r (by simpa using hr) (by simpa using hr)
  simp only [List.get_eq_getElem, List.getElem_map, List.getElem_range] at h2
  have h3 := hG.first.1.spells
  rw [List.forall₂_iff_get] at h3
  obtain ⟨x, hx, hR⟩ := h3.2 r hr (by simpa using hr)
  simp only [List.get_eq_getElem, List.getElem_map, List.getElem_range] at hx hR
  have := hmin r _ _ x (List.getElem?_eq_getElem hr) hx hR
  omega

theorem alignment_of_fun {R : Char → Char → Prop} {p s : List Char} {f : Nat → Nat} (hlt : ∀ r, r + 1 < p.length → f r < f (r + 1))
    (hat : ∀ r q, p[r]? = some q → ∃ x, s[f r]? = some x ∧ R q x) : Alignment R p s ((List.range p.length).map f) := by
  have hm : ∀ d r, r + d + 1 < p.length → f r < f (r + d + 1) := by
    intro d
    induction d with
    | zero => intro r hr; exact hlt r hr
    | succ d ih =>
      intro r hr
      have := ih r (by omega)
      have := hlt (r + d + 1) (by omega)
      rw [show r + (d + 1) + 1 = r + d + 1 + 1 by omega]
      omega
  constructor
  · rw [List.pairwise_iff_getElem]
    intro i j hi hj hij
    simp only [List.getElem_map, List.getElem_range]
    simp only [List.length_map, List.length_range] at hi hj
    have := hm (j - i - 1) i (by omega)
    rwa [show i + (j - i - 1) + 1 = j by omega] at this
  · rw [List.forall₂_iff_get]
    refine ⟨by simp, fun i h1 h2 => ?_⟩
    simp only [List.get_eq_getElem, List.getElem_map, List.getElem_range]
    exact hat i _ (List.getElem?_eq_getElem h1)

theorem Spec.Grid.cell_ge (G : Grid) (c : Nat) (left : Int) (up : Int × Nat) : up.1 + 16 + G.bonus c ≤ (G.cell c left up).1 := by
  have h : G.bonus c ≤ (G.runBonus c up.2).1 := by
    unfold Grid.runBonus
    split
    · exact Int.le_refl _
    split
    · exact Int.le_refl _
    · exact Int.le_max_right _ _
  unfold Grid.cell
  split
  · exact Int.le_max_right _ _
  · show _ ≤ up.1 + 16 + _
    omega

/-! ### FzfV2 on ` a b c a b c` -/

section Twice

variable {B : Nat → Int} {text : List Char} {G : Grid}

theorem twice_align (h : PlainLetters U S l) :
    Alignment (Cmp U st text) l (twice l) ((List.range l.length).map fun r => 2 * r + 1) :=
  alignment_of_fun (fun r _ => by omega) fun r q hq =>
    ⟨q, (twice_at h hq).mpr (.inl rfl), (h.cmp (List.mem_of_getElem? hq) (by simp [List.mem_of_getElem? hq])).mpr rfl⟩

theorem twice_cmp (h : PlainLetters U S l) {r c : Nat} {q x : Char} (hq : l[r]? = some q) (hx : (twice l)[c]? = some x) :
    Cmp U st text q x ↔ c = 2 * r + 1 ∨ c = 2 * (l.length + r) + 1 := by
  rw [h.cmp (List.mem_of_getElem? hq) (twice_mem (List.mem_of_getElem? hx)), ← twice_at h hq, hx, Option.some.injEq, eq_comm]

theorem twice_first (h : PlainLetters U S l) (hG : GridOf (Cmp U st text) B l (twice l) G) {r : Nat} (hr : r < l.length) :
    G.first r = 2 * r + 1 :=
  hG.first_eq (twice_align h) (fun r q c x hq hx hR => by
    rcases (twice_cmp h hq hx).mp hR with h | h <;> omega) hr

theorem twice_last (h : PlainLetters U S l) (hG : GridOf (Cmp U st text) B l (twice l) G) : G.last = 4 * l.length - 1 := by
  obtain ⟨q, x, hq, hx, hR, hmax⟩ := hG.last
  rw [List.getLast?_eq_getElem?] at hq
  have hl : 0 < l.length := by
    have := (List.getElem?_eq_some_iff.mp hq).1
    omega
  have h1 := (twice_cmp h hq hx).mp hR
  by_contra hne
  have h2 : (twice l)[2 * (l.length + (l.length - 1)) + 1]? = some q := (twice_at h hq).mpr (.inr rfl)
  exact hmax _ q (by omega) h2 ((twice_cmp h hq h2).mpr (.inr rfl))

theorem twice_hit (h : PlainLetters U S l) (hG : GridOf (Cmp U st text) B l (twice l) G) {r c : Nat} (hr : r < l.length) :
    G.hit r c = true ↔ c = 2 * r + 1 ∨ c = 2 * (l.length + r) + 1 := by
  have hq : l[r]? = some l[r] := List.getElem?_eq_getElem hr
  rw [hG.hit, twice_first h hG hr, twice_last h hG]
  constructor
  · rintro ⟨_, _, q, x, h1, h2, h3⟩
    exact (twice_cmp h h1 h2).mp h3
  · intro hc
    have h2 : (twice l)[c]? = some l[r] := (twice_at h hq).mpr hc
    refine ⟨by omega, by omega, _, _, hq, h2, (twice_cmp h hq h2).mpr hc⟩

/-- The second round scores 15 and a bonus for every further letter: the space between two letters costs 1. -/
theorem twice_table (h : PlainLetters U S l) (hG : GridOf (Cmp U st text) (posBonus U S (twice l)) l (twice l) G) :
    ∀ r, r < l.length → 16 + 2 * whiteBonus S + (15 + whiteBonus S) * (r : Int) ≤ (G.table r (2 * (l.length + r) + 1)).1
  | 0, hr => by
    have h1 : G.hit 0 (2 * (l.length + 0) + 1) = true := (twice_hit h hG hr).mpr (.inr rfl)
    simp only [Grid.table, h1, if_true, hG.bonus]
    rw [twice_bonus h (by omega)]
    simp
  | r + 1, hr => by
    have ih := twice_table h hG r (by omega)
    have e : 2 * (l.length + (r + 1)) + 1 = 2 * (l.length + r) + 1 + 1 + 1 := by omega
    have h1 : G.hit (r + 1) (2 * (l.length + r) + 1 + 1 + 1) = true := (twice_hit h hG hr).mpr (.inr (by omega))
    have hn : ∀ c, c ≠ 2 * r + 1 → c ≠ 2 * (l.length + r) + 1 → G.hit r c = false := by
      intro c h2 h3
      rw [← Bool.not_eq_true, twice_hit h hG (by omega)]
      omega
    have h2 := hn (2 * (l.length + r) + 1 + 1) (by omega) (by omega)
    have h3 : G.hit r (2 * (l.length + r) + 1) = true := (twice_hit h hG (by omega)).mpr (.inr rfl)
    have h4 := hn (2 * (l.length + r) + 1 - 1) (by omega) (by omega)
    have hcost : G.cost r (2 * (l.length + r) + 1 + 1) = 1 := by
      unfold Grid.cost
      rw [if_neg (by simp [h2]), if_pos (by simpa using h3), if_pos (fun c _ hc => hn c (by omega) (by omega))]
      unfold Grid.reach
      rw [Nat.add_sub_cancel, if_neg]
      rintro (h5 | h5)
      · rw [twice_first h hG (by omega)] at h5
        omega
      · rw [h4] at h5; cases h5
    have h5 : (G.table r (2 * (l.length + r) + 1 + 1)).1 = (G.table r (2 * (l.length + r) + 1)).1 - 1 := by
      cases r with
      | zero =>
        rw [Grid.table, if_neg (by rw [h2]; decide), hcost]
      | succ r =>
        have := twice_first h hG (show r + 1 < l.length by omega)
        simp only [Grid.table, h2, hcost]
        rw [if_neg (by omega)]
        simp
    have h6 := twice_first h hG hr
    have h7 := G.cell_ge (2 * (l.length + r) + 1 + 1 + 1) ((G.table (r + 1) (2 * (l.length + r) + 1 + 1)).1 -
      G.cost (r + 1) (2 * (l.length + r) + 1 + 1 + 1)) (G.table r (2 * (l.length + r) + 1 + 1))
    rw [e]
    have e2 : G.table (r + 1) (2 * (l.length + r) + 1 + 1 + 1) = G.cell (2 * (l.length + r) + 1 + 1 + 1)
        ((G.table (r + 1) (2 * (l.length + r) + 1 + 1)).1 - G.cost (r + 1) (2 * (l.length + r) + 1 + 1 + 1))
        (G.table r (2 * (l.length + r) + 1 + 1)) := by
      rw [Grid.table, if_neg (by omega), if_pos h1]
    rw [e2]
    have h8 : G.bonus (2 * (l.length + r) + 1 + 1 + 1) = whiteBonus S := by
      rw [hG.bonus, ← e]
      exact twice_bonus h (by omega)
    rw [h5, h8] at h7
    push_cast
    have e3 : (15 + whiteBonus S) * ((r : Int) + 1) = (15 + whiteBonus S) * r + (15 + whiteBonus S) := by rw [Int.mul_add, Int.mul_one]
    omega

/-- No two letters are adjacent, so that every gap costs at least 3. -/
theorem spaced_le {B : Nat → Int} {W : Int} : ∀ (ps : List Nat) (prev : Nat) (run : Int), (prev :: ps).Pairwise (· < ·) →
    (∀ i ∈ prev :: ps, i % 2 = 1) → (∀ i ∈ ps, B i ≤ W) → runScore B prev run ps ≤ (13 + W) * ps.length
  | [], _, _, _, _, _ => by simp [runScore]
  | i :: ps, prev, run, h1, h2, h3 => by
    have h4 : prev < i := (List.pairwise_cons.mp h1).1 i (by simp)
    have h5 := h2 prev (by simp)
    have h6 := h2 i (by simp)
    have h7 := h3 i (by simp)
    have ih := spaced_le ps i (B i) (List.pairwise_cons.mp h1).2 (fun j hj => h2 j (by simp [List.mem_cons.mp hj]))
      (fun j hj => h3 j (by simp [hj]))
    rw [runScore, if_neg (by omega), List.length_cons]
    push_cast
    rw [Int.mul_add, Int.mul_one]
    omega

theorem twice_score (h : PlainLetters U S l) {w : List Char} (hw : ∀ c ∈ w, c ∈ l) {ps : List Nat}
    (ha : Alignment (Cmp U st text) w (twice l) ps) (h0 : w ≠ []) :
    alignScore (posBonus U S (twice l)) ps ≤ 16 + 2 * whiteBonus S + (13 + whiteBonus S) * ((w.length : Int) - 1) := by
  have hlen := ha.spells.length_eq
  have hat : ∀ i ∈ ps, i % 2 = 1 ∧ posBonus U S (twice l) i ≤ whiteBonus S := by
    intro i hi
    obtain ⟨j, hj, rfl⟩ := List.mem_iff_getElem.mp hi
    have := ha.spells
    rw [List.forall₂_iff_get] at this
    obtain ⟨x, hx, hR⟩ := this.2 j (by omega) hj
    simp only [List.get_eq_getElem] at hx hR
    obtain ⟨r, hr, hq⟩ := List.mem_iff_getElem.mp (hw _ (List.getElem_mem (show j < w.length by omega)))
    have := (twice_cmp h (List.getElem?_eq_getElem hr) hx).mp (by rw [hq]; exact hR)
    refine ⟨by omega, ?_⟩
    obtain ⟨j', hj', e⟩ : ∃ j', j' < 2 * l.length ∧ ps[j] = 2 * j' + 1 := by
      rcases this with e | e
      · exact ⟨r, by omega, e⟩
      · exact ⟨l.length + r, by omega, e⟩
    rw [e, twice_bonus h hj']
    exact Int.le_refl _
  cases ps with
  | nil => simp at hlen; exact absurd hlen h0
  | cons i ps =>
    have h1 := spaced_le (W := whiteBonus S) ps i (posBonus U S (twice l) i) ha.increasing (fun j hj => (hat j hj).1)
      (fun j hj => (hat j (by simp [hj])).2)
    have h2 := (hat i (by simp)).2
    rw [alignScore, hlen, List.length_cons]
    push_cast
    rw [Int.add_sub_cancel]
    omega

end Twice

/-! ### ` abbb ccc ` -/

/-- Where the word of the `r`-th letter starts. -/
def wordAt (k : Nat) : Nat → Nat
  | 0 => 1
  | r + 1 => 2 + (k + 2) * r

section Repeating

variable {B : Nat → Int} {text : List Char} {G : Grid} {k : Nat} {a : Char}

theorem repeating_word {r i : Nat} (hi : i ≤ k) : (repeating k (a :: l))[wordAt k (r + 1) + i]? = l[r]? := by
  rw [repeating, wordAt, show 2 + (k + 2) * r + i = (k + 2) * r + i + 1 + 1 by omega, List.getElem?_cons_succ, List.getElem?_cons_succ,
    getElem?_blocks (m := k + 2) (by simp) l r i (by omega)]
  cases l[r]? with
  | none => rfl
  | some c => simp only [Option.bind_some]; rw [List.getElem?_append_left (by simp; omega), List.getElem?_replicate, if_pos (by omega)]

theorem repeating_space {r : Nat} (hr : r < l.length) : (repeating k (a :: l))[wordAt k (r + 1) + k + 1]? = some ' ' := by
  rw [repeating, wordAt, show 2 + (k + 2) * r + k + 1 = (k + 2) * r + (k + 1) + 1 + 1 by omega, List.getElem?_cons_succ,
    List.getElem?_cons_succ, getElem?_blocks (m := k + 2) (by simp) l r (k + 1) (by omega), List.getElem?_eq_getElem hr]
  simp

theorem repeating_length : (repeating k (a :: l)).length = 2 + (k + 2) * l.length := by
  rw [repeating, List.length_cons, List.length_cons, length_blocks (m := k + 2) (by simp)]
  omega

theorem repeating_mem {x : Char} (h : x ∈ repeating k (a :: l)) : x ∈ ' ' :: a :: l := by
  simp only [repeating, List.mem_cons, List.mem_flatMap, List.mem_append, List.mem_replicate, List.not_mem_nil, or_false] at h ⊢
  rcases h with h | h | ⟨c, hc, ⟨_, rfl⟩ | rfl⟩
  · exact .inl h
  · exact .inr (.inl h)
  · exact .inr (.inr hc)
  · exact .inl rfl

/-- Where the letters are. -/
theorem repeating_at (h : PlainLetters U S (a :: l)) {r c : Nat} {q : Char} (hq : (a :: l)[r]? = some q) :
    (repeating k (a :: l))[c]? = some q ↔ wordAt k r ≤ c ∧ c ≤ wordAt k r + (if r = 0 then 0 else k) := by
  have hm : q ∈ a :: l := List.mem_of_getElem? hq
  constructor
  · intro hc
    have hlen : c < (repeating k (a :: l)).length := (List.getElem?_eq_some_iff.mp hc).1
    rw [repeating_length] at hlen
    by_cases h2 : c < 2
    · obtain rfl | rfl : c = 0 ∨ c = 1 := by omega
      · simp only [repeating, List.getElem?_cons_zero] at hc
        exact absurd (Option.some.inj hc ▸ hm) h.space_notMem
      · simp only [repeating, List.getElem?_cons_succ, List.getElem?_cons_zero] at hc
        have h0 : (a :: l)[0]? = some q := by simpa using hc
        obtain rfl := nodup_index h.nodup h0 hq
        simp [wordAt]
    · obtain ⟨j, i, rfl, hi⟩ : ∃ j i, c = wordAt k (j + 1) + i ∧ i < k + 2 :=
        ⟨(c - 2) / (k + 2), (c - 2) % (k + 2), by
          have := Nat.div_add_mod (c - 2) (k + 2)
          simp only [wordAt]
          omega, Nat.mod_lt _ (by omega)⟩
      by_cases hik : i ≤ k
      · rw [repeating_word hik] at hc
        have h0 : (a :: l)[j + 1]? = some q := by simpa using hc
        obtain rfl := nodup_index h.nodup h0 hq
        simp
        omega
      · have hj : j < l.length := by
          by_contra hj
          have := Nat.mul_le_mul_left (k + 2) (show l.length ≤ j by omega)
          simp only [wordAt] at hlen
          omega
        obtain rfl : i = k + 1 := by omega
        rw [← Nat.add_assoc, repeating_space hj] at hc
        exact absurd (Option.some.inj hc ▸ hm) h.space_notMem
  · intro ⟨h1, h2⟩
    cases r with
    | zero =>
      obtain rfl : c = 1 := by simp [wordAt] at h1 h2; omega
      simpa [repeating] using hq
    | succ r =>
      rw [if_neg (by omega)] at h2
      obtain ⟨i, rfl⟩ : ∃ i, c = wordAt k (r + 1) + i := ⟨c - wordAt k (r + 1), by omega⟩
      rw [repeating_word (by omega)]
      simpa using hq

theorem repeating_cmp (h : PlainLetters U S (a :: l)) {r c : Nat} {q x : Char} (hq : (a :: l)[r]? = some q)
    (hx : (repeating k (a :: l))[c]? = some x) :
    Cmp U st text q x ↔ wordAt k r ≤ c ∧ c ≤ wordAt k r + (if r = 0 then 0 else k) := by
  rw [h.cmp (List.mem_of_getElem? hq) (repeating_mem (List.mem_of_getElem? hx)), ← repeating_at h hq, hx, Option.some.injEq, eq_comm]

theorem wordAt_lt (r : Nat) : wordAt k r < wordAt k (r + 1) := by
  cases r with
  | zero => simp [wordAt]
  | succ r => simp only [wordAt, Nat.mul_succ]; omega

theorem wordAt_succ (r : Nat) : wordAt k (r + 2) = wordAt k (r + 1) + k + 2 := by
  simp only [wordAt, Nat.mul_succ]; omega

theorem repeating_align (h : PlainLetters U S (a :: l)) :
    Alignment (Cmp U st text) (a :: l) (repeating k (a :: l)) ((List.range (a :: l).length).map (wordAt k)) :=
  alignment_of_fun (fun r _ => wordAt_lt r) fun r q hq =>
    ⟨q, (repeating_at h hq).mpr ⟨by omega, by omega⟩,
      (h.cmp (List.mem_of_getElem? hq) (by simp only [List.mem_cons, List.mem_of_getElem? hq, or_true])).mpr rfl⟩

theorem repeating_bonus_first (h : PlainLetters U S (a :: l)) : posBonus U S (repeating k (a :: l)) 1 = whiteBonus S := by
  rw [posBonus_succ (a := ' ') (b := a) rfl rfl, space_class, h.lower a (by simp)]
  rfl

theorem repeating_bonus_next (h : PlainLetters U S (a :: l)) (hl : 0 < l.length) :
    posBonus U S (repeating k (a :: l)) (wordAt k 1) = 0 := by
  have h1 : (repeating k (a :: l))[wordAt k 1 + 0]? = l[0]? := repeating_word (by omega)
  rw [List.getElem?_eq_getElem hl] at h1
  rw [show wordAt k 1 = 1 + 1 from rfl, posBonus_succ (a := a) rfl h1, h.lower a (by simp), h.lower _ (by simp)]
  rfl

theorem repeating_bonus_start (h : PlainLetters U S (a :: l)) {r : Nat} (hr : r + 1 < l.length) :
    posBonus U S (repeating k (a :: l)) (wordAt k (r + 2)) = whiteBonus S := by
  have h1 : (repeating k (a :: l))[wordAt k (r + 1 + 1) + 0]? = l[r + 1]? := repeating_word (by omega)
  rw [List.getElem?_eq_getElem hr, wordAt_succ, Nat.add_zero] at h1
  rw [wordAt_succ, posBonus_succ (repeating_space (by omega)) h1, space_class, h.lower _ (by simp)]
  rfl

theorem repeating_bonus_rest (h : PlainLetters U S (a :: l)) {r i : Nat} (hr : r < l.length) (hi : i < k) :
    posBonus U S (repeating k (a :: l)) (wordAt k (r + 1) + i + 1) = 0 := by
  have h1 : (repeating k (a :: l))[wordAt k (r + 1) + i]? = l[r]? := repeating_word (by omega)
  have h2 : (repeating k (a :: l))[wordAt k (r + 1) + (i + 1)]? = l[r]? := repeating_word (by omega)
  rw [List.getElem?_eq_getElem hr] at h1 h2
  rw [posBonus_succ h1 h2, h.lower _ (by simp)]
  rfl

theorem repeating_first (h : PlainLetters U S (a :: l)) (hG : GridOf (Cmp U st text) B (a :: l) (repeating k (a :: l)) G)
    {r : Nat} (hr : r < (a :: l).length) : G.first r = wordAt k r :=
  hG.first_eq (repeating_align h) (fun _ _ _ _ hq hx hR => ((repeating_cmp h hq hx).mp hR).1) hr

theorem wordAt_mono {r r' : Nat} (h : r ≤ r') : wordAt k r ≤ wordAt k r' := by
  induction h with
  | refl => exact Nat.le_refl _
  | step _ ih => exact Nat.le_trans ih (Nat.le_of_lt (wordAt_lt _))

theorem repeating_last (h : PlainLetters U S (a :: l)) (hG : GridOf (Cmp U st text) B (a :: l) (repeating k (a :: l)) G)
    (hl : 0 < l.length) : wordAt k l.length + k ≤ G.last := by
  obtain ⟨q, x, hq, hx, hR, hmax⟩ := hG.last
  rw [List.getLast?_eq_getElem?, List.length_cons, Nat.add_sub_cancel] at hq
  by_contra hne
  have h2 : (repeating k (a :: l))[wordAt k l.length + k]? = some q :=
    (repeating_at h hq).mpr ⟨by omega, by rw [if_neg (by omega)]; exact Nat.le_refl _⟩
  exact hmax _ q (by omega) h2 ((h.cmp (List.mem_of_getElem? hq) (repeating_mem (List.mem_of_getElem? h2))).mpr rfl)

theorem repeating_hit (h : PlainLetters U S (a :: l)) (hG : GridOf (Cmp U st text) B (a :: l) (repeating k (a :: l)) G)
    (hl : 0 < l.length) {r c : Nat} (hr : r < (a :: l).length) :
    G.hit r c = true ↔ wordAt k r ≤ c ∧ c ≤ wordAt k r + (if r = 0 then 0 else k) := by
  have hq : (a :: l)[r]? = some (a :: l)[r] := List.getElem?_eq_getElem hr
  rw [hG.hit, repeating_first h hG hr]
  constructor
  · rintro ⟨_, _, q, x, h1, h2, h3⟩
    exact (repeating_cmp h h1 h2).mp h3
  · intro hc
    have h2 : (repeating k (a :: l))[c]? = some (a :: l)[r] := (repeating_at h hq).mpr hc
    have h3 := repeating_last h hG hl
    have h4 := wordAt_mono (k := k) (show r ≤ l.length by simp at hr; omega)
    have h5 : (if r = 0 then 0 else k) ≤ k := by split <;> omega
    exact ⟨hc.1, by omega, _, _, hq, h2, (repeating_cmp h hq h2).mpr hc⟩

theorem Spec.Grid.table_before {r c : Nat} (h : c < G.first (r + 1)) : G.table (r + 1) c = (0, 0) := by
  cases c with
  | zero => rw [Grid.table]
  | succ c => rw [Grid.table, if_pos h]

theorem Spec.Grid.table_run {r c : Nat} (h : G.hit r c = false) : (G.table r c).2 = 0 := by
  cases r with
  | zero => cases c <;> simp [Grid.table, h]
  | succ r =>
    cases c with
    | zero => simp [Grid.table]
    | succ c => rw [Grid.table]; split <;> simp [h]

theorem Spec.Grid.cell_le (c : Nat) (left : Int) (up : Int × Nat) {K : Int} (h1 : left ≤ K)
    (h2 : up.1 + 16 + (G.runBonus c up.2).1 ≤ K) : (G.cell c left up).1 ≤ K := by
  have h : G.bonus c ≤ (G.runBonus c up.2).1 := by
    unfold Grid.runBonus
    split
    · exact Int.le_refl _
    split
    · exact Int.le_refl _
    · exact Int.le_max_right _ _
  unfold Grid.cell
  split
  · exact Int.max_le.mpr ⟨h1, by omega⟩
  · exact h2

/-- A row whose matches are `k + 1` adjacent columns: every match but the first costs 3 if its score comes from the left. -/
theorem row_le {r b : Nat} {H : Int} (hk : 1 ≤ k) (hb : 1 ≤ b) (hf : G.first (r + 1) = b)
    (hhit : ∀ c, G.hit (r + 1) c = true ↔ b ≤ c ∧ c ≤ b + k) (h0 : 0 ≤ H)
    (hu : (G.table r (b - 1)).1 + 16 + (G.runBonus b (G.table r (b - 1)).2).1 ≤ H)
    (hu' : ∀ i, i < k → (G.table r (b + i)).1 + 16 + (G.runBonus (b + i + 1) (G.table r (b + i)).2).1 ≤ H - 3 * (i + 1)) :
    (∀ i, i ≤ k → (G.table (r + 1) (b + i)).1 ≤ H - 3 * i) ∧
    ∀ j, (G.table (r + 1) (b + k + 1 + j)).1 ≤ H - 3 * (k + 1) - j := by
  have hin : ∀ i, i ≤ k → (G.table (r + 1) (b + i)).1 ≤ H - 3 * i := by
    intro i
    induction i with
    | zero =>
      intro _
      obtain ⟨c, rfl⟩ : ∃ c, b = c + 1 := ⟨b - 1, by omega⟩
      have hh : G.hit (r + 1) (c + 1) = true := (hhit _).mpr ⟨by omega, by omega⟩
      rw [Nat.add_zero, Grid.table, if_neg (by omega), if_pos hh]
      refine Grid.cell_le _ _ _ ?_ ?_
      · have hc := cost_bounds (G := G) (r + 1) (c + 1)
        rw [Grid.table_before (by omega)]
        simp only
        omega
      · simpa using hu
    | succ i ih =>
      intro hi
      have hh : G.hit (r + 1) (b + i + 1) = true := (hhit _).mpr ⟨by omega, by omega⟩
      have hp : G.hit (r + 1) (b + i) = true := (hhit _).mpr ⟨by omega, by omega⟩
      rw [show b + (i + 1) = b + i + 1 by omega, Grid.table, if_neg (by omega), if_pos hh]
      refine Grid.cell_le _ _ _ ?_ ?_
      · have hc : G.cost (r + 1) (b + i + 1) = 3 := by
          unfold Grid.cost Grid.reach
          rw [if_pos hh, if_pos (.inr (by simpa using hp))]
        have := ih (by omega)
        rw [hc]
        push_cast
        omega
      · have := hu' i (by omega)
        push_cast
        exact this
  refine ⟨hin, fun j => ?_⟩
  have hno : ∀ c, b + k < c → G.hit (r + 1) c = false := by
    intro c hc
    rw [← Bool.not_eq_true, hhit]
    omega
  induction j with
  | zero =>
    have hl : G.hit (r + 1) (b + k) = true := (hhit _).mpr ⟨by omega, by omega⟩
    have hl' : G.hit (r + 1) (b + k - 1) = true := (hhit _).mpr ⟨by omega, by omega⟩
    have hc : G.cost (r + 1) (b + k + 1) = 3 := by
      unfold Grid.cost
      rw [if_neg (by rw [hno _ (by omega)]; decide), if_pos (by simpa using hl)]
      simp [Grid.reach, hl']
    rw [Nat.add_zero, Grid.table, if_neg (by omega), if_neg (by rw [hno _ (by omega)]; decide), hc]
    have := hin k (Nat.le_refl _)
    show (G.table (r + 1) (b + k)).1 - 3 ≤ _
    push_cast
    omega
  | succ j ih =>
    have hc := cost_bounds (G := G) (r + 1) (b + k + 1 + j + 1)
    rw [show b + k + 1 + (j + 1) = b + k + 1 + j + 1 by omega, Grid.table, if_neg (by omega),
      if_neg (by rw [hno _ (by omega)]; decide)]
    show (G.table (r + 1) (b + k + 1 + j)).1 - _ ≤ _
    push_cast
    omega

/-- What the `r + 1`-st letter scores at most. -/
def wordScore (W : Int) (k r : Nat) : Int := 32 + 3 * W + (13 + W - 3 * k) * r

/-- The best that the letters can have in a column. -/
theorem repeating_table (h : PlainLetters U S (a :: l)) (hk : 2 * (k : Int) ≤ whiteBonus S) (hk1 : 1 ≤ k) (hl : 0 < l.length)
    (hG : GridOf (Cmp U st text) (posBonus U S (repeating k (a :: l))) (a :: l) (repeating k (a :: l)) G) :
    (G.table 0 1).1 ≤ 16 + 2 * whiteBonus S ∧ ∀ r, r < l.length →
      (∀ i, i ≤ k → (G.table (r + 1) (wordAt k (r + 1) + i)).1 ≤ wordScore (whiteBonus S) k r - 3 * i) ∧
      ∀ j, (G.table (r + 1) (wordAt k (r + 1) + k + 1 + j)).1 ≤ wordScore (whiteBonus S) k r - 3 * (k + 1) - j := by
  have hW : 8 ≤ whiteBonus S ∧ whiteBonus S ≤ 10 := by cases S <;> decide
  have hhit : ∀ {r c : Nat}, r < (a :: l).length →
      (G.hit r c = true ↔ wordAt k r ≤ c ∧ c ≤ wordAt k r + (if r = 0 then 0 else k)) := repeating_hit h hG hl
  have hno : ∀ {r c : Nat}, r < (a :: l).length → ¬ (wordAt k r ≤ c ∧ c ≤ wordAt k r + (if r = 0 then 0 else k)) → G.hit r c = false := by
    intro r c hr hc
    rw [← Bool.not_eq_true, hhit hr]
    exact hc
  have h01 : G.hit 0 1 = true := (hhit (by simp)).mpr (by simp [wordAt])
  have t01 : G.table 0 1 = (16 + 2 * whiteBonus S, 1) := by
    rw [Grid.table, if_pos h01, hG.bonus, Nat.zero_add, repeating_bonus_first h]
  have hrow0 : ∀ j, (G.table 0 (2 + j)).1 ≤ 13 + 2 * whiteBonus S - j := by
    intro j
    induction j with
    | zero =>
      have h2 : G.hit 0 (1 + 1) = false := hno (by simp) (by simp [wordAt])
      have hc : G.cost 0 (1 + 1) = 3 := by
        unfold Grid.cost
        rw [if_neg (by rw [h2]; decide), if_pos (by simpa using h01)]
        have hf : G.first 0 = 1 := repeating_first h hG (by simp)
        simp [Grid.reach, hf]
      rw [show 2 + 0 = 1 + 1 by rfl, Grid.table, if_neg (by rw [h2]; decide), hc, t01]
      simp
      omega
    | succ j ih =>
      have h2 : G.hit 0 (2 + j + 1) = false := hno (by simp) (by simp [wordAt])
      have hc := cost_bounds (G := G) 0 (2 + j + 1)
      rw [show 2 + (j + 1) = 2 + j + 1 by omega, Grid.table, if_neg (by rw [h2]; decide)]
      push_cast
      show (G.table 0 (2 + j)).1 - _ ≤ _
      omega
  refine ⟨by rw [t01]; exact Int.le_refl _, ?_⟩
  intro r
  induction r with
  | zero =>
    intro hr
    refine row_le hk1 (by simp [wordAt]) (repeating_first h hG (by simp; omega)) (fun c => hhit (by simp; omega)) ?_ ?_ ?_
    · simp only [wordScore]
      simp
      omega
    · have hb := repeating_bonus_next (k := k) h hl
      have e : (G.runBonus (wordAt k 1) 1).1 = whiteBonus S := by
        unfold Grid.runBonus
        rw [if_neg (by omega), hG.bonus, hb, if_neg (by omega), show wordAt k 1 - 1 = 1 from rfl, repeating_bonus_first h]
        simp only
        omega
      rw [show wordAt k (0 + 1) - 1 = 1 from rfl, t01]
      simp only [wordScore]
      rw [e]
      simp
      omega
    · intro i hi
      have hz : G.hit 0 (wordAt k 1 + i) = false := hno (by simp) (by rw [if_pos rfl]; simp only [wordAt]; omega)
      have hb : G.bonus (wordAt k 1 + i + 1) = 0 := by rw [hG.bonus]; exact repeating_bonus_rest h hr (by omega)
      have := hrow0 i
      simp only [Nat.zero_add]
      rw [Grid.table_run hz]
      simp only [Grid.runBonus, if_true, hb]
      rw [show wordAt k 1 = 2 from rfl]
      simp only [wordScore]
      push_cast
      omega
  | succ r ih =>
    intro hr
    have ih := (ih (by omega)).2
    have hH : wordScore (whiteBonus S) k (r + 1) = wordScore (whiteBonus S) k r + (13 + whiteBonus S - 3 * k) := by
      simp only [wordScore]
      push_cast
      rw [Int.mul_add, Int.mul_one]
      omega
    have hH0 : 0 ≤ wordScore (whiteBonus S) k r := by
      simp only [wordScore]
      have := Int.mul_nonneg (show 0 ≤ 13 + whiteBonus S - 3 * (k : Int) by omega) (show (0 : Int) ≤ r by omega)
      omega
    have e : wordAt k (r + 1 + 1) = wordAt k (r + 1) + k + 2 := wordAt_succ r
    have hz : ∀ c, wordAt k (r + 1) + k < c → G.hit (r + 1) c = false := fun c hc =>
      hno (by simp; omega) (by rw [if_neg (by omega)]; omega)
    refine row_le hk1 (by omega) (repeating_first h hG (by simp; omega)) (fun c => hhit (by simp; omega)) (by omega) ?_ ?_
    · have hb : G.bonus (wordAt k (r + 1 + 1)) = whiteBonus S := by rw [hG.bonus]; exact repeating_bonus_start h hr
      rw [show wordAt k (r + 1 + 1) - 1 = wordAt k (r + 1) + k + 1 by omega, Grid.table_run (hz _ (by omega))]
      have := ih 0
      simp only [Grid.runBonus, if_true, hb]
      simp only [Nat.add_zero] at this
      push_cast at this
      omega
    · intro i hi
      have hb : G.bonus (wordAt k (r + 1 + 1) + i + 1) = 0 := by rw [hG.bonus]; exact repeating_bonus_rest h hr (by omega)
      have := ih (i + 1)
      rw [show wordAt k (r + 1 + 1) + i = wordAt k (r + 1) + k + 1 + (i + 1) by omega] at hb ⊢
      rw [Grid.table_run (hz _ (by omega))]
      simp only [Grid.runBonus, if_true, hb]
      push_cast at this
      omega

/-- FzfV2's score. -/
theorem repeating_best (h : PlainLetters U S (a :: l)) (hk : 2 * (k : Int) ≤ whiteBonus S) (hk1 : 1 ≤ k) (hl : 0 < l.length)
    (hG : GridOf (Cmp U st text) (posBonus U S (repeating k (a :: l))) (a :: l) (repeating k (a :: l)) G) {r c : Nat}
    (hr : r < (a :: l).length) (hc : G.hit r c = true) :
    (G.table r c).1 ≤ wordScore (whiteBonus S) k (l.length - 1) := by
  have hW : 8 ≤ whiteBonus S ∧ whiteBonus S ≤ 10 := by cases S <;> decide
  have h1 := repeating_table h hk hk1 hl hG
  have h2 := (repeating_hit h hG hl hr).mp hc
  have hmono : ∀ r, r < l.length → wordScore (whiteBonus S) k r ≤ wordScore (whiteBonus S) k (l.length - 1) := by
    intro r hr
    have := Int.mul_le_mul_of_nonneg_left (show (r : Int) ≤ ((l.length - 1 : Nat) : Int) by omega)
      (show 0 ≤ 13 + whiteBonus S - 3 * (k : Int) by omega)
    simp only [wordScore]
    omega
  cases r with
  | zero =>
    obtain rfl : c = 1 := by simp [wordAt] at h2; omega
    have h3 := hmono 0 hl
    have h4 : wordScore (whiteBonus S) k 0 = 32 + 3 * whiteBonus S := by simp [wordScore]
    omega
  | succ r =>
    simp only [List.length_cons] at hr
    rw [if_neg (by omega)] at h2
    obtain ⟨i, rfl⟩ : ∃ i, c = wordAt k (r + 1) + i := ⟨c - wordAt k (r + 1), by omega⟩
    have h3 := (h1.2 r (by omega)).1 i (by omega)
    have h4 := hmono r (by omega)
    omega

/-- What the alignment with the first letters of all words scores, after the first two. -/
theorem repeating_rest (h : PlainLetters U S (a :: l)) : ∀ (n r : Nat), r + 1 + n ≤ l.length → ∀ run,
    runScore (posBonus U S (repeating k (a :: l))) (wordAt k (r + 1)) run ((List.range n).map fun i => wordAt k (r + 2 + i)) =
      (13 + whiteBonus S - k) * n
  | 0, _, _, _ => by simp [runScore]
  | n + 1, r, hr, run => by
    have e : wordAt k (r + 1 + 1) = wordAt k (r + 1) + k + 2 := wordAt_succ r
    have ih := repeating_rest h n (r + 1) (by omega) (whiteBonus S)
    rw [List.range_succ_eq_map, List.map_cons, List.map_map, show wordAt k (r + 2 + 0) = wordAt k (r + 1 + 1) from rfl, runScore,
      if_neg (by omega),
      repeating_bonus_start h (by omega)]
    have e2 : ((fun i => wordAt k (r + 2 + i)) ∘ Nat.succ) = fun i => wordAt k (r + 1 + 2 + i) := by
      funext i
      simp only [Function.comp]
      congr 1
      omega
    rw [e2, ih]
    push_cast
    rw [Int.mul_add, Int.mul_one]
    omega

theorem repeating_score (h : PlainLetters U S (a :: l)) (hl : 0 < l.length) :
    alignScore (posBonus U S (repeating k (a :: l))) ((List.range (a :: l).length).map (wordAt k)) =
      32 + 3 * whiteBonus S + (13 + whiteBonus S - k) * ((l.length : Int) - 1) := by
  have hW : 8 ≤ whiteBonus S := by cases S <;> decide
  obtain ⟨n, hn⟩ : ∃ n, l.length = n + 1 := ⟨l.length - 1, by omega⟩
  have h1 := repeating_rest (k := k) h n 0 (by omega) (whiteBonus S)
  have e2 : ((wordAt k ∘ Nat.succ) ∘ Nat.succ) = fun i => wordAt k (0 + 2 + i) := by
    funext i
    simp only [Function.comp]
    congr 1
    omega
  rw [List.length_cons, List.range_succ_eq_map, List.map_cons, List.map_map, hn, List.range_succ_eq_map, List.map_cons, List.map_map,
    alignScore, runScore, if_pos (by simp [wordAt]), show (wordAt k ∘ Nat.succ) 0 = wordAt k 1 from rfl, repeating_bonus_next h hl,
    show wordAt k 0 = 1 from rfl, repeating_bonus_first h, if_neg (by omega), e2]
  rw [Nat.zero_add] at h1
  simp only [h1]
  push_cast
  rw [Int.add_sub_cancel]
  omega

/-- FzfV1 aligns the letters with the first letters of the words. -/
theorem repeating_v1 {eq : CharEq} (hR : rel eq = Cmp U st text) (h : PlainLetters U S (a :: l)) {g : List Nat}
    (hg : v1Align eq (repeating k (a :: l)) (a :: l) = some g) : g = (List.range (a :: l).length).map (wordAt k) := by
  obtain ⟨i, j, h1, h2, _, h3, _⟩ := v1Align_some (by simp) hg
  rw [hR] at h3
  have hlen := h3.spells.length_eq
  have hsp := h3.spells
  rw [List.forall₂_iff_get] at hsp
  have hat : ∀ r (hr : r < g.length), wordAt k r ≤ g[r] := by
    intro r hr
    obtain ⟨x, hx, hxR⟩ := hsp.2 r (by omega) hr
    exact ((repeating_cmp h (List.getElem?_eq_getElem (by omega)) hx).mp hxR).1
  have hi : i = 1 := by
    obtain ⟨x, hx, hxR⟩ := hsp.2 0 (by simp) (by rw [← hlen]; simp)
    have := (repeating_cmp h (List.getElem?_eq_getElem (by simp)) hx).mp hxR
    rw [List.head?_eq_getElem?] at h2
    obtain ⟨_, h4⟩ := List.getElem?_eq_some_iff.mp h2
    simp only [wordAt, if_true, List.get_eq_getElem] at this
    omega
  subst hi
  obtain ⟨g', hg', hle⟩ := greedyFrom_least (eq := eq) (off := 1) (hR ▸ repeating_align (k := k) (st := st) (text := text) h) (by
    intro x hx
    obtain ⟨r, _, rfl⟩ := List.mem_map.mp hx
    exact wordAt_mono (r := 0) (Nat.zero_le _))
  rw [h1] at hg'
  obtain rfl := Option.some.inj hg'
  rw [List.forall₂_iff_get] at hle
  refine List.ext_getElem (by simpa using hle.1) fun r hr hr' => ?_
  have h4 := hle.2 r hr hr'
  have h5 := hat r hr
  simp only [List.get_eq_getElem, List.getElem_map, List.getElem_range] at h4 ⊢
  omega

end Repeating

end Norm
