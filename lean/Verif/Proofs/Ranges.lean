import Verif.Model.MatchedRanges
import Verif.Proofs.Res

/-! `MatchedRanges::insert`: refinement to a pure function on this call's part of the vector, and its
invariants. -/

namespace Norm

/-- Non-empty, sorted, and separated by at least one byte. -/
def Sep (l : List Range) : Prop :=
  (∀ r ∈ l, r.start < r.stop) ∧ l.Pairwise (fun a b => a.stop < b.start)

/-- Byte `b` is covered by one of the ranges. -/
def Covered (l : List Range) (b : Nat) : Prop := ∃ r ∈ l, r.start ≤ b ∧ b < r.stop

@[simp] theorem covered_nil (b : Nat) : Covered [] b ↔ False := by simp [Covered]
@[simp] theorem covered_cons (r : Range) (l : List Range) (b : Nat) :
    Covered (r :: l) b ↔ (r.start ≤ b ∧ b < r.stop) ∨ Covered l b := by simp [Covered]
@[simp] theorem covered_append (l m : List Range) (b : Nat) :
    Covered (l ++ m) b ↔ Covered l b ∨ Covered m b := by
  simp [Covered, or_and_right, exists_or]

/-- The part of the list at or after `insert`'s position when the new range starts strictly before it and
`prev` (if any) starts strictly before the new range. -/
def glueAfter (prev : Option Range) (after : List Range) (new : Range) : List Range :=
  match prev, after with
  | none, [] => [new]
  | none, first :: rest =>
    if new.stop ≥ first.start then { first with start := new.start } :: rest else new :: first :: rest
  | some prev, [] =>
    if new.start ≤ prev.stop then [{ prev with stop := max prev.stop new.stop }] else [prev, new]
  | some prev, next :: rest =>
    if new.start ≤ prev.stop then
      if new.stop ≥ next.start then { prev with stop := next.stop } :: rest
      else if new.stop > prev.stop then { prev with stop := new.stop } :: next :: rest
      else prev :: next :: rest
    else if new.stop ≥ next.start then prev :: { next with start := new.start } :: rest
    else prev :: new :: next :: rest

/-- The same when an existing range `r` has the new range's start. -/
def glueFound (r : Range) (rest : List Range) (new : Range) : List Range :=
  if r.stop ≥ new.stop then r :: rest
  else match rest with
    | next :: rest' =>
      if new.stop ≥ next.start then { r with stop := next.stop } :: rest'
      else { r with stop := new.stop } :: next :: rest'
    | [] => [{ r with stop := new.stop }]

/-- Pure version of `MatchedRanges::insert`. -/
def pinsert : List Range → Range → List Range
  | [], new => [new]
  | r :: rest, new =>
    if new.start < r.start then glueAfter none (r :: rest) new
    else if r.start = new.start then glueFound r rest new
    else match rest with
      | [] => glueAfter (some r) [] new
      | next :: rest' =>
        if new.start < next.start then glueAfter (some r) (next :: rest') new
        else r :: pinsert (next :: rest') new

theorem pinsert_append (before : List Range) (x : Range) (rest : List Range) (new : Range)
    (hb : ∀ r ∈ before, r.start < new.start) (hx : x.start ≤ new.start) :
    pinsert (before ++ x :: rest) new = before ++ pinsert (x :: rest) new := by
  induction before with
  | nil => rfl
  | cons b before ih =>
    have hb1 := hb b (by simp)
    have ih := ih (fun r hr => hb r (by simp [hr]))
    cases before with
    | nil =>
      simp only [List.cons_append, List.nil_append]
      conv_lhs => unfold pinsert
      simp only [show ¬ new.start < b.start by omega, show ¬ b.start = new.start by omega,
        show ¬ new.start < x.start by omega, if_false]
    | cons b' before =>
      have hb2 := hb b' (by simp)
      simp only [List.cons_append] at ih ⊢
      conv_lhs => unfold pinsert
      simp only [show ¬ new.start < b.start by omega, show ¬ b.start = new.start by omega,
        show ¬ new.start < b'.start by omega, if_false, ih]

theorem Sep.starts {l : List Range} (h : Sep l) : l.Pairwise (fun a b => a.start < b.start) := by
  obtain ⟨h1, h2⟩ := h
  refine h2.imp_of_mem ?_
  intro a b ha hb hab
  have := h1 a ha
  omega

/-- A sorted list splits around the position where `start` would be found or inserted. -/
theorem split_at_start (l : List Range) (h : l.Pairwise (fun a b => a.start < b.start)) (s : Nat) :
    ∃ before after, l = before ++ after ∧ (∀ r ∈ before, r.start < s) ∧ (∀ r ∈ after, s ≤ r.start) := by
  induction l with
  | nil => exact ⟨[], [], by simp⟩
  | cons r l ih =>
    obtain ⟨h1, h2⟩ := List.pairwise_cons.mp h
    by_cases hr : r.start < s
    · obtain ⟨b, a, rfl, hb, ha⟩ := ih h2
      exact ⟨r :: b, a, rfl, by simpa [hr] using hb, ha⟩
    · refine ⟨[], r :: l, rfl, by simp, ?_⟩
      intro x hx
      rcases List.mem_cons.mp hx with rfl | hx
      · omega
      · have := h1 x hx; omega

theorem binarySearch_found {before rest : List Range} {r : Range} {s : Nat}
    (hs : (before ++ r :: rest).Pairwise (fun a b => a.start < b.start)) (hb : ∀ r ∈ before, r.start < s) (hr : r.start = s) :
    binarySearchStart (before ++ r :: rest) s = .ok (.found before.length) := by
  unfold binarySearchStart
  rw [if_pos hs]
  have : (before ++ r :: rest).findIdx? (fun r => r.start == s) = some before.length := by
    rw [List.findIdx?_append, findIdx?_none]
    · simp [List.findIdx?_cons, hr]
    · intro x hx; have := hb x hx; simp; omega
  rw [this]
where
  findIdx?_none {l : List Range} {p : Range → Bool} (h : ∀ x ∈ l, p x = false) : l.findIdx? p = none := by
    rw [List.findIdx?_eq_none_iff]; exact h

theorem binarySearch_notFound {before after : List Range} {s : Nat}
    (hs : (before ++ after).Pairwise (fun a b => a.start < b.start)) (hb : ∀ r ∈ before, r.start < s) (ha : ∀ r ∈ after, s < r.start) :
    binarySearchStart (before ++ after) s = .ok (.notFound before.length) := by
  unfold binarySearchStart
  rw [if_pos hs]
  have h1 : (before ++ after).findIdx? (fun r => r.start == s) = none := by
    rw [List.findIdx?_eq_none_iff]
    intro x hx
    rcases List.mem_append.mp hx with h | h
    · have := hb x h; simp; omega
    · have := ha x h; simp; omega
  have h2 : ((before ++ after).takeWhile (fun r => decide (r.start < s))) = before := by
    rw [List.takeWhile_append_of_pos (by simpa using hb)]
    cases after with
    | nil => simp
    | cons a after =>
      have := ha a (by simp)
      rw [List.takeWhile_cons_of_neg (by simp; omega)]; simp
  rw [h1, h2]

theorem setR_append {α : Type u} (pre before rest : List α) (x y : α) :
    setR (pre ++ (before ++ x :: rest)) (pre.length + before.length) y =
      .ok (pre ++ (before ++ y :: rest)) := by
  rw [setR_of_lt (by simp), List.set_append_right _ _ (by omega)]
  simp

theorem removeR_append {α : Type u} (pre before rest : List α) (x y : α) :
    removeR (pre ++ (before ++ y :: x :: rest)) (pre.length + (before.length + 1)) =
      .ok (pre ++ (before ++ y :: rest)) := by
  have hlt : pre.length + (before.length + 1) < (pre ++ (before ++ y :: x :: rest)).length := by simp
  simp only [removeR, hlt, if_true]
  have : pre ++ (before ++ y :: x :: rest) = (pre ++ (before ++ [y])) ++ x :: rest := by simp
  have h2 : pre ++ (before ++ y :: x :: rest) = (pre ++ (before ++ [y, x])) ++ rest := by simp
  rw [this, List.take_left' (by simp), ← this, h2, List.drop_left' (by simp; omega)]; simp

theorem insertAtR_append {α : Type u} (pre before rest : List α) (x : α) :
    insertAtR (pre ++ (before ++ rest)) (pre.length + before.length) x =
      .ok (pre ++ (before ++ x :: rest)) := by
  have h : pre.length + before.length ≤ (pre ++ (before ++ rest)).length := by simp
  simp only [insertAtR, h, if_true]
  rw [← List.append_assoc, List.take_left' (by simp), List.drop_left' (by simp)]; simp

theorem getElem?_append2 {α : Type u} (pre before rest : List α) (x : α) :
    (pre ++ (before ++ x :: rest))[pre.length + before.length]? = some x := by
  rw [← List.append_assoc, List.getElem?_append_right (by simp)]; simp

theorem getElem?_append3 {α : Type u} (pre before rest : List α) (x : α) :
    (pre ++ (before ++ x :: rest))[pre.length + (before.length + 1)]? = rest.head? := by
  rw [← List.append_assoc, List.getElem?_append_right (by simp)]
  have : pre.length + (before.length + 1) - (pre ++ before).length = 1 := by simp; omega
  rw [this]; cases rest <;> simp

/-- `insert` only touches this call's part of the vector, never panics on a sorted one, and is `pinsert`. -/
theorem insert_eq (pre this : List Range) (hs : this.Pairwise (fun a b => a.start < b.start)) (new : Range) :
    MatchedRanges.insert ⟨pre ++ this, pre.length⟩ new = .ok ⟨pre ++ pinsert this new, pre.length⟩ := by
  obtain ⟨before, after, rfl, hb, ha⟩ := split_at_start this hs new.start
  have hslice : sliceFromR (pre ++ (before ++ after)) pre.length = .ok (before ++ after) := by simp
  unfold MatchedRanges.insert
  simp only [hslice, Res.bind_ok]
  by_cases hf : ∃ r rest, after = r :: rest ∧ r.start = new.start
  · -- found
    obtain ⟨r, rest, rfl, hr⟩ := hf
    rw [binarySearch_found hs hb hr, Res.bind_ok, pinsert_append before r rest new hb (by omega)]
    have hp : pinsert (r :: rest) new = glueFound r rest new := by
      unfold pinsert; simp [hr]
    rw [hp]
    simp only [MatchedRanges.getAt, getR, getElem?_append2, Res.unwrap_some, Res.bind_ok, getElem?_append3,
      glueFound]
    by_cases h1 : r.stop ≥ new.stop
    · simp [h1]
    · simp only [h1, if_false]
      cases rest with
      | nil => simp [MatchedRanges.setAt]
      | cons next rest' =>
        simp only [List.head?_cons]
        by_cases h2 : new.stop ≥ next.start
        · simp [h2, MatchedRanges.setAt, MatchedRanges.remove, removeR_append]
        · simp [h2, MatchedRanges.setAt]
  · -- not found
    have ha' : ∀ r ∈ after, new.start < r.start := by
      intro r hr
      have hle := ha r hr
      rcases Nat.lt_or_ge new.start r.start with h | h
      · exact h
      · exfalso
        cases after with
        | nil => simp at hr
        | cons x rest =>
          have hx := ha x (by simp)
          rcases List.mem_cons.mp hr with rfl | hr'
          · exact hf ⟨r, rest, rfl, by omega⟩
          · have hsa := (List.pairwise_append.mp hs).2.1
            have := (List.pairwise_cons.mp hsa).1 r hr'
            exact hf ⟨x, rest, rfl, by omega⟩
    rw [binarySearch_notFound hs hb ha', Res.bind_ok]
    rcases List.eq_nil_or_concat before with rfl | ⟨bi, prev, rfl⟩
    · -- insert at the front
      simp only [List.length_nil, beq_self_eq_true, if_true, List.nil_append, Nat.add_zero]
      cases after with
      | nil => simp [pinsert, MatchedRanges.push]
      | cons first rest =>
        have hf := ha' first (by simp)
        have hp : pinsert (first :: rest) new = glueAfter none (first :: rest) new := by
          unfold pinsert; simp [hf]
        rw [hp]
        have h1 := insertAtR_append pre [] (first :: rest) new
        simp only [List.nil_append, List.length_nil, Nat.add_zero] at h1
        by_cases h2 : new.stop ≥ first.start
        · simp [glueAfter, h2, MatchedRanges.setAt]
        · simp [glueAfter, h2, MatchedRanges.insertAt, h1]
    · rw [List.concat_eq_append] at *
      have hprev := hb prev (by simp)
      rw [show (bi ++ [prev]) ++ after = bi ++ prev :: after by simp,
        pinsert_append bi prev after new (fun r hr => hb r (by simp [hr])) (by omega)]
      have hp : pinsert (prev :: after) new = glueAfter (some prev) after new := by
        unfold pinsert
        simp only [show ¬ new.start < prev.start by omega, show ¬ prev.start = new.start by omega, if_false]
        cases after with
        | nil => rfl
        | cons next rest' => simp [ha' next (by simp)]
      rw [hp]
      have hne : ((bi ++ [prev]).length == 0) = false := by simp
      simp only [hne, Bool.false_eq_true, if_false, MatchedRanges.len]
      have hlen : (pre ++ (bi ++ prev :: after)).length - pre.length = bi.length + 1 + after.length := by
        simp; omega
      rw [subR_of_le (by simp), hlen]
      simp only [Res.bind_ok]
      cases after with
      | nil =>
        simp only [List.length_append, List.length_cons, List.length_nil, Nat.add_zero, Nat.zero_add,
          beq_self_eq_true, if_true]
        have hl : (pre ++ (bi ++ [prev])).getLast? = some prev := by
          rw [← List.append_assoc, List.getLast?_append]; simp
        have hd : (pre ++ (bi ++ [prev])).dropLast = pre ++ bi := by
          rw [← List.append_assoc, List.dropLast_concat]
        rw [hl, hd]
        simp only [Res.unwrap_some, Res.bind_ok, glueAfter]
        by_cases h : new.start ≤ prev.stop
        · simp [h]
        · simp [h, MatchedRanges.push]
      | cons next rest =>
        have hneq : ((bi ++ [prev]).length == bi.length + 1 + (next :: rest).length) = false := by
          simp
        simp only [hneq, Bool.false_eq_true, if_false]
        rw [show (bi ++ [prev]).length = bi.length + 1 by simp]
        have g1 : (pre ++ (bi ++ prev :: next :: rest))[pre.length + bi.length]? = some prev :=
          getElem?_append2 _ _ _ _
        have g2 : (pre ++ (bi ++ prev :: next :: rest))[pre.length + (bi.length + 1)]? = some next := by
          rw [getElem?_append3]; rfl
        have i1 := insertAtR_append pre (bi ++ [prev]) (next :: rest) new
        simp only [List.append_assoc, List.cons_append, List.nil_append, List.length_append, List.length_cons,
          List.length_nil, Nat.zero_add] at i1
        simp only [subR_of_le (show 1 ≤ bi.length + 1 by omega), Nat.add_sub_cancel, Res.bind_ok,
          MatchedRanges.getAt, getR, g1, g2, Res.unwrap_some, glueAfter]
        by_cases h1 : new.start ≤ prev.stop <;> by_cases h2 : new.stop ≥ next.start
        · simp [h1, h2, MatchedRanges.setAt, MatchedRanges.remove, removeR_append]
        · by_cases h3 : new.stop > prev.stop
          · simp [h1, h2, h3, MatchedRanges.setAt]
          · simp [h1, h2, h3]
        · simp [h1, h2, MatchedRanges.setAt]
        · simp [h1, h2, MatchedRanges.insertAt, i1]

/-- Starts of the result are the new start or old starts. -/
theorem pinsert_start (l : List Range) (new : Range) :
    ∀ x ∈ pinsert l new, x.start = new.start ∨ ∃ y ∈ l, x.start = y.start := by
  fun_induction pinsert l new <;> grind [glueAfter.eq_def, glueFound.eq_def]

/-- Ends of the result are the new end or old ends. -/
theorem pinsert_stop (l : List Range) (new : Range) :
    ∀ x ∈ pinsert l new, x.stop = new.stop ∨ ∃ y ∈ l, x.stop = y.stop := by
  fun_induction pinsert l new <;> grind [glueAfter.eq_def, glueFound.eq_def]

theorem sep_cons {r : Range} {l : List Range} :
    Sep (r :: l) ↔ r.start < r.stop ∧ (∀ x ∈ l, r.stop < x.start) ∧ Sep l := by
  simp only [Sep, List.mem_cons, forall_eq_or_imp, List.pairwise_cons]
  tauto

theorem sep_nil : Sep [] := by simp [Sep]

theorem sep_pinsert {l : List Range} {new : Range} (hl : Sep l) (hn : new.start < new.stop) :
    Sep (pinsert l new) := by
  fun_induction pinsert l new <;>
    grind [glueAfter.eq_def, glueFound.eq_def, sep_cons, sep_nil, pinsert_start]

theorem pinsert_sound {l : List Range} {new : Range} (hl : Sep l) {b : Nat}
    (h : Covered (pinsert l new) b) : Covered l b ∨ (new.start ≤ b ∧ b < new.stop) := by
  fun_induction pinsert l new <;>
    grind [glueAfter.eq_def, glueFound.eq_def, sep_cons, sep_nil, covered_cons, covered_nil]

theorem pinsert_mono {l : List Range} {new : Range} (hl : Sep l) {b : Nat}
    (h : Covered l b) : Covered (pinsert l new) b := by
  fun_induction pinsert l new <;>
    grind [glueAfter.eq_def, glueFound.eq_def, sep_cons, sep_nil, covered_cons, covered_nil]

theorem sep_mem {l : List Range} (h : Sep l) {r : Range} (hr : r ∈ l) : r.start < r.stop := h.1 r hr

/-- What inserting covers. -/
theorem pinsert_bound {l : List Range} {new : Range} (hl : Sep l) {b : Nat} (h : Covered (pinsert l new) b) :
    Covered l b ∨ (new.start ≤ b ∧ b < new.stop ∧ ∀ r ∈ l, new.start < r.start → b < r.stop) := by
  fun_induction pinsert l new <;>
    grind [glueAfter.eq_def, glueFound.eq_def, sep_cons, sep_nil, covered_cons, covered_nil, sep_mem]

/-- A byte of the new range is covered, unless a range that starts after the new one ends before the byte. -/
theorem pinsert_kept {l : List Range} {new : Range} (hl : Sep l) {b : Nat}
    (h1 : new.start ≤ b) (h2 : b < new.stop) (h3 : ∀ r ∈ l, new.start < r.start → b < r.stop) :
    Covered (pinsert l new) b := by
  fun_induction pinsert l new <;>
    grind [glueAfter.eq_def, glueFound.eq_def, sep_cons, sep_nil, covered_cons, covered_nil, sep_mem]

theorem pinsert_complete {l : List Range} {new : Range} (hl : Sep l)
    (hin : ∀ r ∈ l, new.start < r.start → new.stop ≤ r.stop) {b : Nat}
    (h1 : new.start ≤ b) (h2 : b < new.stop) : Covered (pinsert l new) b := by
  fun_induction pinsert l new <;>
    grind [glueAfter.eq_def, glueFound.eq_def, sep_cons, sep_nil, covered_cons, covered_nil]

end Norm
