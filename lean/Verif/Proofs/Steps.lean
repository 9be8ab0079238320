import Verif.Proofs.Timed
import Verif.Proofs.Sizes

/-! How many steps the functions that count them take. -/

namespace Norm

namespace Timed

@[simp] theorem steps_pure {α : Type} (a : α) : (pure a : Timed α).steps = 0 := rfl
@[simp] theorem steps_tick (n : Nat) : (tick n).steps = n := rfl
@[simp] theorem steps_free {α : Type} (r : Res α) : (free r).steps = 0 := rfl
@[simp] theorem steps_get {α : Type} (l : List α) (i : Nat) : (get l i).steps = 1 := rfl
@[simp] theorem steps_set {α : Type} (l : List α) (i : Nat) (a : α) : (set l i a).steps = 1 := rfl
@[simp] theorem steps_char (c : Candidate) (i : Nat) : (char c i).steps = 1 := rfl

theorem steps_bind_ok {α β : Type} {x : Timed α} {f : α → Timed β} {a : α} (h : x.res = .ok a) :
    (x >>= f).steps = x.steps + (f a).steps := by
  show (Timed.bind x f).steps = _
  simp only [Timed.bind, h]

theorem steps_bind_panic {α β : Type} {x : Timed α} {f : α → Timed β} (h : x.res = .panic) :
    (x >>= f).steps = x.steps := by
  show (Timed.bind x f).steps = _
  simp only [Timed.bind, h]

@[simp] theorem steps_tick_bind {β : Type} (n : Nat) (f : Unit → Timed β) : (tick n >>= f).steps = n + (f ()).steps := rfl

@[simp] theorem steps_pure_bind {α β : Type} (a : α) (f : α → Timed β) : ((pure a : Timed α) >>= f).steps = (f a).steps := by
  rw [steps_bind_ok (res_pure a)]; simp

/-- Sequencing, when the bound of the second part depends on the result of the first. -/
theorem bind_le_of {α β : Type} {x : Timed α} {f : α → Timed β} {b : Nat} (h0 : x.steps ≤ b)
    (h : ∀ v, x.res = .ok v → x.steps + (f v).steps ≤ b) : (x >>= f).steps ≤ b := by
  cases hx : x.res with
  | panic => rwa [steps_bind_panic hx]
  | ok v => rw [steps_bind_ok hx]; exact h v hx

theorem bind_le {α β : Type} {x : Timed α} {f : α → Timed β} {a b c : Nat} (hx : x.steps ≤ a)
    (hf : ∀ v, x.res = .ok v → (f v).steps ≤ b) (hc : a + b ≤ c) : (x >>= f).steps ≤ c :=
  bind_le_of (by omega) fun v hv => by have := hf v hv; omega

theorem free_le {α β : Type} {r : Res α} {f : α → Timed β} {b : Nat} (hf : ∀ v, r = .ok v → (f v).steps ≤ b) :
    (free r >>= f).steps ≤ b :=
  bind_le (a := 0) (Nat.le_refl _) hf (by omega)

theorem ite_le {α : Type} {p : Prop} [Decidable p] {x y : Timed α} {b : Nat} (hx : p → x.steps ≤ b) (hy : ¬ p → y.steps ≤ b) :
    (if p then x else y).steps ≤ b := by
  split
  · exact hx ‹_›
  · exact hy ‹_›

theorem grow_le {α : Type} (l : List α) (n : Nat) (a : α) : (grow l n a).steps ≤ n := by
  unfold grow
  exact ite_le (fun _ => Nat.le_refl _) (fun _ => Nat.zero_le _)

theorem steps_grow {α : Type} (l : List α) (n : Nat) (a : α) : (grow l n a).steps = if n > l.length then n else 0 := by
  unfold grow; split <;> rfl

theorem findIdx_some {α : Type} {p : α → Bool} : ∀ {l : List α} {i : Nat}, l.findIdx? p = some i → (findIdx p l).steps = i + 1 := by
  intro l
  induction l with
  | nil => intro i h; cases h
  | cons a l ih =>
    intro i h
    rw [List.findIdx?_cons] at h
    unfold findIdx
    cases hp : p a with
    | true =>
      rw [hp] at h
      simp only [if_true, Option.some.injEq] at h
      simp [← h]
    | false =>
      rw [hp] at h
      simp only [Bool.false_eq_true, if_false, Option.map_eq_some_iff] at h
      obtain ⟨j, hj, rfl⟩ := h
      simp only [steps_tick_bind, Bool.false_eq_true, if_false]
      rw [steps_bind_ok (res_findIdx p l), ih hj, steps_pure]
      omega

theorem findIdx_none {α : Type} {p : α → Bool} : ∀ {l : List α}, l.findIdx? p = none → (findIdx p l).steps = l.length := by
  intro l
  induction l with
  | nil => intro _; rfl
  | cons a l ih =>
    intro h
    rw [List.findIdx?_cons] at h
    unfold findIdx
    cases hp : p a with
    | true => rw [hp] at h; cases h
    | false =>
      rw [hp] at h
      simp only [Bool.false_eq_true, if_false, Option.map_eq_none_iff] at h
      simp only [steps_tick_bind, Bool.false_eq_true, if_false]
      rw [steps_bind_ok (res_findIdx p l), ih h, steps_pure, List.length_cons]
      omega

theorem findIdx_le {α : Type} (p : α → Bool) (l : List α) : (findIdx p l).steps ≤ l.length := by
  cases h : l.findIdx? p with
  | none => exact Nat.le_of_eq (findIdx_none h)
  | some i => rw [findIdx_some h]; exact (List.findIdx?_eq_some_iff_getElem.mp h).1

theorem steps_findLastIdx {α : Type} (p : α → Bool) (l : List α) :
    (findLastIdx p l).steps = (findIdx p l.reverse).steps := by
  unfold findLastIdx
  rw [steps_bind_ok (res_findIdx p _)]; rfl

theorem findLastIdx_le {α : Type} (p : α → Bool) (l : List α) : (findLastIdx p l).steps ≤ l.length := by
  rw [steps_findLastIdx]
  have := findIdx_le p l.reverse
  rwa [List.length_reverse] at this

theorem findLastIdx_some {α : Type} {p : α → Bool} {l : List α} {o : Nat} (h : findLastIdx? p l = some o) :
    o < l.length ∧ (findLastIdx p l).steps = l.length - o := by
  unfold findLastIdx? at h
  cases hi : l.reverse.findIdx? p with
  | none => rw [hi] at h; cases h
  | some i =>
    have := (List.findIdx?_eq_some_iff_getElem.mp hi).1
    rw [hi] at h
    simp only [Option.map_some, Option.some.injEq] at h
    rw [List.length_reverse] at this
    rw [steps_findLastIdx, findIdx_some hi]
    omega

theorem steps_allIdxFrom {α : Type} (p : α → Bool) (l : List α) (off : Nat) : (allIdxFrom p l off).steps = l.length := by
  induction l generalizing off with
  | nil => rfl
  | cons a l ih =>
    simp only [allIdxFrom, steps_tick_bind]
    rw [steps_bind_ok (res_allIdxFrom p l _), ih]
    simp; omega

theorem countWhile_le {α : Type} (p : α → Bool) (l : List α) : (countWhile p l).steps ≤ l.length := by
  induction l with
  | nil => exact Nat.le_refl _
  | cons a l ih =>
    simp only [countWhile, steps_tick_bind, List.length_cons]
    have : (if p a = true then (do let n ← countWhile p l; pure (n + 1)) else (pure 0 : Timed Nat)).steps ≤ l.length :=
      ite_le (fun _ => bind_le ih (fun _ _ => Nat.le_refl 0) (by omega)) (fun _ => Nat.zero_le _)
    omega

theorem unicodeMatchesCollect_le (fuel : Nat) : ∀ (it : UnicodeMatches),
    (unicodeMatchesCollect fuel it).steps ≤ it.haystack.length := by
  induction fuel with
  | zero => intro it; exact Nat.zero_le _
  | succ fuel ih =>
    intro it
    unfold unicodeMatchesCollect
    have hr := res_findIdx (fun ch => it.eq it.needle ch) it.haystack
    cases h : it.haystack.findIdx? (fun ch => it.eq it.needle ch) with
    | none =>
      rw [h] at hr
      have hn : (unicodeMatchesNext it).res = .ok none := by
        unfold unicodeMatchesNext
        rw [res_bind, hr]; rfl
      have hs : (unicodeMatchesNext it).steps = it.haystack.length := by
        unfold unicodeMatchesNext
        rw [steps_bind_ok hr, findIdx_none h]; rfl
      rw [steps_bind_ok hn, hs]
      exact Nat.le_refl _
    | some i =>
      have hi := (List.findIdx?_eq_some_iff_getElem.mp h).1
      rw [h] at hr
      have hd : sliceFromR it.haystack (i + 1) = .ok (it.haystack.drop (i + 1)) := by
        unfold sliceFromR; rw [if_pos (show i + 1 ≤ it.haystack.length by omega)]
      have hn : (unicodeMatchesNext it).res =
          .ok (some (it.offset + i, { it with haystack := it.haystack.drop (i + 1), offset := it.offset + i + 1 })) := by
        unfold unicodeMatchesNext
        rw [res_bind, hr, Res.bind_ok]
        simp [hd]
      have hs : (unicodeMatchesNext it).steps = i + 1 := by
        unfold unicodeMatchesNext
        rw [steps_bind_ok hr, findIdx_some h, steps_bind_ok (by rw [res_free, hd])]
        rfl
      rw [steps_bind_ok hn, hs]
      have := ih { it with haystack := it.haystack.drop (i + 1), offset := it.offset + i + 1 }
      rw [List.length_drop] at this
      refine Nat.le_trans (Nat.add_le_add_left (bind_le this (fun _ _ => Nat.le_refl 0) (Nat.le_refl _)) _) ?_
      omega

end Timed

open Timed

/-! ### Searching the candidate -/

theorem sliceFromR_len {α : Type} (l : List α) (a : Nat) : OkAll (fun l' => a ≤ l.length ∧ l'.length = l.length - a) (sliceFromR l a) := by
  intro v hv
  unfold sliceFromR at hv
  split at hv
  · cases hv; exact ⟨by assumption, by simp⟩
  · cases hv

/-- Searching forwards: the characters up to the one found are looked at. -/
theorem findFirstFrom_steps (c : Candidate) (off : Nat) (ch : Char) (s : Bool) (eq : CharEq) :
    (findFirstFrom c off ch s eq).steps ≤ c.charLen - off ∧
    OkAll (fun r => ∀ o, r = some o → off ≤ o ∧ o < c.charLen ∧ (findFirstFrom c off ch s eq).steps ≤ o - off + 1)
      (c.findFirstFrom off ch s eq) := by
  have key : ∀ {α : Type} (p : α → Bool) (l : List α),
      (free (sliceFromR l off) >>= fun slice => findIdx p slice >>= fun i =>
        (pure (i.map (fun o => o + off)) : Timed (Option Nat))).steps ≤ l.length - off ∧
      OkAll (fun r => ∀ o, r = some o → off ≤ o ∧ o < l.length ∧
        (free (sliceFromR l off) >>= fun slice => findIdx p slice >>= fun i =>
          (pure (i.map (fun o => o + off)) : Timed (Option Nat))).steps ≤ o - off + 1)
        (sliceFromR l off >>= fun slice => (pure ((slice.findIdx? p).map (fun o => o + off)) : Res (Option Nat))) := by
    intro α p l
    constructor
    · refine free_le fun v hv => ?_
      have := (sliceFromR_len l off v hv).2
      exact bind_le (findIdx_le p v) (fun _ _ => Nat.le_refl 0) (by omega)
    · intro r hr o ho
      subst ho
      obtain ⟨v, hv, hr⟩ := Res.bind_eq_ok.mp hr
      have hl := sliceFromR_len l off v hv
      simp only [Res.pure_def, Res.ok.injEq, Option.map_eq_some_iff] at hr
      obtain ⟨i, hi, rfl⟩ := hr
      have := (List.findIdx?_eq_some_iff_getElem.mp hi).1
      refine ⟨by omega, by omega, ?_⟩
      refine free_le fun v' hv' => ?_
      rw [hv] at hv'
      cases hv'
      refine bind_le (a := i + 1) ?_ (fun _ _ => Nat.le_refl 0) (by omega)
      rw [findIdx_some hi]; exact Nat.le_refl _
  cases c with
  | ascii bs =>
    unfold findFirstFrom Candidate.findFirstFrom
    dsimp only
    cases isAscii ch with
    | false => exact ⟨Nat.zero_le _, .ok (fun _ h => nomatch h)⟩
    | true => exact key _ bs
  | unicode cs => exact key _ cs

theorem findLast_steps (c : Candidate) (ch : Char) (s : Bool) (eq : CharEq) :
    (findLast c ch s eq).steps ≤ c.charLen := by
  cases c with
  | ascii bs => exact ite_le (fun _ => findLastIdx_le _ _) (fun _ => Nat.zero_le _)
  | unicode cs => exact findLastIdx_le _ _

/-- Searching backwards from `e`. -/
theorem findLastFrom_steps (c : Candidate) (e : Nat) (ch : Char) (s : Bool) (eq : CharEq) :
    (findLastFrom c e ch s eq).steps ≤ e ∧
    OkAll (fun r => ∀ o, r = some o → o < e ∧ (findLastFrom c e ch s eq).steps ≤ e - o)
      (c.findLastFrom e ch s eq) := by
  have key : ∀ {α : Type} (p : α → Bool) (l : List α),
      (free (sliceToR l e) >>= fun slice => findLastIdx p slice).steps ≤ e ∧
      OkAll (fun r => ∀ o, r = some o → o < e ∧ (free (sliceToR l e) >>= fun slice => findLastIdx p slice).steps ≤ e - o)
        (sliceToR l e >>= fun slice => (pure (findLastIdx? p slice) : Res (Option Nat))) := by
    intro α p l
    constructor
    · refine free_le fun v hv => ?_
      have := (sliceToR_len l e v hv).1
      have := findLastIdx_le p v
      omega
    · intro r hr o ho
      subst ho
      obtain ⟨v, hv, hr⟩ := Res.bind_eq_ok.mp hr
      have hl := sliceToR_len l e v hv
      simp only [Res.pure_def, Res.ok.injEq] at hr
      have := findLastIdx_some hr
      refine ⟨by omega, ?_⟩
      refine free_le fun v' hv' => ?_
      rw [hv] at hv'
      cases hv'
      omega
  cases c with
  | ascii bs =>
    unfold findLastFrom Candidate.findLastFrom
    dsimp only
    cases isAscii ch with
    | false => exact ⟨Nat.zero_le _, .ok (fun _ h => nomatch h)⟩
    | true => exact key _ bs
  | unicode cs => exact key _ cs

theorem leadingSpaces_steps (c : Candidate) : (leadingSpaces c).steps ≤ c.charLen := by
  cases c <;> exact countWhile_le _ _

theorem trailingSpaces_steps (c : Candidate) : (trailingSpaces c).steps ≤ c.charLen := by
  cases c
  · refine Nat.le_trans (countWhile_le _ _) ?_; rw [List.length_reverse]; exact Nat.le_refl _
  · refine Nat.le_trans (countWhile_le _ _) ?_; rw [List.length_reverse]; exact Nat.le_refl _

theorem matchesAscii_steps (ch : Char) (l : List UInt8) (s : Bool) (off : Nat) : (matchesAscii ch l s off).steps ≤ l.length := by
  unfold matchesAscii
  refine ite_le (fun _ => ?_) (fun _ => ?_)
  · exact Nat.le_trans (unicodeMatchesCollect_le _ _) (Nat.zero_le _)
  · exact bind_le (Nat.le_of_eq (steps_allIdxFrom _ _ _)) (fun _ _ => Nat.le_refl 0) (Nat.le_refl _)

theorem matchesUnicode_steps (ch : Char) (l : List Char) (eq : CharEq) (off : Nat) :
    (matchesUnicode ch l eq off).steps ≤ l.length :=
  bind_le (unicodeMatchesCollect_le _ _) (fun _ _ => Nat.le_refl 0) (Nat.le_refl _)

theorem matches_steps (c : Candidate) (ch : Char) (s : Bool) (eq : CharEq) :
    (Timed.«matches» c ch s eq).steps ≤ c.charLen := by
  cases c
  · exact matchesAscii_steps ..
  · exact matchesUnicode_steps ..

theorem matchesFrom_steps (c : Candidate) (off : Nat) (ch : Char) (s : Bool) (eq : CharEq) :
    (matchesFrom c off ch s eq).steps ≤ c.charLen - off := by
  cases c with
  | ascii bs =>
    refine free_le fun v hv => ?_
    have := (sliceFromR_len bs off v hv).2
    exact Nat.le_trans (matchesAscii_steps ..) (Nat.le_of_eq this)
  | unicode cs =>
    refine free_le fun v hv => ?_
    have := (sliceFromR_len cs off v hv).2
    exact Nat.le_trans (matchesUnicode_steps ..) (Nat.le_of_eq this)

theorem toByteOffset_steps (c : Candidate) (off : Nat) : (toByteOffset c off).steps ≤ c.charLen := by
  cases c with
  | ascii bs => exact Nat.zero_le _
  | unicode cs =>
    refine free_le fun v hv => ?_
    have := sliceToR_len cs off v hv
    rw [steps_tick_bind, steps_pure]
    show v.length + 0 ≤ cs.length
    omega

theorem toByteRange_steps (c : Candidate) (r : Range) : (toByteRange c r).steps ≤ c.charLen := by
  cases c with
  | ascii bs => exact Nat.zero_le _
  | unicode cs =>
    refine free_le fun v hv => ?_
    have := sliceToR_len cs r.stop v hv
    rw [steps_tick_bind, steps_pure]
    show v.length + 0 ≤ cs.length
    omega

/-! ### The buffers -/

theorem slabWriteChars_steps (t : List Char) : ∀ (l : List Char) (n : Nat), (Timed.slabWriteChars l t n).steps ≤ t.length := by
  induction t with
  | nil => intro l n; exact Nat.le_refl _
  | cons a t ih =>
    intro l n
    exact bind_le (a := 1) (Nat.le_refl _) (fun v _ => ih v (n + 1)) (by rw [List.length_cons]; omega)

theorem candidateAlloc_steps (l t : List Char) : (Timed.candidateAlloc l t).steps ≤ strLen t + t.length :=
  bind_le (grow_le ..) (fun _ _ => bind_le (slabWriteChars_steps ..) (fun _ _ => free_le fun _ _ => Nat.le_refl 0) (Nat.le_refl _))
    (Nat.le_refl _)

theorem indicesAlloc_steps (l : List Nat) (n : Nat) : (Timed.indicesAlloc l n).steps ≤ if n > l.length then n else 0 :=
  bind_le (Nat.le_of_eq (steps_grow ..)) (fun _ _ => free_le fun _ _ => Nat.le_refl 0) (Nat.le_refl _)

theorem bonusAlloc_steps (l : List BonusCell) (n : Nat) : (Timed.bonusAlloc l n).steps ≤ n + n :=
  bind_le (grow_le ..) (fun v _ => free_le fun w hw => by
    have := (sliceToR_len v n w hw).1
    rw [steps_tick_bind, steps_pure]; show w.length + 0 ≤ n; omega) (Nat.le_refl _)

theorem matrixAlloc_steps {α : Type} (fill : α) (l : List α) (w h : Nat) : (Timed.matrixAlloc fill l w h).steps ≤ h * w + h * w :=
  free_le fun _ _ => bind_le (grow_le ..) (fun v _ => free_le fun x hx => by
    have := (sliceToR_len v (h * w) x hx).1
    rw [steps_tick_bind, steps_pure]; omega) (Nat.le_refl _)

theorem bonusAt_steps (U : Unicode) (c : CandidateV2) (i : Nat) (S : Scheme) : (Timed.bonusAt U c i S).steps ≤ 4 := by
  unfold Timed.bonusAt
  refine bind_le (a := 1) (b := 3) (Nat.le_refl _) (fun v _ => ite_le (fun _ => Nat.zero_le _) (fun _ => ?_)) (Nat.le_refl _)
  have rest : ∀ cl : CharClass, ((do
      let ch ← char c.base i
      let bonuses ← Timed.set c.bonuses i (BonusCell.set (computeBonus cl (charClass U ch S) S))
      pure ({ c with bonuses := bonuses }, (BonusCell.set (computeBonus cl (charClass U ch S) S)).get)) :
      Timed (CandidateV2 × Score)).steps ≤ 2 := fun cl =>
    bind_le (a := 1) (b := 1) (Nat.le_refl _) (fun _ _ => bind_le (a := 1) (b := 0) (Nat.le_refl _) (fun _ _ => Nat.le_refl 0) (Nat.le_refl _))
      (Nat.le_refl _)
  refine ite_le (fun _ => ?_) (fun _ => ?_)
  · rw [steps_pure_bind]
    exact Nat.le_trans (rest _) (by omega)
  · refine bind_le (a := 1) (b := 2) ?_ (fun v _ => rest v) (Nat.le_refl _)
    exact bind_le (a := 1) (b := 0) (Nat.le_refl _) (fun _ _ => Nat.le_refl 0) (Nat.le_refl _)

end Norm
