import Verif.Proofs.Steps
import Verif.Proofs.TimedParser

/-! The number of steps of the parser. -/

namespace Norm

namespace Timed

/-- If `x` returns `v` after `n` steps, then `P v n`. -/
def Spends {α : Type} (x : Timed α) (P : α → Nat → Prop) : Prop := ∀ v, x.res = .ok v → P v x.steps

theorem Spends.bind {α β : Type} {x : Timed α} {f : α → Timed β} {P : α → Nat → Prop} {Q : β → Nat → Prop}
    (h : Spends x P) (hf : ∀ v n, P v n → Spends (f v) (fun u m => Q u (n + m))) : Spends (x >>= f) Q := by
  intro u hu
  rw [res_bind] at hu
  cases hx : x.res with
  | panic => rw [hx] at hu; cases hu
  | ok v =>
    rw [hx, Res.bind_ok] at hu
    rw [steps_bind_ok hx]
    exact hf v _ (h v hx) u hu

theorem Spends.pure {α : Type} {v : α} {P : α → Nat → Prop} (h : P v 0) : Spends (Pure.pure v) P := by
  intro u hu
  cases hu
  exact h

theorem Spends.free {α : Type} {r : Res α} {P : α → Nat → Prop} (h : ∀ v, r = .ok v → P v 0) : Spends (Timed.free r) P :=
  fun v hv => h v hv

theorem Spends.tick {α : Type} {k : Nat} {f : Unit → Timed α} {Q : α → Nat → Prop} (h : Spends (f ()) (fun u m => Q u (k + m))) :
    Spends (Timed.tick k >>= f) Q := fun u hu => h u hu

theorem Spends.mono {α : Type} {x : Timed α} {P Q : α → Nat → Prop} (h : Spends x P) (hPQ : ∀ v n, P v n → Q v n) : Spends x Q :=
  fun v hv => hPQ v _ (h v hv)

theorem Spends.ite {α : Type} {p : Prop} [Decidable p] {x y : Timed α} {Q : α → Nat → Prop} (hx : p → Spends x Q) (hy : ¬ p → Spends y Q) :
    Spends (if p then x else y) Q := by
  split
  · exact hx ‹_›
  · exact hy ‹_›

theorem Spends.set {α : Type} (l : List α) (i : Nat) (a : α) : Spends (Timed.set l i a) (fun v n => v.length = l.length ∧ n = 1) := by
  intro v hv
  refine ⟨?_, rfl⟩
  rw [res_set] at hv
  unfold setR at hv
  split at hv
  · cases hv; simp
  · cases hv

theorem countWhile_take {α : Type} (p : α → Bool) (l : List α) : (countWhile p l).steps ≤ (l.takeWhile p).length + 1 := by
  induction l with
  | nil => exact Nat.zero_le _
  | cons a l ih =>
    unfold countWhile
    rw [steps_tick_bind, List.takeWhile_cons]
    cases h : p a with
    | false => simp
    | true =>
      simp only [if_true, List.length_cons]
      rw [steps_bind_ok (res_countWhile p l), steps_pure]
      omega

/-- `strip_leading_spaces`: one step for each space, and one more. -/
theorem stripSpaces_steps (s : List Char) : Spends (stripSpaces s) (fun s' n => s' = s.dropWhile (· == ' ') ∧ n + strLen s' ≤ strLen s + 1) := by
  intro s' h
  rw [res_stripSpaces, stripLeadingSpaces_eq] at h
  cases h
  refine ⟨rfl, ?_⟩
  have h1 : (stripSpaces s).steps ≤ strLeadingSpaces s + 1 := by
    unfold stripSpaces
    rw [steps_bind_ok (res_countWhile _ _), steps_free]
    exact countWhile_take _ _
  rw [strLeadingSpaces_eq] at h1
  have h2 : strLen s = strLen (s.takeWhile (· == ' ')) + strLen (s.dropWhile (· == ' ')) := by
    conv_lhs => rw [← List.takeWhile_append_dropWhile (p := (· == ' ')) (l := s), strLen_append]
  omega

theorem wordsAlloc_steps (l : List Char) : ∀ w : Words, (wordsAlloc w l).steps ≤ 2 * l.length := by
  induction l with
  | nil => intro w; exact Nat.zero_le _
  | cons c l ih =>
    intro w
    unfold wordsAlloc
    rw [steps_tick_bind, List.length_cons]
    refine Nat.le_trans (Nat.add_le_add_left (bind_le (a := 1) (b := 2 * l.length) (c := 2 * l.length + 1) (by simp) (fun v _ => ih _) (by omega)) 1) (by omega)

/-- The loop of `Words::next`: three steps for each byte it consumes. -/
theorem wordsNextLoop_steps : ∀ (fuel : Nat) (w : Words) (s : List Char) (e : Nat),
    Spends (wordsNextLoop fuel w s e) (fun _ n => n + 3 * strLen (takeWord s).2 ≤ 3 * strLen s + 2) := by
  intro fuel
  induction fuel with
  | zero => intro w s e v h; cases h
  | succ fuel ih =>
    intro w s e
    unfold wordsNextLoop
    rcases span_space s with hns | ⟨a, t, rfl, hns⟩
    · have hm : (strBytes s).findIdx? (· == 32) = none := memchr_none hns
      refine Spends.bind (P := fun v n => v = none ∧ n = strLen s) ?_ ?_
      · intro v hv
        rw [res_findIdx, hm] at hv
        cases hv
        exact ⟨rfl, findIdx_none hm⟩
      · rintro v n ⟨rfl, rfl⟩
        dsimp only
        refine Spends.bind (P := fun v n => n ≤ 2 * s.length) (fun v _ => wordsAlloc_steps s w) ?_
        intro v n hn
        refine Spends.pure ?_
        rw [takeWord_noSpace hns]
        have := length_le_strLen s
        simp
        omega
    · have hm : (strBytes (a ++ ' ' :: t)).findIdx? (· == 32) = some (strLen a) := memchr_some hns
      refine Spends.bind (P := fun v n => v = some (strLen a) ∧ n = strLen a + 1) ?_ ?_
      · intro v hv
        rw [res_findIdx, hm] at hv
        cases hv
        exact ⟨rfl, findIdx_some hm⟩
      · rintro v n ⟨rfl, rfl⟩
        rcases List.eq_nil_or_concat' a with rfl | ⟨a', x, rfl⟩
        · refine Spends.pure ?_
          simp [takeWord]
          omega
        · obtain ⟨b, hb, hbx⟩ := getLast_byte (a := a') (x := x)
          have hpos : 0 < strLen (a' ++ [x]) := by have := utf8Size_pos x; simp; omega
          obtain ⟨k, hk⟩ : ∃ k, strLen (a' ++ [x]) = k + 1 := ⟨strLen (a' ++ [x]) - 1, by omega⟩
          have hb' : getR (strBytes (a' ++ [x] ++ ' ' :: t)) (strLen (a' ++ [x]) - 1) = .ok b := by
            rw [getR_eq_ok] at hb ⊢
            rw [strBytes_append, List.getElem?_append_left (by have h2 := hpos; unfold strLen at h2 ⊢; omega)]
            exact hb
          have hla := length_le_strLen (a' ++ [x])
          have hstr : strLen (a' ++ [x] ++ ' ' :: t) = strLen (a' ++ [x]) + strLen (' ' :: t) := strLen_append _ _
          have hsp : (' ' : Char).utf8Size = 1 := utf8Size_ascii (by decide)
          rw [strLen_cons, hsp] at hstr
          rw [hk] at hb' hstr hla ⊢
          refine Spends.bind (P := fun v n => v = b ∧ n = 1) ?_ ?_
          · intro v hv
            rw [show (Timed.get (strBytes (a' ++ [x] ++ ' ' :: t)) (k + 1 - 1)).res = getR _ (k + 1 - 1) from rfl, hb'] at hv
            cases hv
            exact ⟨rfl, rfl⟩
          · rintro v n ⟨rfl, rfl⟩
            refine Spends.ite (fun hv => ?_) (fun hv => ?_)
            · have hx : x = '\\' := hbx.mp (by simpa using hv)
              subst hx
              have hxs : ('\\' : Char).utf8Size = 1 := utf8Size_ascii (by decide)
              have hka : k = strLen a' := by simp [hxs] at hk; omega
              have hto : strToR (a' ++ ['\\'] ++ ' ' :: t) (k + 1 - 1) = .ok a' := by
                rw [Nat.add_sub_cancel, hka, List.append_assoc]; exact strToR_append _ _
              have hfrom : strFromR (a' ++ ['\\'] ++ ' ' :: t) (k + 1 + 1) = .ok t := by
                have h1 : a' ++ ['\\'] ++ ' ' :: t = (a' ++ ['\\', ' ']) ++ t := by simp
                have h2 : k + 1 + 1 = strLen (a' ++ ['\\', ' ']) := by simp [hxs, hsp, hka]
                rw [h1, h2]; exact strFromR_append _ _
              simp only [List.mem_append, not_or] at hns
              have htw : takeWord (a' ++ ['\\'] ++ ' ' :: t) = (a' ++ ' ' :: (takeWord t).1, (takeWord t).2) := by
                rw [List.append_assoc]; exact takeWord_escaped hns.1
              have hla' := length_le_strLen a'
              rw [hto, hfrom, htw]
              refine Spends.bind (P := fun v n => v = a' ∧ n = 0) (Spends.free fun v h => by cases h; exact ⟨rfl, rfl⟩) ?_
              rintro v n ⟨rfl, rfl⟩
              refine Spends.bind (P := fun _ n => n ≤ 2 * v.length) (fun w' _ => wordsAlloc_steps v w) ?_
              intro w1 n1 h1
              refine Spends.bind (P := fun _ n => n ≤ 2) (fun w' _ => wordsAlloc_steps [' '] w1) ?_
              intro w2 n2 h2
              refine Spends.bind (P := fun u n => u = t ∧ n = 0) (Spends.free fun v h => by cases h; exact ⟨rfl, rfl⟩) ?_
              rintro u n ⟨rfl, rfl⟩
              refine (ih w2 u _).mono fun v m hm => ?_
              rw [hstr]
              dsimp only
              omega
            · have hx : x ≠ '\\' := fun h => hv (by simpa using hbx.mpr h)
              have hto : strToR (a' ++ [x] ++ ' ' :: t) (k + 1) = .ok (a' ++ [x]) := by
                rw [← hk]; exact strToR_append _ _
              have htw := takeWord_space (t := t) hns (by simpa using hx)
              rw [hto, htw]
              refine Spends.bind (P := fun v n => v = a' ++ [x] ∧ n = 0) (Spends.free fun v h => by cases h; exact ⟨rfl, rfl⟩) ?_
              rintro v n ⟨rfl, rfl⟩
              refine Spends.bind (P := fun _ n => n ≤ 2 * (a' ++ [x]).length) (fun w' _ => wordsAlloc_steps _ w) ?_
              intro w1 n1 h1
              refine Spends.pure ?_
              rw [hstr, strLen_cons, hsp]
              omega

/-- There is room for what is left of the string, which does not start with a space. -/
def WordsOk (w : Words) : Prop := w.allocated + strLen w.s ≤ w.buf.length ∧ w.s.head? ≠ some ' '

/-- `Words::next`: at most three steps for each byte it consumes, and three more. -/
theorem wordsNext_steps {w : Words} (hw : WordsOk w) : Spends (wordsNext w) (fun v n => WordsOk v.2 ∧
    match v.1 with
    | none => n = 0 ∧ v.2 = w
    | some word => ∃ c, strLen v.2.s + c = strLen w.s ∧ word.length ≤ c ∧ n ≤ 3 * c + 3 ∧ 1 ≤ c ∧ (v.2.s ≠ [] → 2 ≤ c)) := by
  obtain ⟨buf, alloc, s⟩ := w
  obtain ⟨h1, h2⟩ := hw
  dsimp only at h1 h2
  cases s with
  | nil => exact Spends.pure ⟨⟨h1, h2⟩, rfl, rfl⟩
  | cons c s =>
    have hc : c ≠ ' ' := by simpa using h2
    obtain ⟨pre, rest, rfl, hpre⟩ : ∃ pre rest, buf = pre ++ rest ∧ pre.length = alloc :=
      ⟨buf.take alloc, buf.drop alloc, (List.take_append_drop _ _).symm, by simp; omega⟩
    subst hpre
    obtain ⟨a, rest', e1, e2, e3, e4, e5⟩ := Words.next_cons hc (pre := pre) (rest := rest) (by simp at h1; simp; omega)
    have hsl : strLen (c :: s) = strLen a + strLen (takeWord (c :: s)).2 := by
      conv_lhs => rw [e1, strLen_append]
    have hd := strLen_dropWhile (takeWord (c :: s)).2
    have hroom := room_step (L := strLen (c :: s)) (n := 0) e1 (by omega) ⟨fun _ => by omega, by omega⟩
    intro v hv
    have hsteps : (wordsNext ⟨pre ++ rest, pre.length, c :: s⟩).steps + 3 * strLen ((takeWord (c :: s)).2.dropWhile (· == ' ')) ≤
        3 * strLen (c :: s) + 3 := by
      have : Spends (wordsNext ⟨pre ++ rest, pre.length, c :: s⟩) (fun v n => n + 3 * strLen v.2.s ≤ 3 * strLen (c :: s) + 3) := by
        unfold wordsNext
        refine Spends.ite (fun h => by simp at h) (fun _ => ?_)
        dsimp only
        have hres := Words.nextLoop_eq (c :: s) ((c :: s).length + 1) (c :: s) (by omega) pre rest 0 (by simp at h1; simp; omega)
        obtain ⟨a2, r2, g1, g2, g3, g4⟩ := hres
        refine Spends.bind (P := fun v n => v = (⟨pre ++ (takeWord (c :: s)).1 ++ r2, (pre ++ (takeWord (c :: s)).1).length, c :: s⟩, 0 + strLen a2) ∧
          n + 3 * strLen (takeWord (c :: s)).2 ≤ 3 * strLen (c :: s) + 2) ?_ ?_
        · intro v hv
          refine ⟨?_, wordsNextLoop_steps _ _ _ _ v hv⟩
          rw [res_wordsNextLoop, g4] at hv
          cases hv; rfl
        · rintro v n ⟨rfl, hn⟩
          dsimp only
          have hfrom : strFromR (c :: s) (0 + strLen a2) = .ok (takeWord (c :: s)).2 := by
            rw [Nat.zero_add]
            have := strFromR_append a2 (takeWord (c :: s)).2
            rw [← g1] at this
            exact this
          rw [hfrom]
          refine Spends.bind (P := fun v n => v = (takeWord (c :: s)).2 ∧ n = 0) (Spends.free fun v h => by cases h; exact ⟨rfl, rfl⟩) ?_
          rintro v m ⟨rfl, rfl⟩
          refine Spends.bind (stripSpaces_steps _) ?_
          rintro v m ⟨rfl, hm⟩
          refine Spends.bind (P := fun _ n => n = 0) (Spends.free fun v h => rfl) ?_
          rintro u k rfl
          refine Spends.pure ?_
          dsimp only
          omega
      have := this v hv
      rw [res_wordsNext, e5] at hv
      cases hv
      exact this
    rw [res_wordsNext, e5] at hv
    cases hv
    refine ⟨⟨?_, head_dropWhile _⟩, strLen (c :: s) - strLen ((takeWord (c :: s)).2.dropWhile (· == ' ')), ?_, ?_, ?_, ?_, ?_⟩
    · simp at h1 ⊢; simp at hsl; omega
    · dsimp only; omega
    · omega
    · omega
    · omega
    · intro hne
      have := hroom.1.1 hne
      omega

theorem scanText_steps (U : Unicode) (t : List Char) : (scanText U t).steps ≤ 3 * t.length := by
  unfold scanText
  refine bind_le (a := t.length) (b := 2 * t.length) (findIdx_le _ _) (fun _ _ => ?_) (by omega)
  refine bind_le (a := t.length) (b := t.length) (countWhile_le _ _) (fun _ _ => ?_) (by omega)
  refine bind_le (a := t.length) (b := 0) ?_ (fun _ _ => by simp) (by omega)
  have := countWhile_le (· == ' ') t.reverse
  simpa using this

/-- `Pattern::parse`. -/
theorem patternParse_steps (U : Unicode) (t : List Char) : (patternParse U t).steps ≤ 3 * t.length + 4 := by
  unfold patternParse
  refine free_le fun _ _ => ?_
  rw [steps_tick_bind]
  refine Nat.le_trans (Nat.add_le_add_left (m := 3 * t.length) ?_ 4) (by omega)
  refine free_le fun v hv => ?_
  have hv : v.2.2.length ≤ t.length := by
    split at hv
    · rw [Res.bind_eq_ok] at hv
      obtain ⟨l, hl, hv⟩ := hv
      cases hv
      have := (sliceFromR_len t 1) l hl
      dsimp only; omega
    · cases hv; exact Nat.le_refl _
  obtain ⟨v1, v2, v3⟩ := v
  dsimp only at hv ⊢
  refine free_le fun u hu => ?_
  have hu : u.2.length ≤ t.length := by
    split at hu
    · rw [Res.bind_eq_ok] at hu
      obtain ⟨l, hl, hu⟩ := hu
      cases hu
      unfold sliceToR at hl
      split at hl
      · cases hl; simp; omega
      · cases hl
    · cases hu; exact hv
  obtain ⟨u1, u2⟩ := u
  dsimp only at hu ⊢
  refine free_le fun x hx => ?_
  have hx : x.2.length ≤ t.length := by
    split at hx
    · rw [Res.bind_eq_ok] at hx
      obtain ⟨l, hl, hx⟩ := hx
      cases hx
      have := (sliceFromR_len u2 1) l hl
      dsimp only; omega
    · split at hx
      · rw [Res.bind_eq_ok] at hx
        obtain ⟨l, hl, hx⟩ := hx
        cases hx
        have := (sliceFromR_len u2 1) l hl
        dsimp only; omega
      · cases hx; exact hu
  obtain ⟨x1, x2⟩ := x
  dsimp only at hx ⊢
  refine ite_le (fun _ => by simp) (fun _ => ?_)
  refine bind_le (a := 3 * t.length) (b := 0) (Nat.le_trans (scanText_steps U x2) (by omega)) (fun _ _ => by simp) (by omega)

/-- The steps that what is left of the string will take. -/
def wordsCost (s : List Char) : Nat := if s = [] then 0 else 11 * strLen s + 5

def nextCost (o : Option Pattern) : Nat := if o.isSome then 2 else 0

theorem wordsCost_step {s s' : List Char} {c : Nat} (h1 : strLen s' + c = strLen s) (h2 : 1 ≤ c) (h3 : s' ≠ [] → 2 ≤ c) :
    6 * c + 10 + wordsCost s' ≤ wordsCost s := by
  have hs : s ≠ [] := by rintro rfl; simp at h1; omega
  unfold wordsCost
  rw [if_neg hs]
  by_cases h : s' = []
  · subst h
    rw [strLen_nil] at h1
    rw [if_pos rfl]
    omega
  · have := h3 h
    rw [if_neg h]
    omega

theorem patternsNextLoop_steps (U : Unicode) : ∀ (fuel : Nat) (p : Patterns) (b : Bool), WordsOk p.words → p.next = none →
    Spends (patternsNextLoop U fuel p b) (fun p' n => WordsOk p'.words ∧ p.allocated ≤ p'.allocated ∧
      n + wordsCost p'.words.s + nextCost p'.next + p'.allocated ≤ wordsCost p.words.s + p.allocated) := by
  intro fuel
  induction fuel with
  | zero => intro p b _ _ v h; cases h
  | succ fuel ih =>
    intro p b hw hnext
    unfold patternsNextLoop
    refine Spends.bind (wordsNext_steps hw) ?_
    rintro ⟨word, ws⟩ n ⟨hw', h⟩
    cases word with
    | none =>
      obtain ⟨rfl, hws⟩ := h
      dsimp only at hws
      subst hws
      refine Spends.pure ⟨hw', Nat.le_refl _, ?_⟩
      dsimp only
      rw [hnext]
      simp [nextCost]
    | some word =>
      obtain ⟨c, h1, h2, h3, h4, h5⟩ := h
      dsimp only at h1 h2 h3 h4 h5 hw' ⊢
      have hcost := wordsCost_step h1 h4 h5
      refine Spends.tick ?_
      refine Spends.ite (fun _ => ?_) (fun _ => ?_)
      · refine Spends.bind (P := fun _ n => n ≤ 3 * word.length + 4) (fun _ _ => patternParse_steps U word) ?_
        intro o m hm
        cases o with
        | none =>
          refine (ih { p with words := ws } b hw' hnext).mono fun p' k hk => ⟨hk.1, hk.2.1, ?_⟩
          have := hk.2.2
          dsimp only at this
          omega
        | some x =>
          dsimp only
          refine Spends.ite (fun _ => ?_) (fun _ => ?_)
          · refine Spends.pure ⟨hw', Nat.le_refl _, ?_⟩
            dsimp only
            simp only [nextCost, Option.isSome_some, if_true]
            omega
          · refine Spends.bind (P := fun v n => v.words = ws ∧ v.next = none ∧ v.allocated = p.allocated + 1 ∧ n = 1) ?_ ?_
            · unfold patternsAlloc
              refine Spends.bind (Spends.set _ _ _) ?_
              rintro v n ⟨_, rfl⟩
              exact Spends.pure ⟨rfl, hnext, rfl, rfl⟩
            · rintro v n ⟨rfl, hv2, hv3, rfl⟩
              refine (ih v true hw' hv2).mono fun p' k hk => ⟨hk.1, by omega, ?_⟩
              have := hk.2.2
              omega
      · refine (ih { p with words := ws } false hw' hnext).mono fun p' k hk => ⟨hk.1, hk.2.1, ?_⟩
        have := hk.2.2
        dsimp only at this
        omega

theorem patternsNext_steps (U : Unicode) (p : Patterns) (hw : WordsOk p.words) :
    Spends (patternsNext U p) (fun v n => WordsOk v.2.words ∧
      n + wordsCost v.2.words.s + nextCost v.2.next + (if v.1.isSome then 1 else 0) ≤ wordsCost p.words.s + nextCost p.next) := by
  have key : ∀ (q : Patterns) (b : Bool) (n : Nat), q.words = p.words → q.next = none → p.allocated ≤ q.allocated →
      n + q.allocated ≤ nextCost p.next + p.allocated →
      Spends (do
        let p' ← patternsNextLoop U (q.words.s.length + 1) q b
        if p'.allocated == p.allocated then
          return (none, p')
        else do
          let patterns ← Timed.free (sliceR p'.buf p.allocated p'.allocated)
          return (some patterns, p') : Timed (Option (List Pattern) × Patterns)) (fun v m => WordsOk v.2.words ∧
        n + m + wordsCost v.2.words.s + nextCost v.2.next + (if v.1.isSome then 1 else 0) ≤ wordsCost p.words.s + nextCost p.next) := by
    intro q b n h1 h2 h3 h4
    refine Spends.bind (patternsNextLoop_steps U _ q b (by rw [h1]; exact hw) h2) ?_
    rintro p' m ⟨g1, g2, g3⟩
    rw [h1] at g3
    refine Spends.ite (fun _ => ?_) (fun hne => ?_)
    · refine Spends.pure ⟨g1, ?_⟩
      simp only [Option.isSome_none, Bool.false_eq_true, if_false]
      omega
    · refine Spends.bind (P := fun _ n => n = 0) (Spends.free fun v h => rfl) ?_
      rintro u k rfl
      refine Spends.pure ⟨g1, ?_⟩
      have : p'.allocated ≠ p.allocated := by simpa using hne
      simp only [Option.isSome_some, if_true]
      omega
  unfold patternsNext
  dsimp only
  cases h : p.next with
  | none =>
    have := key p false 0 rfl h (Nat.le_refl _) (by simp)
    simp only [Nat.zero_add] at this
    rw [h] at this
    dsimp only
    refine Spends.bind (P := fun v n => v = (p, false) ∧ n = 0) (Spends.pure ⟨rfl, rfl⟩) ?_
    rintro v n ⟨rfl, rfl⟩
    simp only [Nat.zero_add]
    exact this
  | some x =>
    dsimp only
    refine Spends.bind (P := fun v n => v.1.words = p.words ∧ v.1.next = none ∧ v.1.allocated = p.allocated + 1 ∧ n = 1) ?_ ?_
    · refine Spends.bind (P := fun v n => v.words = p.words ∧ v.next = none ∧ v.allocated = p.allocated + 1 ∧ n = 1) ?_ ?_
      · unfold patternsAlloc
        refine Spends.bind (Spends.set _ _ _) ?_
        rintro v n ⟨_, rfl⟩
        exact Spends.pure ⟨rfl, rfl, rfl, rfl⟩
      · rintro v n ⟨h1, h2, h3, rfl⟩
        exact Spends.pure ⟨h1, h2, h3, rfl⟩
    · rintro ⟨v, b⟩ n ⟨h1, h2, h3, rfl⟩
      have := key v b 1 h1 h2 (by dsimp only at h3; omega) (by dsimp only at h3; simp [h, nextCost]; omega)
      rw [h] at this
      exact this

theorem parseLoop_steps (U : Unicode) : ∀ (fuel : Nat) (p : Patterns) (cs : List Condition) (k : Nat), WordsOk p.words →
    Spends (parseLoop U fuel p cs k) (fun _ n => n ≤ wordsCost p.words.s + nextCost p.next) := by
  intro fuel
  induction fuel with
  | zero => intro p cs k _ v h; cases h
  | succ fuel ih =>
    intro p cs k hw
    unfold parseLoop
    refine Spends.bind (patternsNext_steps U p hw) ?_
    rintro ⟨o, p'⟩ n ⟨h1, h2⟩
    cases o with
    | none =>
      refine Spends.pure ?_
      dsimp only at h2
      omega
    | some c =>
      dsimp only at h1 h2 ⊢
      simp only [Option.isSome_some, if_true] at h2
      refine Spends.bind (Spends.set _ _ _) ?_
      rintro v m ⟨_, rfl⟩
      refine (ih p' v _ h1).mono fun _ m hm => ?_
      omega

theorem writeChars_steps (l : List Char) : ∀ (cs : List Char) (n : Nat), (writeChars cs l n).steps ≤ 2 * l.length := by
  induction l with
  | nil => intro cs n; exact Nat.zero_le _
  | cons c l ih =>
    intro cs n
    unfold writeChars
    rw [steps_tick_bind, List.length_cons]
    refine Nat.le_trans (Nat.add_le_add_left (bind_le (a := 1) (b := 2 * l.length) (c := 2 * l.length + 1) (by simp) (fun v _ => ih _ _) (by omega)) 1) (by omega)

end Timed

open Timed

theorem FzfParser.timedParse_steps (U : Unicode) (self : FzfParser) (q : List Char) :
    (self.timedParse U q).steps ≤ 13 * strLen q + 10 := by
  have h : Spends (self.timedParse U q) (fun _ n => n ≤ 13 * strLen q + 10) := by
    unfold FzfParser.timedParse
    dsimp only
    refine Spends.bind (P := fun v n => strLen q ≤ v.length ∧ n ≤ strLen q) ?_ ?_
    · intro v hv
      refine ⟨?_, grow_le _ _ _⟩
      rw [res_grow] at hv
      cases hv
      have := length_grow self.chars (strLen q) charDefault
      rw [show (if strLen q > self.chars.length then resize self.chars (strLen q) charDefault else self.chars) =
        (if self.chars.length < strLen q then resize self.chars (strLen q) charDefault else self.chars) from rfl, this]
      omega
    rintro chars n1 ⟨hc, hn1⟩
    refine Spends.bind (P := fun v n => n ≤ strLen q / 2 + 1) (fun v _ => grow_le _ _ _) ?_
    intro conds n2 hn2
    refine Spends.bind (P := fun v n => n ≤ strLen q / 2 + 1) (fun v _ => grow_le _ _ _) ?_
    intro pats n3 hn3
    refine Spends.bind (P := fun v n => v = ⟨chars, 0, q.dropWhile (· == ' ')⟩ ∧ n + strLen (q.dropWhile (· == ' ')) ≤ strLen q + 1) ?_ ?_
    · unfold wordsNew
      refine Spends.bind (stripSpaces_steps q) ?_
      rintro v n ⟨rfl, hn⟩
      exact Spends.pure ⟨rfl, hn⟩
    rintro ws n4 ⟨rfl, hn4⟩
    have hd := strLen_dropWhile q
    refine Spends.bind (parseLoop_steps U _ _ _ _ ⟨by dsimp only; omega, head_dropWhile q⟩) ?_
    rintro ⟨p, cs, k⟩ n5 hn5
    dsimp only at hn5 ⊢
    refine Spends.bind (P := fun _ n => n = 0) (Spends.free fun v h => rfl) ?_
    rintro u _ rfl
    refine Spends.tick ?_
    refine Spends.bind (P := fun _ n => n = 0) (Spends.free fun v h => rfl) ?_
    rintro u _ rfl
    refine Spends.pure ?_
    have : wordsCost (q.dropWhile (· == ' ')) ≤ 11 * strLen (q.dropWhile (· == ' ')) + 5 := by
      unfold wordsCost; split <;> omega
    simp only [nextCost, Option.isSome_none, Bool.false_eq_true, if_false] at hn5
    omega
  obtain ⟨P', _, hP⟩ := FzfParser.parse_eq U self q
  exact h _ ((FzfParser.res_timedParse U self q).trans hP)

theorem FzfParser.timedParseNotExtended_steps (U : Unicode) (self : FzfParser) (q : List Char) :
    (self.timedParseNotExtended U q).steps ≤ 5 * q.length := by
  unfold FzfParser.timedParseNotExtended
  refine bind_le (a := 2 * q.length) (b := 3 * q.length) (writeChars_steps q _ _) ?_ (by omega)
  rintro ⟨cs, n⟩ hv
  dsimp only
  refine free_le fun t ht => ?_
  have hn : n ≤ q.length := by
    rw [res_writeChars] at hv
    by_cases hq : q.length ≤ self.chars.length
    · have := writeChars_ok q [] self.chars hq
      simp only [List.nil_append, List.length_nil] at this
      rw [this] at hv
      cases hv
      omega
    · rw [writeChars_panic q self.chars 0 (by omega) (by omega)] at hv
      cases hv
  have : t.length ≤ q.length := by
    unfold sliceToR at ht
    split at ht
    · cases ht; simp; omega
    · cases ht
  refine bind_le (a := 3 * q.length) (b := 0) ?_ (fun _ _ => by simp) (by omega)
  unfold patternRaw
  exact bind_le (a := 3 * q.length) (b := 0) (Nat.le_trans (scanText_steps U t) (by omega)) (fun _ _ => by simp) (by omega)

end Norm
