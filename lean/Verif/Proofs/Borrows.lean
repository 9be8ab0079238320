import Verif.SpecBorrows
import Verif.Proofs.Memory

/-! What the parser writes to is not borrowed. -/

namespace Norm
open Spec

/-- The slices in the allocation `b` end at `n` or before. -/
def Below (refs : List Ref) (b n : Nat) : Prop := ∀ r ∈ refs, r.block = b → r.start + r.len ≤ n

theorem Below.mono {refs : List Ref} {b n m : Nat} (h : Below refs b n) (hn : n ≤ m) : Below refs b m :=
  fun r hr e => Nat.le_trans (h r hr e) hn

theorem assertElement_ok {refs : List Ref} {b n : Nat} (h : Below refs b n) : assertElement refs b n = .ok () := by
  have : refs.any (·.covers b n) = false := by
    rw [List.any_eq_false]
    intro r hr hc
    simp only [Ref.covers, Bool.and_eq_true, beq_iff_eq, decide_eq_true_eq] at hc
    have := h r hr hc.1.1
    omega
  unfold assertElement
  rw [this]
  rfl

theorem assertBuffer_ok {refs : List Ref} {b : Nat} (h : Below refs b 0) : assertBuffer refs b = .ok () := by
  have : refs.any (fun r => r.block == b && r.len != 0) = false := by
    rw [List.any_eq_false]
    intro r hr hc
    simp only [Bool.and_eq_true, beq_iff_eq, bne_iff_ne] at hc
    have := h r hr hc.1
    omega
  unfold assertBuffer
  rw [this]
  rfl

/-- The same, with other memory. -/
@[simp] theorem bheap_heap (b : BHeap) (h : Heap) : ({ b with heap := h } : BHeap).heap = h := rfl

/-! ### `Words` -/

/-- What `Words` does to the memory. -/
structure WStep (h : Heap) (w : WordsR) (h' : Heap) (w' : WordsR) : Prop where
  buf : w'.buf = w.buf
  le : w.allocated ≤ w'.allocated
  patterns : h'.patterns = h.patterns
  conditions : h'.conditions = h.conditions

theorem WStep.refl (h : Heap) (w : WordsR) : WStep h w h w := ⟨rfl, Nat.le_refl _, rfl, rfl⟩
theorem WStep.trans {h h' h'' : Heap} {w w' w'' : WordsR} (a : WStep h w h' w') (b : WStep h' w' h'' w'') :
    WStep h w h'' w'' :=
  ⟨b.buf.trans a.buf, Nat.le_trans a.le b.le, b.patterns.trans a.patterns, b.conditions.trans a.conditions⟩

theorem words_allocB (l : List Char) : ∀ {b : BHeap} {w w' : WordsR} {h' : Heap}, Below b.chars w.buf w.allocated →
    w.alloc b.heap l = .ok (h', w') → w.allocB b l = .ok ({ b with heap := h' }, w') ∧ WStep b.heap w h' w' := by
  induction l with
  | nil =>
    intro b w w' h' hb h
    unfold WordsR.alloc at h
    cases h
    exact ⟨rfl, .refl _ _⟩
  | cons ch rest ih =>
    intro b w w' h' hb h
    unfold WordsR.alloc at h
    unfold WordsR.allocB
    simp only [Res.bind_eq_ok] at h
    obtain ⟨l, h1, l', h2, h3⟩ := h
    have := ih (b := { b with heap := b.heap.setChars w.buf l' }) (w := { w with allocated := w.allocated + 1 })
      (hb.mono (Nat.le_succ _)) h3
    rw [assertElement_ok hb]
    simp only [Res.bind_ok, h1, h2]
    refine ⟨this.1, this.2.buf, Nat.le_trans (Nat.le_succ _) this.2.le, this.2.patterns, this.2.conditions⟩

theorem words_nextLoopB : ∀ (fuel : Nat) {b : BHeap} {w : WordsR} {s : List Char} {e : Nat} {h' : Heap} {w' : WordsR}
    {e' : Nat}, Below b.chars w.buf w.allocated → WordsR.nextLoop fuel b.heap w s e = .ok (h', w', e') →
    WordsR.nextLoopB fuel b w s e = .ok ({ b with heap := h' }, w', e') ∧ WStep b.heap w h' w' := by
  intro fuel
  induction fuel with
  | zero => intro b w s e h' w' e' _ h; cases h
  | succ fuel ih =>
    intro b w s e h' w' e' hb h
    unfold WordsR.nextLoop at h
    unfold WordsR.nextLoopB
    cases hm : memchr 32 (strBytes s) with
    | none =>
      simp only [hm] at h ⊢
      simp only [Res.bind_eq_ok, Res.pure_def] at h
      obtain ⟨⟨h1, w1⟩, ha, h⟩ := h
      cases h
      obtain ⟨a1, a2⟩ := words_allocB _ hb ha
      rw [a1]
      exact ⟨rfl, a2⟩
    | some o =>
      cases o with
      | zero =>
        simp only [hm] at h ⊢
        cases h
        exact ⟨rfl, .refl _ _⟩
      | succ o =>
        simp only [hm] at h ⊢
        simp only [Res.bind_eq_ok] at h
        obtain ⟨x, hx, h⟩ := h
        rw [hx]
        simp only [Res.bind_ok]
        split
        · rename_i hc
          rw [if_pos hc] at h
          simp only [Res.bind_eq_ok] at h
          obtain ⟨l, hl, ⟨h1, w1⟩, ha, ⟨h2, w2⟩, ha', s', hs, h⟩ := h
          obtain ⟨a1, a2⟩ := words_allocB _ hb ha
          obtain ⟨b1, b2⟩ := words_allocB (b := { b with heap := h1 }) [' ']
            (by rw [a2.buf]; exact hb.mono a2.le) ha'
          have ab := a2.trans b2
          obtain ⟨c1, c2⟩ := ih (b := { b with heap := h2 }) (by rw [ab.buf]; exact hb.mono ab.le) h
          simp only [hl, Res.bind_ok, a1, b1, hs, c1, true_and]
          exact ab.trans c2
        · rename_i hc
          rw [if_neg hc] at h
          simp only [Res.bind_eq_ok, Res.pure_def] at h
          obtain ⟨l, hl, ⟨h1, w1⟩, ha, h⟩ := h
          cases h
          obtain ⟨a1, a2⟩ := words_allocB _ hb ha
          simp only [hl, Res.bind_ok, a1, Res.pure_def, true_and]
          exact a2

theorem words_nextB {b : BHeap} {w w' : WordsR} {h' : Heap} {o : Option Ref} (hb : Below b.chars w.buf w.allocated)
    (h : w.next b.heap = .ok (h', o, w')) :
    w.nextB b = .ok ({ b with heap := h', chars := o.toList ++ b.chars }, o, w') ∧ WStep b.heap w h' w' ∧
      Below (o.toList ++ b.chars) w'.buf w'.allocated := by
  unfold WordsR.next at h
  unfold WordsR.nextB
  split
  · rename_i hc
    rw [if_pos hc] at h
    cases h
    exact ⟨rfl, .refl _ _, hb⟩
  · rename_i hc
    rw [if_neg hc] at h
    simp only [Res.bind_eq_ok, Res.pure_def] at h
    obtain ⟨⟨h1, w1, e1⟩, ha, s1, hs1, s2, hs2, n, hn, x, hx, h⟩ := h
    cases h
    obtain ⟨a1, a2⟩ := words_nextLoopB _ hb ha
    simp only [a1, Res.bind_ok, hs1, hs2, hn, hx, Res.pure_def, Option.toList, List.cons_append, List.nil_append, true_and]
    refine ⟨⟨a2.buf, a2.le, a2.patterns, a2.conditions⟩, ?_⟩
    intro r hr e
    rcases List.mem_cons.1 hr with rfl | hr
    · unfold subR at hn
      split at hn
      · cases hn
        rename_i hle
        simp only at hle ⊢
        omega
      · cases hn
    · exact (by rw [a2.buf]; exact hb.mono a2.le : Below b.chars w1.buf w1.allocated) r hr e

/-! ### `Pattern` -/

/-- The slice `r` is part of `r'`. -/
def Part (r r' : Ref) : Prop := r'.block = r.block ∧ r'.start ≤ r.start ∧ r.start + r.len ≤ r'.start + r'.len

theorem Part.refl (r : Ref) : Part r r := ⟨rfl, Nat.le_refl _, Nat.le_refl _⟩
theorem Part.trans {r r' r'' : Ref} (a : Part r r') (b : Part r' r'') : Part r r'' :=
  ⟨b.1.trans a.1, Nat.le_trans b.2.1 a.2.1, Nat.le_trans a.2.2 b.2.2⟩

theorem part_fromR {r r' : Ref} {a : Nat} (h : r.fromR a = .ok r') : Part r' r := by
  unfold Ref.fromR at h
  split at h
  · cases h
    exact ⟨rfl, by simp only; omega, by simp only; omega⟩
  · cases h

theorem part_toR {r r' : Ref} {a : Nat} (h : r.toR a = .ok r') : Part r' r := by
  unfold Ref.toR at h
  split at h
  · cases h
    exact ⟨rfl, Nat.le_refl _, by simp only; omega⟩
  · cases h

theorem part_end {U : Unicode} {m : Heap} {inv : Bool} {mt : MatchType} {r : Ref} {x : PatternR}
    (h : sigilR U m inv mt r = .ok (some x)) : x.text = r := by
  unfold sigilR at h
  split at h
  · cases h
  · simp only [Res.bind_eq_ok, Res.pure_def] at h
    obtain ⟨_, _, h⟩ := h
    cases h
    rfl

theorem part_middle {U : Unicode} {m : Heap} {inv : Bool} {mt : MatchType} {r : Ref} {x : PatternR}
    (h : dollarR U m inv mt r = .ok (some x)) : Part x.text r := by
  unfold dollarR at h
  simp only [Res.bind_eq_ok] at h
  obtain ⟨_, _, _, _, h⟩ := h
  split at h
  · simp only [Res.bind_eq_ok] at h
    obtain ⟨r', h1, h2⟩ := h
    rw [part_end h2]
    exact part_fromR h1
  · split at h
    · simp only [Res.bind_eq_ok] at h
      obtain ⟨r', h1, h2⟩ := h
      rw [part_end h2]
      exact part_fromR h1
    · rw [part_end h]
      exact .refl _

theorem part_start {U : Unicode} {m : Heap} {inv : Bool} {mt : MatchType} {r : Ref} {x : PatternR}
    (h : bangR U m inv mt r = .ok (some x)) : Part x.text r := by
  unfold bangR at h
  simp only [Res.bind_eq_ok] at h
  obtain ⟨_, _, h⟩ := h
  split at h
  · simp only [Res.bind_eq_ok] at h
    obtain ⟨r', h1, h2⟩ := h
    exact (part_middle h2).trans (part_toR h1)
  · exact part_middle h

/-- A pattern's text is part of the word it is parsed from. -/
theorem part_parse {U : Unicode} {m : Heap} {r : Ref} {x : PatternR} (h : PatternR.parse U m r = .ok (some x)) :
    Part x.text r := by
  rw [patternR_parse_stages] at h
  simp only [Res.bind_eq_ok] at h
  obtain ⟨_, _, _, _, h⟩ := h
  split at h
  · simp only [Res.bind_eq_ok] at h
    obtain ⟨r', h1, h2⟩ := h
    exact (part_start h2).trans (part_fromR h1)
  · exact part_start h

/-! ### `Patterns` -/

/-- The slice is part of one that is borrowed, of the allocation `b`. -/
def BorrowedAt (refs : List Ref) (b : Nat) (r : Ref) : Prop := Borrowed refs r ∧ r.block = b

/-- What is borrowed while patterns are parsed: of the two buffers what has been handed out, and the text of every pattern
that has been stored or set aside. -/
structure PB (b : BHeap) (p : PatternsR) : Prop where
  words : Below b.chars p.words.buf p.words.allocated
  below : Below b.patterns p.buf p.allocated
  stored : ∀ l, b.heap.patterns p.buf = some l → ∀ i < p.allocated, ∀ x, l[i]? = some x →
    BorrowedAt b.chars p.words.buf x.text
  next : ∀ x, p.next = some x → BorrowedAt b.chars p.words.buf x.text

/-- What `Patterns` does to the memory before a condition is complete. -/
structure PStep (b : BHeap) (p : PatternsR) (b' : BHeap) (p' : PatternsR) : Prop where
  buf : p'.buf = p.buf
  wbuf : p'.words.buf = p.words.buf
  le : p.allocated ≤ p'.allocated
  patterns : b'.patterns = b.patterns
  conditions : b'.conditions = b.conditions
  heap : b'.heap.conditions = b.heap.conditions
  keep : ∀ r ∈ b.chars, r ∈ b'.chars
  chars : ∀ r ∈ b'.chars, r ∈ b.chars ∨ r.block = p.words.buf

theorem PStep.refl (b : BHeap) (p : PatternsR) : PStep b p b p :=
  ⟨rfl, rfl, Nat.le_refl _, rfl, rfl, rfl, fun _ h => h, fun _ h => .inl h⟩

theorem PStep.trans {b b' b'' : BHeap} {p p' p'' : PatternsR} (s : PStep b p b' p') (t : PStep b' p' b'' p'') :
    PStep b p b'' p'' where
  buf := t.buf.trans s.buf
  wbuf := t.wbuf.trans s.wbuf
  le := Nat.le_trans s.le t.le
  patterns := t.patterns.trans s.patterns
  conditions := t.conditions.trans s.conditions
  heap := t.heap.trans s.heap
  keep r h := t.keep r (s.keep r h)
  chars r h := by
    rcases t.chars r h with h | h
    · exact s.chars r h
    · exact .inr (h.trans s.wbuf)

theorem BorrowedAt.mono {refs refs' : List Ref} {b b' : Nat} {r : Ref} (h : BorrowedAt refs b r)
    (hs : ∀ r ∈ refs, r ∈ refs') (hb : b' = b) : BorrowedAt refs' b' r := by
  obtain ⟨⟨r', h1, h2⟩, h3⟩ := h
  exact ⟨⟨r', hs _ h1, h2⟩, h3.trans hb.symm⟩

theorem patterns_allocB {b : BHeap} {p p' : PatternsR} {x : PatternR} {h' : Heap} (hb : PB b p)
    (hx : BorrowedAt b.chars p.words.buf x.text) (h : p.alloc b.heap x = .ok (h', p')) :
    p.allocB b x = .ok ({ b with heap := h' }, p') ∧ PB { b with heap := h' } p' ∧ PStep b p { b with heap := h' } p' ∧
      p'.next = p.next := by
  unfold PatternsR.alloc at h
  unfold PatternsR.allocB
  simp only [Res.bind_eq_ok, Res.pure_def] at h
  obtain ⟨l, h1, l', h2, h⟩ := h
  cases h
  rw [assertElement_ok hb.below]
  simp only [Res.bind_ok, h1, h2, Res.pure_def, true_and]
  obtain ⟨hlt, rfl⟩ := setR_ok h2
  have hl : b.heap.patterns p.buf = some l := by
    cases hc : b.heap.patterns p.buf with
    | none => rw [hc] at h1; cases h1
    | some y => rw [hc] at h1; cases h1; rfl
  refine ⟨⟨hb.words, hb.below.mono (Nat.le_succ _), ?_, hb.next⟩,
    ⟨rfl, rfl, Nat.le_succ _, rfl, rfl, rfl, fun _ h => h, fun _ h => .inl h⟩, trivial⟩
  intro l' hl' i hi y hy
  simp only [Heap.setPatterns, update, if_true, Option.some.injEq] at hl'
  subst hl'
  rw [List.getElem?_set] at hy
  split at hy
  · rename_i he
    subst he
    cases hy
    exact hx
  · rename_i he
    exact hb.stored l hl i (by simp only at hi; omega) y hy

theorem PB.word {b : BHeap} {p : PatternsR} {h' : Heap} {o : Option Ref} {w' : WordsR} (hb : PB b p)
    (hs : WStep b.heap p.words h' w') (hw : Below (o.toList ++ b.chars) w'.buf w'.allocated) (ho : ∀ r, o = some r →
      r.block = p.words.buf) :
    PB { b with heap := h', chars := o.toList ++ b.chars } { p with words := w' } ∧
      PStep b p { b with heap := h', chars := o.toList ++ b.chars } { p with words := w' } := by
  have hk : ∀ r ∈ b.chars, r ∈ o.toList ++ b.chars := fun r h => List.mem_append_right _ h
  refine ⟨⟨hw, hb.below, fun l hl i hi x hx => ?_, fun x hx => (hb.next x hx).mono hk hs.buf⟩,
    ⟨rfl, hs.buf, Nat.le_refl _, rfl, rfl, hs.conditions, hk, fun r hr => ?_⟩⟩
  · rw [show ({ b with heap := h', chars := o.toList ++ b.chars } : BHeap).heap.patterns = b.heap.patterns from
      hs.patterns] at hl
    exact (hb.stored l hl i hi x hx).mono hk hs.buf
  · rcases List.mem_append.1 hr with hr | hr
    · exact .inr (ho r (by simpa using hr))
    · exact .inl hr

theorem words_next_block {h h' : Heap} {w w' : WordsR} {r : Ref} (hs : WStep h w h' w')
    (hn : w.next h = .ok (h', some r, w')) : r.block = w.buf := by
  unfold WordsR.next at hn
  split at hn
  · cases hn
  · simp only [Res.bind_eq_ok, Res.pure_def] at hn
    obtain ⟨⟨h1, w1, e1⟩, ha, s1, hs1, s2, hs2, n, hn, x, hx, h⟩ := hn
    cases h
    exact hs.buf

theorem patterns_nextLoopB {U : Unicode} : ∀ (fuel : Nat) {b : BHeap} {p p' : PatternsR} {lo : Bool} {h' : Heap},
    PB b p → p.next = none → PatternsR.nextLoop U fuel b.heap p lo = .ok (h', p') →
    ∃ b', PatternsR.nextLoopB U fuel b p lo = .ok (b', p') ∧ b'.heap = h' ∧ PB b' p' ∧ PStep b p b' p' := by
  intro fuel
  induction fuel with
  | zero => intro b p p' lo h' _ _ h; cases h
  | succ fuel ih =>
    intro b p p' lo h' hb hn h
    unfold PatternsR.nextLoop at h
    unfold PatternsR.nextLoopB
    simp only [Res.bind_eq_ok] at h
    obtain ⟨⟨h1, o, w1⟩, hw, h⟩ := h
    obtain ⟨a1, a2, a3⟩ := words_nextB hb.words hw
    rw [a1]
    simp only [Res.bind_ok]
    cases o with
    | none =>
      cases h
      obtain ⟨c1, c2⟩ := hb.word a2 a3 (by intro r hr; cases hr)
      exact ⟨_, rfl, rfl, c1, c2⟩
    | some r =>
      obtain ⟨c1, c2⟩ := hb.word a2 a3 (by intro r' hr; cases hr; exact words_next_block a2 hw)
      simp only [Res.bind_eq_ok] at h
      obtain ⟨l, hl, h⟩ := h
      simp only [hl, Res.bind_ok]
      split
      · rename_i hc
        rw [if_pos hc] at h
        simp only [Res.bind_eq_ok] at h
        obtain ⟨y, hy, h⟩ := h
        simp only [hy, Res.bind_ok]
        cases y with
        | none =>
          obtain ⟨b', d1, d2, d3, d4⟩ := ih c1 hn h
          exact ⟨b', d1, d2, d3, c2.trans d4⟩
        | some x =>
          have hx : BorrowedAt (r :: b.chars) w1.buf x.text :=
            ⟨⟨r, List.mem_cons_self, part_parse hy⟩,
              (part_parse hy).1.symm.trans ((words_next_block a2 hw).trans a2.buf.symm)⟩
          simp only at h ⊢
          cases lo with
          | true =>
            cases h
            refine ⟨_, rfl, rfl, ⟨c1.words, c1.below, c1.stored, ?_⟩,
              ⟨c2.buf, c2.wbuf, c2.le, c2.patterns, c2.conditions, c2.heap, c2.keep, c2.chars⟩⟩
            intro y hy
            cases hy
            exact hx
          | false =>
            simp only [Bool.false_eq_true, if_false, Res.bind_eq_ok] at h
            obtain ⟨⟨h2, p2⟩, ha, h⟩ := h
            obtain ⟨e1, e2, e3, e4⟩ := patterns_allocB c1 hx ha
            simp only [Bool.false_eq_true, if_false]
            erw [e1]
            simp only [Res.bind_ok]
            obtain ⟨b', d1, d2, d3, d4⟩ := ih e2 (e4.trans hn) h
            exact ⟨b', d1, d2, d3, (c2.trans e3).trans d4⟩
      · rename_i hc
        rw [if_neg hc] at h
        obtain ⟨b', d1, d2, d3, d4⟩ := ih c1 hn h
        exact ⟨b', d1, d2, d3, c2.trans d4⟩

theorem patterns_nextItemB {U : Unicode} {b : BHeap} {p p' : PatternsR} {o : Option ConditionR} {h' : Heap} (hb : PB b p)
    (h : p.nextItem U b.heap = .ok (h', o, p')) :
    ∃ b', p.nextItemB U b = .ok ({ b' with patterns := o.toList ++ b'.patterns }, o, p') ∧ b'.heap = h' ∧
      PB { b' with patterns := o.toList ++ b'.patterns } p' ∧ PStep b p b' p' ∧ ∀ r, o = some r → r.block = p.buf := by
  have key : ∀ {b1 : BHeap} {p1 : PatternsR} {lo : Bool}, PB b1 p1 → p1.next = none → PStep b p b1 p1 →
      (do
        let (h, p2) ← PatternsR.nextLoop U (p1.words.s.length + 1) b1.heap p1 lo
        if p2.allocated == p.allocated then
          return (h, none, p2)
        else
          let condition : ConditionR := ⟨p2.buf, p.allocated, ← subR p2.allocated p.allocated⟩
          let _ ← readR h.patterns condition
          return (h, some condition, p2) : Res (Heap × Option ConditionR × PatternsR)) = .ok (h', o, p') →
      ∃ b', (do
        let (h, p2) ← PatternsR.nextLoopB U (p1.words.s.length + 1) b1 p1 lo
        if p2.allocated == p.allocated then
          return (h, none, p2)
        else
          let condition : ConditionR := ⟨p2.buf, p.allocated, ← subR p2.allocated p.allocated⟩
          let _ ← readR h.heap.patterns condition
          return ({ h with patterns := condition :: h.patterns }, some condition, p2) :
            Res (BHeap × Option ConditionR × PatternsR)) = .ok ({ b' with patterns := o.toList ++ b'.patterns }, o, p') ∧
      b'.heap = h' ∧ PB { b' with patterns := o.toList ++ b'.patterns } p' ∧ PStep b p b' p' ∧
      ∀ r, o = some r → r.block = p.buf := by
    intro b1 p1 lo hb1 hn hs h
    simp only [Res.bind_eq_ok] at h
    obtain ⟨⟨h2, p2⟩, hl, h⟩ := h
    obtain ⟨b', d1, rfl, d3, d4⟩ := patterns_nextLoopB _ hb1 hn hl
    rw [d1]
    simp only [Res.bind_ok]
    simp only at h
    split
    · rename_i hc
      rw [if_pos hc] at h
      cases h
      exact ⟨b', rfl, rfl, d3, hs.trans d4, by intro r hr; cases hr⟩
    · rename_i hc
      rw [if_neg hc] at h
      simp only [Res.bind_eq_ok, Res.pure_def] at h
      obtain ⟨n, hn, x, hx, h⟩ := h
      cases h
      simp only [hn, hx, Res.bind_ok, Res.pure_def]
      have st := hs.trans d4
      refine ⟨b', rfl, rfl, ⟨d3.words, ?_, d3.stored, d3.next⟩, st, ?_⟩
      · intro r hr e
        rcases List.mem_append.1 hr with hr | hr
        · simp only [Option.toList, List.mem_singleton] at hr
          subst hr
          unfold subR at hn
          split at hn
          · cases hn
            rename_i hle
            simp only at hle ⊢
            omega
          · cases hn
        · exact d3.below r hr e
      · intro r hr
        cases hr
        exact st.buf
  unfold PatternsR.nextItem at h
  unfold PatternsR.nextItemB
  cases hn : p.next with
  | none =>
    simp only [hn] at h ⊢
    exact key hb hn (.refl _ _) h
  | some x =>
    simp only [hn, Res.bind_assoc, Res.bind_eq_ok] at h
    obtain ⟨⟨h1, p1⟩, ha, h⟩ := h
    have hb0 : PB b { p with next := none } := ⟨hb.words, hb.below, hb.stored, by intro x hx; cases hx⟩
    obtain ⟨e1, e2, e3, e4⟩ := patterns_allocB hb0 (hb.next x hn) ha
    simp only [Res.bind_assoc]
    rw [e1]
    simp only [Res.bind_ok, Res.pure_def]
    refine key e2 e4 ?_ ?_
    · exact ⟨e3.buf, e3.wbuf, e3.le, e3.patterns, e3.conditions, e3.heap, e3.keep, e3.chars⟩
    · obtain ⟨a, ha, h⟩ := h
      cases ha
      simpa only [Res.bind_eq_ok, Res.pure_def] using h

/-! ### `FzfParser` -/

/-- What is borrowed while conditions are stored. -/
structure CB (b : BHeap) (p : PatternsR) (c k : Nat) : Prop where
  below : Below b.conditions c 0
  stored : ∀ l, b.heap.conditions c = some l → ∀ i < k, ∀ r, l[i]? = some r → r ∈ b.patterns ∧ r.block = p.buf

/-- What is new among the borrowed is in the parser's buffers, and nothing is forgotten. -/
structure Adds (b b' : BHeap) (P : FzfParserR) : Prop where
  chars : ∀ r ∈ b'.chars, r ∈ b.chars ∨ r.block = P.chars
  patterns : ∀ r ∈ b'.patterns, r ∈ b.patterns ∨ r.block = P.patterns
  conditions : ∀ r ∈ b'.conditions, r ∈ b.conditions ∨ r.block = P.conditions
  keepChars : ∀ r ∈ b.chars, r ∈ b'.chars
  keepPatterns : ∀ r ∈ b.patterns, r ∈ b'.patterns
  keepConditions : ∀ r ∈ b.conditions, r ∈ b'.conditions

theorem Adds.refl (b : BHeap) (P : FzfParserR) : Adds b b P :=
  ⟨fun _ h => .inl h, fun _ h => .inl h, fun _ h => .inl h, fun _ h => h, fun _ h => h, fun _ h => h⟩

theorem Adds.trans {b b' b'' : BHeap} {P : FzfParserR} (s : Adds b b' P) (t : Adds b' b'' P) : Adds b b'' P where
  chars r h := (t.chars r h).elim (s.chars r) .inr
  patterns r h := (t.patterns r h).elim (s.patterns r) .inr
  conditions r h := (t.conditions r h).elim (s.conditions r) .inr
  keepChars r h := t.keepChars r (s.keepChars r h)
  keepPatterns r h := t.keepPatterns r (s.keepPatterns r h)
  keepConditions r h := t.keepConditions r (s.keepConditions r h)

theorem parser_loopB {U : Unicode} {P : FzfParserR} : ∀ (fuel : Nat) {b : BHeap} {p : PatternsR} {k k' : Nat} {h' : Heap},
    PB b p → CB b p P.conditions k → p.buf = P.patterns → p.words.buf = P.chars →
    FzfParserR.parseLoop U P.conditions fuel b.heap p k = .ok (h', k') →
    ∃ b' p', FzfParserR.parseLoopB U P.conditions fuel b p k = .ok (b', k') ∧ b'.heap = h' ∧ PB b' p' ∧
      p'.buf = P.patterns ∧ p'.words.buf = P.chars ∧ CB b' p' P.conditions k' ∧ Adds b b' P := by
  intro fuel
  induction fuel with
  | zero => intro b p k k' h' _ _ _ _ h; cases h
  | succ fuel ih =>
    intro b p k k' h' hb hc hp hw h
    unfold FzfParserR.parseLoop at h
    unfold FzfParserR.parseLoopB
    simp only [Res.bind_eq_ok] at h
    obtain ⟨⟨h1, o, p1⟩, hi, h⟩ := h
    obtain ⟨b1, a1, rfl, a3, a4, a5⟩ := patterns_nextItemB hb hi
    rw [a1]
    simp only [Res.bind_ok]
    have add : Adds b { b1 with patterns := o.toList ++ b1.patterns } P := by
      refine ⟨fun r hr => by rw [← hw]; exact a4.chars r hr, fun r hr => ?_, fun r hr => .inl (by rw [← a4.conditions]; exact hr),
        a4.keep, fun r hr => List.mem_append_right _ (by rw [a4.patterns]; exact hr),
        fun r hr => by rw [← a4.conditions] at hr; exact hr⟩
      rcases List.mem_append.1 hr with hr | hr
      · exact .inr ((a5 r (by simpa using hr)).trans hp)
      · exact .inl (by rw [← a4.patterns]; exact hr)
    have cb : CB { b1 with patterns := o.toList ++ b1.patterns } p1 P.conditions k := by
      refine ⟨by rw [show ({ b1 with patterns := o.toList ++ b1.patterns } : BHeap).conditions = b.conditions from
        a4.conditions]; exact hc.below, fun l hl i hi r hr => ?_⟩
      have := hc.stored l (by rw [← a4.heap]; exact hl) i hi r hr
      exact ⟨List.mem_append_right _ (by rw [a4.patterns]; exact this.1), this.2.trans a4.buf.symm⟩
    cases o with
    | none =>
      cases h
      exact ⟨_, p1, rfl, rfl, a3, a4.buf.trans hp, a4.wbuf.trans hw, cb, add⟩
    | some r =>
      simp only [Res.bind_eq_ok] at h
      obtain ⟨l, hl, l', hl', h⟩ := h
      simp only
      rw [assertBuffer_ok cb.below]
      simp only [hl, hl', Res.bind_ok]
      obtain ⟨hlt, rfl⟩ := setR_ok hl'
      have hl0 : b1.heap.conditions P.conditions = some l := by
        cases hc : b1.heap.conditions P.conditions with
        | none => rw [hc] at hl; cases hl
        | some y => rw [hc] at hl; cases hl; rfl
      have hst : CB { b1 with heap := b1.heap.setConditions P.conditions (l.set k r), patterns := r :: b1.patterns } p1
          P.conditions (k + 1) := by
        refine ⟨cb.below, fun l' hl' i hi x hx => ?_⟩
        simp only [Heap.setConditions, update, if_true, Option.some.injEq] at hl'
        subst hl'
        rw [List.getElem?_set] at hx
        split at hx
        · rename_i he
          subst he
          cases hx
          exact ⟨List.mem_cons_self, (a5 _ rfl).trans a4.buf.symm⟩
        · rename_i he
          exact cb.stored l hl0 i (by omega) x hx
      obtain ⟨b', p', d1, d2, d3, d4, d4', d5, d6⟩ := ih
        (b := { b1 with heap := b1.heap.setConditions P.conditions (l.set k r), patterns := r :: b1.patterns }) (p := p1)
        ⟨a3.words, a3.below, a3.stored, a3.next⟩ hst (a4.buf.trans hp) (a4.wbuf.trans hw) h
      refine ⟨b', p', d1, d2, d3, d4, d4', d5, Adds.trans add ?_⟩
      exact ⟨d6.chars, d6.patterns, d6.conditions, d6.keepChars, d6.keepPatterns, d6.keepConditions⟩

/-- The rest of `FzfParser::parse`, once the buffers are large enough. -/
def parseTailB (U : Unicode) (h : BHeap) (t : List Char) (chars conditions patterns : Nat) :
    Res (BHeap × FzfParserR × FzfQueryR) := do
  assertBuffer h.patterns patterns
  assertBuffer h.chars chars
  let p ← PatternsR.new patterns chars t
  let (h, numConditions) ← FzfParserR.parseLoopB U conditions ((← Res.unwrap (h.heap.patterns patterns)).length + 1) h p 0
  let slice : Ref := ⟨conditions, 0, numConditions⟩
  let _ ← readR h.heap.conditions slice
  let q ← FzfQueryR.newExtended h.heap slice
  return ({ h with conditions := slice :: h.conditions }, ⟨chars, patterns, conditions⟩, q)

/-- The query's slices are borrowed, and in the parser's buffers. -/
def QueryAt (P : FzfParserR) (h : BHeap) : FzfQueryR → Prop
  | .notExtended x => BorrowedAt h.chars P.chars x.text
  | .extended r => BorrowedAt h.conditions P.conditions r ∧ ∀ rs, Reads h.heap.conditions r rs → ∀ c ∈ rs,
      BorrowedAt h.patterns P.patterns c ∧ ∀ xs, Reads h.heap.patterns c xs → ∀ x ∈ xs, BorrowedAt h.chars P.chars x.text

/-- A buffer's elements, from where they are read. -/
theorem reads_get {α : Type} {m : Nat → Option (List α)} {r : Ref} {l : List α} (h : Reads m r l) :
    ∃ buf, m r.block = some buf ∧ ∀ x ∈ l, ∃ i, r.start ≤ i ∧ i < r.start + r.len ∧ buf[i]? = some x := by
  obtain ⟨pre, post, h1, h2, h3⟩ := h
  refine ⟨_, h1, fun x hx => ?_⟩
  obtain ⟨i, hi, rfl⟩ := List.getElem_of_mem hx
  refine ⟨r.start + i, Nat.le_add_right _ _, by omega, ?_⟩
  rw [List.append_assoc, List.getElem?_append_right (by omega), List.getElem?_append_left (by omega),
    show r.start + i - pre.length = i by omega, List.getElem?_eq_getElem hi]

theorem reads_of_readR {α : Type} {m : Nat → Option (List α)} {r : Ref} {l : List α} (h : readR m r = .ok l) :
    Reads m r l := by
  obtain ⟨b, hb, hs⟩ := Res.bind_eq_ok.1 h
  cases hc : m r.block with
  | none => rw [hc] at hb; cases hb
  | some y =>
    rw [hc] at hb
    cases hb
    exact reads_of_slice hc hs

theorem parser_tailB {U : Unicode} {b : BHeap} {t : List Char} {P P' : FzfParserR} {h' : Heap} {q : FzfQueryR}
    (h1 : Below b.chars P.chars 0) (h2 : Below b.patterns P.patterns 0) (h3 : Below b.conditions P.conditions 0)
    (h : parseTail U b.heap t P.chars P.conditions P.patterns = .ok (h', P', q)) :
    ∃ b', parseTailB U b t P.chars P.conditions P.patterns = .ok (b', P', q) ∧ b'.heap = h' ∧ P' = P ∧ QueryAt P b' q ∧
      Adds b b' P := by
  unfold parseTail at h
  unfold parseTailB
  simp only [Res.bind_eq_ok, Res.pure_def] at h
  obtain ⟨p, hp, l, hl, ⟨h1', k⟩, hk, x, hx, q', hq, h⟩ := h
  cases h
  rw [assertBuffer_ok h1, assertBuffer_ok h2]
  simp only [Res.bind_ok, hp, hl]
  obtain ⟨e1, e2, e3, e4, e5⟩ : p.buf = P.patterns ∧ p.words.buf = P.chars ∧ p.allocated = 0 ∧ p.words.allocated = 0 ∧
      p.next = none := by
    unfold PatternsR.new WordsR.new at hp
    simp only [Res.bind_eq_ok, Res.pure_def] at hp
    obtain ⟨w, ⟨s, _, hw⟩, hp⟩ := hp
    cases hw
    cases hp
    exact ⟨rfl, rfl, rfl, rfl, rfl⟩
  obtain ⟨b', p', d1, rfl, d3, d4, d4', d5, d6⟩ := parser_loopB (P := P) _ (b := b) (p := p) (k := 0)
    ⟨by rw [e2]; exact h1.mono (Nat.zero_le _), by rw [e1]; exact h2.mono (Nat.zero_le _),
      fun l _ i hi => by omega, fun x hx => by rw [e5] at hx; cases hx⟩
    ⟨h3, fun l _ i hi => by omega⟩ e1 e2 hk
  simp only [d1, Res.bind_ok, hx, hq, Res.pure_def, true_and]
  refine ⟨_, rfl, rfl, ?_, d6.trans ⟨fun _ h => .inl h, fun _ h => .inl h, fun r hr => ?_, fun _ h => h, fun _ h => h,
    fun _ h => List.mem_cons_of_mem _ h⟩⟩
  · have cond : ∀ rs, Reads b'.heap.conditions ⟨P.conditions, 0, k⟩ rs → ∀ c ∈ rs,
        (c ∈ b'.patterns ∧ c.block = P.patterns) ∧
        ∀ xs, Reads b'.heap.patterns c xs → ∀ x ∈ xs, BorrowedAt b'.chars P.chars x.text := by
      intro rs hr c hc
      obtain ⟨buf, f1, f2⟩ := reads_get hr
      obtain ⟨i, _, f3, f4⟩ := f2 c hc
      obtain ⟨g1, g2⟩ := d5.stored buf f1 i (by simpa using f3) c f4
      refine ⟨⟨g1, g2.trans d4⟩, fun xs hxs x hx => ?_⟩
      obtain ⟨buf', f1', f2'⟩ := reads_get hxs
      obtain ⟨j, _, f3', f4'⟩ := f2' x hx
      rw [g2] at f1'
      have := d3.below c g1 g2
      rw [← d4']
      exact d3.stored buf' f1' j (by omega) x f4'
    unfold FzfQueryR.newExtended at hq
    have ext : QueryAt P { b' with conditions := ⟨P.conditions, 0, k⟩ :: b'.conditions }
        (.extended ⟨P.conditions, 0, k⟩) :=
      ⟨⟨⟨_, List.mem_cons_self, Part.refl _⟩, rfl⟩, fun rs hr c hc =>
        ⟨⟨⟨c, (cond rs hr c hc).1.1, Part.refl _⟩, (cond rs hr c hc).1.2⟩, (cond rs hr c hc).2⟩⟩
    split at hq
    · simp only [Res.bind_eq_ok] at hq
      obtain ⟨rs, hrs, c, hc, xs, hxs, y, hy, hq⟩ := hq
      split at hq
      · cases hq
        have hc' : c ∈ rs := List.mem_of_getElem? (getR_eq_ok.1 hc)
        refine (cond rs (reads_of_readR hrs) c hc').2 xs (reads_of_readR hxs) _ ?_
        cases xs with
        | nil => cases hy
        | cons a l => cases hy; exact List.mem_cons_self
      · cases hq
        exact ext
    · cases hq
      exact ext
  · rcases List.mem_cons.1 hr with rfl | hr
    · exact .inr rfl
    · exact .inl hr

theorem below_expire_chars (b : BHeap) (P : FzfParserR) : Below (b.expire P).chars P.chars 0 := by
  intro r hr e
  have := (List.mem_filter.1 hr).2
  rw [e] at this
  simp at this

theorem below_expire_patterns (b : BHeap) (P : FzfParserR) : Below (b.expire P).patterns P.patterns 0 := by
  intro r hr e
  have := (List.mem_filter.1 hr).2
  rw [e] at this
  simp at this

theorem below_expire_conditions (b : BHeap) (P : FzfParserR) : Below (b.expire P).conditions P.conditions 0 := by
  intro r hr e
  have := (List.mem_filter.1 hr).2
  rw [e] at this
  simp at this

/-- What is borrowed is in allocations that have been made. -/
structure BWf (b : BHeap) : Prop where
  chars : ∀ r ∈ b.chars, r.block < b.heap.next
  patterns : ∀ r ∈ b.patterns, r.block < b.heap.next
  conditions : ∀ r ∈ b.conditions, r.block < b.heap.next

theorem BWf.mono {b : BHeap} {h : Heap} (hb : BWf b) (hn : b.heap.next ≤ h.next) : BWf { b with heap := h } :=
  ⟨fun r hr => Nat.lt_of_lt_of_le (hb.chars r hr) hn, fun r hr => Nat.lt_of_lt_of_le (hb.patterns r hr) hn,
    fun r hr => Nat.lt_of_lt_of_le (hb.conditions r hr) hn⟩

theorem BWf.expire {b : BHeap} (hb : BWf b) (P : FzfParserR) : BWf (b.expire P) :=
  ⟨fun r hr => hb.chars r (List.mem_filter.1 hr).1, fun r hr => hb.patterns r (List.mem_filter.1 hr).1,
    fun r hr => hb.conditions r (List.mem_filter.1 hr).1⟩

theorem below_fresh {refs : List Ref} {n m : Nat} (h : ∀ r ∈ refs, r.block < m) (hm : m ≤ n) : Below refs n 0 := by
  intro r hr e
  have := h r hr
  omega

theorem parserB_stages (U : Unicode) (b : BHeap) (P : FzfParserR) (mv : Moves) (t : List Char) : P.parseB U b mv t =
    ((do
        if (← Res.unwrap ((b.expire P).heap.chars P.chars)).length < strLen t then
          (do
            assertBuffer (b.expire P).chars P.chars
            let (heap, chars) ← (b.expire P).heap.growChars mv.chars P.chars (strLen t)
            return ({ (b.expire P) with heap := heap }, chars) : Res (BHeap × Nat))
        else pure (b.expire P, P.chars) : Res (BHeap × Nat)) >>= fun x =>
      (do
        if (← Res.unwrap (x.1.heap.conditions P.conditions)).length < strLen t / 2 + 1 then
          (do
            assertBuffer x.1.conditions P.conditions
            let (heap, conditions) ← x.1.heap.growConditions mv.conditions P.conditions (strLen t / 2 + 1)
            return ({ x.1 with heap := heap }, conditions) : Res (BHeap × Nat))
        else pure (x.1, P.conditions) : Res (BHeap × Nat)) >>= fun y =>
      (do
        if (← Res.unwrap (y.1.heap.patterns P.patterns)).length < strLen t / 2 + 1 then
          (do
            assertBuffer y.1.patterns P.patterns
            let (heap, patterns) ← y.1.heap.growPatterns mv.patterns P.patterns (strLen t / 2 + 1)
            return ({ y.1 with heap := heap }, patterns) : Res (BHeap × Nat))
        else pure (y.1, P.patterns) : Res (BHeap × Nat)) >>= fun z => parseTailB U z.1 t x.2 y.2 z.2) := by
  unfold FzfParserR.parseB parseTailB
  simp only [Res.bind_assoc, ite_bindR]

theorem unwrap_eq {α : Type} {x : Option α} {a : α} (h : Res.unwrap x = .ok a) : x = some a := by
  cases x with
  | none => cases h
  | some y => cases h; rfl

/-- Growing a buffer, with and without the record of what is borrowed. -/
theorem grow_stage {α : Type} {b : BHeap} {m : Option (List α)} {refs : List Ref} {c n : Nat} {g : Res (Heap × Nat)}
    {x : Heap × Nat} (hb : Below refs c 0)
    (h : (do if (← Res.unwrap m).length < n then g else pure (b.heap, c) : Res (Heap × Nat)) = .ok x) :
    (do
      if (← Res.unwrap m).length < n then
        (do
          assertBuffer refs c
          let (heap, c) ← g
          return ({ b with heap := heap }, c) : Res (BHeap × Nat))
      else pure (b, c) : Res (BHeap × Nat)) = .ok ({ b with heap := x.1 }, x.2) ∧ (x = (b.heap, c) ∨ g = .ok x) := by
  obtain ⟨l, hl, h⟩ := Res.bind_eq_ok.1 h
  rw [hl]
  simp only [Res.bind_ok]
  split
  · rename_i hc
    rw [if_pos hc] at h
    subst h
    rw [assertBuffer_ok hb]
    exact ⟨rfl, .inr rfl⟩
  · rename_i hc
    rw [if_neg hc] at h
    cases h
    exact ⟨rfl, .inl rfl⟩

theorem growChars_next {h : Heap} {mv : Bool} {c n : Nat} {x : Heap × Nat} (hx : h.growChars mv c n = .ok x) :
    (x.2 = c ∨ x.2 = h.next) ∧ h.next ≤ x.1.next := by
  unfold Heap.growChars at hx
  obtain ⟨l, _, hx⟩ := Res.bind_eq_ok.1 hx
  cases mv <;> cases hx
  · exact ⟨.inl rfl, Nat.le_refl _⟩
  · exact ⟨.inr rfl, Nat.le_succ _⟩

theorem growConditions_next {h : Heap} {mv : Bool} {c n : Nat} {x : Heap × Nat} (hx : h.growConditions mv c n = .ok x) :
    (x.2 = c ∨ x.2 = h.next) ∧ h.next ≤ x.1.next := by
  unfold Heap.growConditions at hx
  obtain ⟨l, _, hx⟩ := Res.bind_eq_ok.1 hx
  cases mv <;> cases hx
  · exact ⟨.inl rfl, Nat.le_refl _⟩
  · exact ⟨.inr rfl, Nat.le_succ _⟩

theorem growPatterns_next {h : Heap} {mv : Bool} {c n : Nat} {x : Heap × Nat} (hx : h.growPatterns mv c n = .ok x) :
    (x.2 = c ∨ x.2 = h.next) ∧ h.next ≤ x.1.next := by
  unfold Heap.growPatterns at hx
  obtain ⟨l, _, hx⟩ := Res.bind_eq_ok.1 hx
  cases mv <;> cases hx
  · exact ⟨.inl rfl, Nat.le_refl _⟩
  · exact ⟨.inr rfl, Nat.le_succ _⟩

theorem parser_parseB {U : Unicode} {b : BHeap} {mv : Moves} {t : List Char} {P P' : FzfParserR} {h' : Heap} {q : FzfQueryR}
    (hw : BWf b) (h : P.parse U b.heap mv t = .ok (h', P', q)) :
    ∃ b', P.parseB U b mv t = .ok (b', P', q) ∧ b'.heap = h' ∧ QueryAt P' b' q ∧ Adds (b.expire P) b' P' := by
  rw [parseR_stages] at h
  rw [parserB_stages]
  obtain ⟨⟨hx, cx⟩, hx1, h⟩ := Res.bind_eq_ok.1 h
  obtain ⟨⟨hy, cy⟩, hy1, h⟩ := Res.bind_eq_ok.1 h
  obtain ⟨⟨hz, cz⟩, hz1, h⟩ := Res.bind_eq_ok.1 h
  obtain ⟨a1, a2⟩ := grow_stage (b := b.expire P) (below_expire_chars b P) hx1
  obtain ⟨b1, b2⟩ := grow_stage (b := { (b.expire P) with heap := hx }) (below_expire_conditions b P) hy1
  obtain ⟨c1, c2⟩ := grow_stage (b := { (b.expire P) with heap := hy }) (below_expire_patterns b P) hz1
  have hwe := hw.expire P
  have n0 : (b.expire P).heap.next = b.heap.next := rfl
  have a3 : (cx = P.chars ∨ cx = b.heap.next) ∧ b.heap.next ≤ hx.next := by
    rcases a2 with a2 | a2
    · cases a2; exact ⟨.inl rfl, Nat.le_refl _⟩
    · exact growChars_next a2
  have b3 : (cy = P.conditions ∨ cy = hx.next) ∧ hx.next ≤ hy.next := by
    rcases b2 with b2 | b2
    · cases b2; exact ⟨.inl rfl, Nat.le_refl _⟩
    · exact growConditions_next b2
  have c3 : (cz = P.patterns ∨ cz = hy.next) ∧ hy.next ≤ hz.next := by
    rcases c2 with c2 | c2
    · cases c2; exact ⟨.inl rfl, Nat.le_refl _⟩
    · exact growPatterns_next c2
  obtain ⟨b', d1, d2, d3, d4, d5⟩ := parser_tailB (b := { (b.expire P) with heap := hz }) (P := ⟨cx, cz, cy⟩)
    (by
      rcases a3.1 with e | e
      · rw [e]; exact below_expire_chars b P
      · rw [e]; exact below_fresh hwe.chars (Nat.le_of_eq n0))
    (by
      rcases c3.1 with e | e
      · rw [e]; exact below_expire_patterns b P
      · rw [e]; exact below_fresh hwe.patterns (by rw [n0]; simp only; omega))
    (by
      rcases b3.1 with e | e
      · rw [e]; exact below_expire_conditions b P
      · rw [e]; exact below_fresh hwe.conditions (by rw [n0]; simp only; omega)) h
  subst d3
  refine ⟨b', ?_, d2, d4, ⟨d5.chars, d5.patterns, d5.conditions, d5.keepChars, d5.keepPatterns, d5.keepConditions⟩⟩
  erw [a1]
  simp only [Res.bind_ok]
  erw [b1]
  simp only [Res.bind_ok]
  erw [c1]
  simp only [Res.bind_ok]
  exact d1

theorem parser_writeCharsB {c : Nat} (l : List Char) : ∀ {b : BHeap} {k k' : Nat} {h' : Heap}, Below b.chars c 0 →
    FzfParserR.writeChars c b.heap l k = .ok (h', k') →
    FzfParserR.writeCharsB c b l k = .ok ({ b with heap := h' }, k') := by
  induction l with
  | nil =>
    intro b k k' h' _ h
    unfold FzfParserR.writeChars at h
    cases h
    rfl
  | cons ch rest ih =>
    intro b k k' h' hb h
    unfold FzfParserR.writeChars at h
    unfold FzfParserR.writeCharsB
    simp only [Res.bind_eq_ok] at h
    obtain ⟨l, h1, l', h2, h3⟩ := h
    rw [assertBuffer_ok hb]
    simp only [Res.bind_ok, h1, h2]
    exact ih (b := { b with heap := b.heap.setChars c l' }) hb h3

theorem parser_parseNotExtendedB {U : Unicode} {b : BHeap} {t : List Char} {P : FzfParserR} {h' : Heap} {q : FzfQueryR}
    (h : P.parseNotExtended U b.heap t = .ok (h', q)) :
    ∃ b', P.parseNotExtendedB U b t = .ok (b', q) ∧ b'.heap = h' ∧ QueryAt P b' q ∧ Adds (b.expire P) b' P := by
  unfold FzfParserR.parseNotExtended at h
  unfold FzfParserR.parseNotExtendedB
  simp only [Res.bind_eq_ok, Res.pure_def] at h
  obtain ⟨⟨h1, k⟩, hk, q', hq, h⟩ := h
  cases h
  have := parser_writeCharsB t (b := b.expire P) (below_expire_chars b P) hk
  simp only [this, hq, Res.bind_ok, Res.pure_def]
  refine ⟨_, rfl, rfl, ?_, ⟨fun r hr => ?_, fun _ h => .inl h, fun _ h => .inl h, fun _ h => List.mem_cons_of_mem _ h,
    fun _ h => h, fun _ h => h⟩⟩
  · unfold FzfQueryR.newNotExtended PatternR.raw at hq
    simp only [Res.bind_eq_ok, Res.pure_def] at hq
    obtain ⟨x, ⟨l, _, hx⟩, hq⟩ := hq
    cases hx
    cases hq
    exact ⟨⟨_, List.mem_cons_self, Part.refl _⟩, rfl⟩
  · rcases List.mem_cons.1 hr with rfl | hr
    · exact .inr rfl
    · exact .inl hr

theorem parser_writeChars_of_B {c : Nat} (l : List Char) : ∀ {b b' : BHeap} {k k' : Nat},
    FzfParserR.writeCharsB c b l k = .ok (b', k') → FzfParserR.writeChars c b.heap l k = .ok (b'.heap, k') := by
  induction l with
  | nil =>
    intro b b' k k' h
    unfold FzfParserR.writeCharsB at h
    cases h
    rfl
  | cons ch rest ih =>
    intro b b' k k' h
    unfold FzfParserR.writeCharsB at h
    unfold FzfParserR.writeChars
    simp only [Res.bind_eq_ok] at h
    obtain ⟨_, _, l, h1, l', h2, h3⟩ := h
    simp only [Res.bind_ok, h1, h2]
    exact ih h3

theorem parser_parseNotExtended_of_B {U : Unicode} {b b' : BHeap} {t : List Char} {P : FzfParserR} {q : FzfQueryR}
    (h : P.parseNotExtendedB U b t = .ok (b', q)) : P.parseNotExtended U b.heap t = .ok (b'.heap, q) := by
  unfold FzfParserR.parseNotExtendedB at h
  unfold FzfParserR.parseNotExtended
  simp only [Res.bind_eq_ok, Res.pure_def] at h
  obtain ⟨⟨b1, k⟩, hk, q', hq, h⟩ := h
  cases h
  have := parser_writeChars_of_B t hk
  rw [show (b.expire P).heap = b.heap from rfl] at this
  simp only [this, hq, Res.bind_ok, Res.pure_def]

theorem Adds.wf {b b' : BHeap} {P : FzfParserR} (ha : Adds b b' P) (hb : BWf b) (hn : b.heap.next ≤ b'.heap.next)
    {cs : List Char} {ps : List PatternR} {ds : List ConditionR} (hl : Live b'.heap P cs ps ds) : BWf b' where
  chars r hr := (ha.chars r hr).elim (fun h => Nat.lt_of_lt_of_le (hb.chars r h) hn) (fun h => by rw [h]; exact hl.charsLt)
  patterns r hr :=
    (ha.patterns r hr).elim (fun h => Nat.lt_of_lt_of_le (hb.patterns r h) hn) (fun h => by rw [h]; exact hl.patternsLt)
  conditions r hr :=
    (ha.conditions r hr).elim (fun h => Nat.lt_of_lt_of_le (hb.conditions r h) hn) (fun h => by rw [h]; exact hl.conditionsLt)

/-- What is borrowed of the buffers of `P` in `b` still is in `b'`. -/
structure BKeeps (P : FzfParserR) (b b' : BHeap) : Prop where
  chars : ∀ r ∈ b.chars, r.block = P.chars → r ∈ b'.chars
  patterns : ∀ r ∈ b.patterns, r.block = P.patterns → r ∈ b'.patterns
  conditions : ∀ r ∈ b.conditions, r.block = P.conditions → r ∈ b'.conditions

theorem bkeeps_expire {P Q : FzfParserR} (b : BHeap) (h : Q.chars ≠ P.chars ∧ Q.patterns ≠ P.patterns ∧
    Q.conditions ≠ P.conditions) : BKeeps Q b (b.expire P) := by
  refine ⟨fun r hr e => List.mem_filter.2 ⟨hr, ?_⟩, fun r hr e => List.mem_filter.2 ⟨hr, ?_⟩,
    fun r hr e => List.mem_filter.2 ⟨hr, ?_⟩⟩
  · rw [e]; simpa using h.1
  · rw [e]; simpa using h.2.1
  · rw [e]; simpa using h.2.2

theorem BKeeps.adds {P Q : FzfParserR} {b b' b'' : BHeap} (hk : BKeeps Q b b') (ha : Adds b' b'' P) : BKeeps Q b b'' :=
  ⟨fun r hr e => ha.keepChars r (hk.chars r hr e), fun r hr e => ha.keepPatterns r (hk.patterns r hr e),
    fun r hr e => ha.keepConditions r (hk.conditions r hr e)⟩

/-- An operation with the record of what is borrowed is one without. -/
theorem stepB_step {U : Unicode} {j : Nat} {w w' : BWorld} (hs : StepB U j w w') (hi : WInv w.world) (hb : BWf w.mem) :
    Step U j w.world w'.world ∧ BWf w'.mem ∧
      ∀ i Q, i ≠ j → w.parsers i = some Q → BKeeps Q w.mem w'.mem := by
  have same : ∀ (Q : FzfParserR) (h : Heap), BKeeps Q w.mem { w.mem with heap := h } :=
    fun Q h => ⟨fun _ h _ => h, fun _ h _ => h, fun _ h _ => h⟩
  have ap : ∀ {i Q P}, i ≠ j → w.parsers i = some Q → w.parsers j = some P →
      Q.chars ≠ P.chars ∧ Q.patterns ≠ P.patterns ∧ Q.conditions ≠ P.conditions :=
    fun {i Q P} hij hQ hP => hi.apart i j Q P hij hQ hP
  cases hs with
  | new hn => exact ⟨.new hn, hb.mono (Nat.le_succ _), fun i Q _ _ => same Q _⟩
  | clone hn hP hc =>
    have st : Step U j w.world _ := .clone hn hP hc
    exact ⟨st, hb.mono (step_keeps st hi).next, fun i Q _ _ => same Q _⟩
  | @drop P hP =>
    refine ⟨.drop hP, (hb.expire P).mono (Nat.le_refl _), fun i Q hij hQ => ?_⟩
    have := bkeeps_expire w.mem (ap hij hQ hP)
    exact ⟨this.chars, this.patterns, this.conditions⟩
  | @parse P mv t b' P' q hP hp =>
    obtain ⟨_, _, _, hl⟩ := hi.live _ _ hP
    obtain ⟨h2, P2, q2, e, hf, ⟨_, _, _, hl'⟩, _⟩ := parserR_parse U mv t hl
    obtain ⟨b2, e2, rfl, _, ha⟩ := parser_parseB hb e
    rw [hp] at e2
    cases e2
    exact ⟨.parse hP e, ha.wf (hb.expire P) hf.next hl', fun i Q hij hQ => (bkeeps_expire w.mem (ap hij hQ hP)).adds ha⟩
  | @parseNotExtended P t b' q hP hp =>
    obtain ⟨_, _, _, hl⟩ := hi.live _ _ hP
    have e := parser_parseNotExtended_of_B hp
    obtain ⟨b2, e2, _, _, ha⟩ := parser_parseNotExtendedB e
    rw [hp] at e2
    cases e2
    have st : Step U j w.world ⟨b'.heap, w.parsers⟩ := .parseNotExtended hP e
    have hk := step_keeps st hi
    obtain ⟨⟨_, _, _, hl'⟩, _⟩ := hk.self P hP
    exact ⟨st, ha.wf (hb.expire P) hk.next hl', fun i Q hij hQ => (bkeeps_expire w.mem (ap hij hQ hP)).adds ha⟩
  | @unwound P h' P' hP hu =>
    refine ⟨.unwound hP hu, (hb.expire P).mono hu.next, fun i Q hij hQ => ?_⟩
    have := bkeeps_expire w.mem (ap hij hQ hP)
    exact ⟨this.chars, this.patterns, this.conditions⟩

theorem reachableB {U : Unicode} {w : BWorld} (hw : ReachableB U w) : ReachableWorld U w.world ∧ BWf w.mem := by
  induction hw with
  | init => exact ⟨.init, ⟨fun _ h => (nomatch h), fun _ h => (nomatch h), fun _ h => (nomatch h)⟩⟩
  | step _ hs ih =>
    obtain ⟨h1, h2, _⟩ := stepB_step hs (reachable_winv ih.1) ih.2
    exact ⟨.step ih.1 h1, h2⟩

theorem stepsB_keep {U : Unicode} {i : Nat} {w w' : BWorld} {P : FzfParserR} (hs : StepsB U i w w') (hi : WInv w.world)
    (hb : BWf w.mem) (hP : w.parsers i = some P) : WInv w'.world ∧ BWf w'.mem ∧ w'.parsers i = some P ∧
      Agrees P w.mem.heap w'.mem.heap ∧ BKeeps P w.mem w'.mem := by
  induction hs with
  | refl => exact ⟨hi, hb, hP, ⟨rfl, rfl, rfl⟩, ⟨fun _ h _ => h, fun _ h _ => h, fun _ h _ => h⟩⟩
  | step _ hj hs ih =>
    obtain ⟨i1, b1, p1, a1, k1⟩ := ih hi hb hP
    obtain ⟨s1, b2, k2⟩ := stepB_step hs i1 b1
    have hk := step_keeps s1 i1
    obtain ⟨p2, a2⟩ := hk.other i P (Ne.symm hj) p1
    have k3 := k2 i P (Ne.symm hj) p1
    exact ⟨hk.inv i1, b2, p2, ⟨a2.chars.trans a1.chars, a2.patterns.trans a1.patterns, a2.conditions.trans a1.conditions⟩,
      ⟨fun r hr e => k3.chars r (k1.chars r hr e) e, fun r hr e => k3.patterns r (k1.patterns r hr e) e,
        fun r hr e => k3.conditions r (k1.conditions r hr e) e⟩⟩

theorem borrowed_keep {refs refs' : List Ref} {b : Nat} {r : Ref} (h : BorrowedAt refs b r)
    (hk : ∀ r ∈ refs, r.block = b → r ∈ refs') : BorrowedAt refs' b r := by
  obtain ⟨⟨r', h1, h2, h3⟩, rfl⟩ := h
  exact ⟨⟨r', hk r' h1 h2, h2, h3⟩, rfl⟩

theorem reads_agree {α : Type} {m m' : Nat → Option (List α)} {r : Ref} {l : List α} (h : Reads m' r l)
    (e : m' r.block = m r.block) : Reads m r l := by
  obtain ⟨pre, post, h1, h2⟩ := h
  exact ⟨pre, post, e ▸ h1, h2⟩

theorem queryAt_keep {P : FzfParserR} {b b' : BHeap} {q : FzfQueryR} (hq : QueryAt P b q) (ha : Agrees P b.heap b'.heap)
    (hk : BKeeps P b b') : QueryBorrowed b' q := by
  cases q with
  | notExtended x => exact (borrowed_keep hq hk.chars).1
  | extended r =>
    refine ⟨(borrowed_keep hq.1 hk.conditions).1, fun rs hrs c hc => ?_⟩
    have h := hq.2 rs (reads_agree hrs (by rw [hq.1.2]; exact ha.conditions)) c hc
    exact ⟨(borrowed_keep h.1 hk.patterns).1, fun xs hxs x hx =>
      (borrowed_keep (h.2 xs (reads_agree hxs (by rw [h.1.2]; exact ha.patterns)) x hx) hk.chars).1⟩

end Norm
