import Verif.Proofs.Borrows

/-! While no buffer is moved or freed, the references in the parsers' buffers stay valid. -/

namespace Norm
open Spec

theorem validRef_iff {α : Type} {m : Nat → Option (List α)} {r : Ref} :
    ValidRef m r ↔ r.len = 0 ∨ ∃ buf, m r.block = some buf ∧ r.start + r.len ≤ buf.length := by
  unfold ValidRef
  constructor
  · rintro (h | ⟨l, pre, post, h1, h2, h3⟩)
    · exact .inl h
    · exact .inr ⟨_, h1, by simp only [List.length_append]; omega⟩
  · rintro (h | ⟨buf, h1, h2⟩)
    · exact .inl h
    · refine .inr ⟨(buf.drop r.start).take r.len, buf.take r.start, (buf.drop r.start).drop r.len, ?_, ?_, ?_⟩
      · rw [List.append_assoc, List.take_append_drop, List.take_append_drop, h1]
      · simp only [List.length_take]; omega
      · simp only [List.length_take, List.length_drop]; omega

/-- The allocations of `m` are there in `m'`, and no shorter, and no others. -/
structure BLe {α : Type} (m m' : Nat → Option (List α)) : Prop where
  some : ∀ b l, m b = some l → ∃ l', m' b = some l' ∧ l.length ≤ l'.length
  none : ∀ b, m b = none → m' b = none

theorem BLe.refl {α : Type} (m : Nat → Option (List α)) : BLe m m := ⟨fun _ l h => ⟨l, h, Nat.le_refl _⟩, fun _ h => h⟩
theorem BLe.trans {α : Type} {m m' m'' : Nat → Option (List α)} (a : BLe m m') (b : BLe m' m'') : BLe m m'' := by
  refine ⟨fun i l h => ?_, fun i h => b.none i (a.none i h)⟩
  obtain ⟨l', h1, h2⟩ := a.some i l h
  obtain ⟨l'', h3, h4⟩ := b.some i l' h1
  exact ⟨l'', h3, by omega⟩

theorem BLe.valid {α : Type} {m m' : Nat → Option (List α)} {r : Ref} (h : BLe m m') (hv : ValidRef m r) : ValidRef m' r := by
  rw [validRef_iff] at hv ⊢
  rcases hv with hv | ⟨buf, h1, h2⟩
  · exact .inl hv
  · obtain ⟨l', h3, h4⟩ := h.some _ _ h1
    exact .inr ⟨l', h3, by omega⟩

theorem bLe_update {α : Type} {m : Nat → Option (List α)} {b : Nat} {l l' : List α} (h : m b = some l)
    (hl : l.length ≤ l'.length) : BLe m (update m b (some l')) := by
  refine ⟨fun i k hk => ?_, fun i hi => ?_⟩
  · unfold update
    split
    · rename_i e
      rw [e, h] at hk
      cases hk
      exact ⟨l', rfl, hl⟩
    · exact ⟨k, hk, Nat.le_refl _⟩
  · rw [update_ne]
    · exact hi
    · rintro rfl
      rw [h] at hi
      cases hi

/-- All the references in memory are valid, and what has not been allocated is not there. -/
structure Sound (h : Heap) : Prop where
  patterns : ∀ b l, h.patterns b = some l → ∀ x ∈ l, ValidRef h.chars x.text
  conditions : ∀ b l, h.conditions b = some l → ∀ c ∈ l, ValidRef h.patterns c
  charsNew : ∀ b, h.next ≤ b → h.chars b = none
  patternsNew : ∀ b, h.next ≤ b → h.patterns b = none

/-- `h'` is a later memory than `h`. -/
structure Later (h h' : Heap) : Prop where
  chars : BLe h.chars h'.chars
  patterns : BLe h.patterns h'.patterns
  next : h'.next = h.next

theorem Later.refl (h : Heap) : Later h h := ⟨.refl _, .refl _, rfl⟩
theorem Later.trans {h h' h'' : Heap} (a : Later h h') (b : Later h' h'') : Later h h'' :=
  ⟨a.chars.trans b.chars, a.patterns.trans b.patterns, b.next.trans a.next⟩

theorem valid_of_read {α : Type} {m : Nat → Option (List α)} {r : Ref} {l : List α} (h : readR m r = .ok l) : ValidRef m r :=
  .inr ⟨l, reads_of_readR h⟩

theorem valid_part {α : Type} {m : Nat → Option (List α)} {r r' : Ref} (hp : Part r r') (hv : ValidRef m r') :
    ValidRef m r := by
  rw [validRef_iff] at hv ⊢
  obtain ⟨h1, h2, h3⟩ := hp
  rcases hv with hv | ⟨buf, h4, h5⟩
  · exact .inl (by omega)
  · exact .inr ⟨buf, h1 ▸ h4, by omega⟩

/-- Writing characters. -/
theorem sound_setChars {h : Heap} {b : Nat} {l l' : List Char} (hs : Sound h) (hb : h.chars b = some l)
    (hl : l.length ≤ l'.length) : Sound (h.setChars b l') ∧ Later h (h.setChars b l') := by
  have le : BLe h.chars (h.setChars b l').chars := bLe_update hb hl
  exact ⟨⟨fun i k hk x hx => le.valid (hs.patterns i k hk x hx), hs.conditions,
    fun i hi => le.none i (hs.charsNew i hi), hs.patternsNew⟩, le, .refl _, rfl⟩

/-- Writing patterns. -/
theorem sound_setPatterns {h : Heap} {b : Nat} {l l' : List PatternR} (hs : Sound h) (hb : h.patterns b = some l)
    (hl : l.length ≤ l'.length) (hv : ∀ x ∈ l', ValidRef h.chars x.text) :
    Sound (h.setPatterns b l') ∧ Later h (h.setPatterns b l') := by
  have le : BLe h.patterns (h.setPatterns b l').patterns := bLe_update hb hl
  refine ⟨⟨fun i k hk x hx => ?_, fun i k hk c hc => le.valid (hs.conditions i k hk c hc), hs.charsNew,
    fun i hi => le.none i (hs.patternsNew i hi)⟩, .refl _, le, rfl⟩
  simp only [Heap.setPatterns, update] at hk
  split at hk
  · cases hk
    exact hv x hx
  · exact hs.patterns i k hk x hx

/-- Writing conditions. -/
theorem sound_setConditions {h : Heap} {b : Nat} {l' : List ConditionR} (hs : Sound h)
    (hv : ∀ x ∈ l', ValidRef h.patterns x) : Sound (h.setConditions b l') ∧ Later h (h.setConditions b l') := by
  refine ⟨⟨hs.patterns, fun i k hk c hc => ?_, hs.charsNew, hs.patternsNew⟩, .refl _, .refl _, rfl⟩
  simp only [Heap.setConditions, update] at hk
  split at hk
  · cases hk
    exact hv c hc
  · exact hs.conditions i k hk c hc

theorem mem_set {α : Type} {l : List α} {i : Nat} {a x : α} (h : x ∈ l.set i a) : x = a ∨ x ∈ l :=
  (List.mem_or_eq_of_mem_set h).symm

theorem words_alloc_sound (l : List Char) : ∀ {h h' : Heap} {w w' : WordsR}, Sound h → w.alloc h l = .ok (h', w') →
    Sound h' ∧ Later h h' := by
  induction l with
  | nil =>
    intro h h' w w' hs e
    unfold WordsR.alloc at e
    cases e
    exact ⟨hs, .refl _⟩
  | cons ch rest ih =>
    intro h h' w w' hs e
    unfold WordsR.alloc at e
    simp only [Res.bind_eq_ok] at e
    obtain ⟨l, h1, l', h2, h3⟩ := e
    obtain ⟨_, rfl⟩ := setR_ok h2
    obtain ⟨a1, a2⟩ := sound_setChars hs (unwrap_eq h1) (l' := l.set w.allocated ch) (by simp)
    obtain ⟨b1, b2⟩ := ih a1 h3
    exact ⟨b1, a2.trans b2⟩

theorem words_nextLoop_sound : ∀ (fuel : Nat) {h h' : Heap} {w w' : WordsR} {s : List Char} {e e' : Nat}, Sound h →
    WordsR.nextLoop fuel h w s e = .ok (h', w', e') → Sound h' ∧ Later h h' := by
  intro fuel
  induction fuel with
  | zero => intro h h' w w' s e e' _ hh; cases hh
  | succ fuel ih =>
    intro h h' w w' s e e' hs hh
    unfold WordsR.nextLoop at hh
    cases hm : memchr 32 (strBytes s) with
    | none =>
      simp only [hm] at hh
      simp only [Res.bind_eq_ok, Res.pure_def] at hh
      obtain ⟨⟨h1, w1⟩, ha, hh⟩ := hh
      cases hh
      exact words_alloc_sound _ hs ha
    | some o =>
      cases o with
      | zero =>
        simp only [hm] at hh
        cases hh
        exact ⟨hs, .refl _⟩
      | succ o =>
        simp only [hm] at hh
        simp only [Res.bind_eq_ok] at hh
        obtain ⟨x, hx, hh⟩ := hh
        split at hh
        · simp only [Res.bind_eq_ok] at hh
          obtain ⟨l, hl, ⟨h1, w1⟩, ha, ⟨h2, w2⟩, ha', s', hs', hh⟩ := hh
          obtain ⟨a1, a2⟩ := words_alloc_sound _ hs ha
          obtain ⟨b1, b2⟩ := words_alloc_sound _ a1 ha'
          obtain ⟨c1, c2⟩ := ih b1 hh
          exact ⟨c1, (a2.trans b2).trans c2⟩
        · simp only [Res.bind_eq_ok, Res.pure_def] at hh
          obtain ⟨l, hl, ⟨h1, w1⟩, ha, hh⟩ := hh
          cases hh
          exact words_alloc_sound _ hs ha

theorem words_next_sound {h h' : Heap} {w w' : WordsR} {o : Option Ref} (hs : Sound h) (hh : w.next h = .ok (h', o, w')) :
    Sound h' ∧ Later h h' ∧ ∀ r, o = some r → ValidRef h'.chars r := by
  unfold WordsR.next at hh
  split at hh
  · cases hh
    exact ⟨hs, .refl _, fun r hr => nomatch hr⟩
  · simp only [Res.bind_eq_ok, Res.pure_def] at hh
    obtain ⟨⟨h1, w1, e1⟩, ha, s1, hs1, s2, hs2, n, hn, x, hx, hh⟩ := hh
    cases hh
    obtain ⟨a1, a2⟩ := words_nextLoop_sound _ hs ha
    refine ⟨a1, a2, fun r hr => ?_⟩
    cases hr
    exact valid_of_read hx

theorem patterns_alloc_sound {h h' : Heap} {p p' : PatternsR} {x : PatternR} (hs : Sound h) (hx : ValidRef h.chars x.text)
    (hh : p.alloc h x = .ok (h', p')) : Sound h' ∧ Later h h' ∧ p'.next = p.next := by
  unfold PatternsR.alloc at hh
  simp only [Res.bind_eq_ok, Res.pure_def] at hh
  obtain ⟨l, h1, l', h2, hh⟩ := hh
  cases hh
  obtain ⟨_, rfl⟩ := setR_ok h2
  obtain ⟨a1, a2⟩ := sound_setPatterns hs (unwrap_eq h1) (l' := l.set p.allocated x) (by simp) (by
    intro y hy
    rcases mem_set hy with rfl | hy
    · exact hx
    · exact hs.patterns _ _ (unwrap_eq h1) y hy)
  exact ⟨a1, a2, rfl⟩

theorem patterns_nextLoop_sound {U : Unicode} : ∀ (fuel : Nat) {h h' : Heap} {p p' : PatternsR} {lo : Bool}, Sound h →
    (∀ x, p.next = some x → ValidRef h.chars x.text) → PatternsR.nextLoop U fuel h p lo = .ok (h', p') →
    Sound h' ∧ Later h h' ∧ ∀ x, p'.next = some x → ValidRef h'.chars x.text := by
  intro fuel
  induction fuel with
  | zero => intro h h' p p' lo _ _ hh; cases hh
  | succ fuel ih =>
    intro h h' p p' lo hs hn hh
    unfold PatternsR.nextLoop at hh
    simp only [Res.bind_eq_ok] at hh
    obtain ⟨⟨h1, o, w1⟩, hw, hh⟩ := hh
    obtain ⟨a1, a2, a3⟩ := words_next_sound hs hw
    have hn1 : ∀ x, p.next = some x → ValidRef h1.chars x.text := fun x hx => a2.chars.valid (hn x hx)
    cases o with
    | none =>
      cases hh
      exact ⟨a1, a2, hn1⟩
    | some r =>
      simp only [Res.bind_eq_ok] at hh
      obtain ⟨l, hl, hh⟩ := hh
      split at hh
      · simp only [Res.bind_eq_ok] at hh
        obtain ⟨y, hy, hh⟩ := hh
        cases y with
        | none =>
          obtain ⟨d1, d2, d3⟩ := ih (p := { p with words := w1 }) a1 hn1 hh
          exact ⟨d1, a2.trans d2, d3⟩
        | some x =>
          have hx : ValidRef h1.chars x.text := valid_part (part_parse hy) (a3 r rfl)
          cases lo with
          | true =>
            cases hh
            refine ⟨a1, a2, fun y hy => ?_⟩
            cases hy
            exact hx
          | false =>
            simp only [Bool.false_eq_true, if_false, Res.bind_eq_ok] at hh
            obtain ⟨⟨h2, p2⟩, ha, hh⟩ := hh
            obtain ⟨e1, e2, e3⟩ := patterns_alloc_sound a1 hx ha
            obtain ⟨d1, d2, d3⟩ := ih e1 (fun y hy => e2.chars.valid (hn1 y (e3 ▸ hy))) hh
            exact ⟨d1, (a2.trans e2).trans d2, d3⟩
      · obtain ⟨d1, d2, d3⟩ := ih (p := { p with words := w1 }) a1 hn1 hh
        exact ⟨d1, a2.trans d2, d3⟩

theorem patterns_nextItem_sound {U : Unicode} {h h' : Heap} {p p' : PatternsR} {o : Option ConditionR} (hs : Sound h)
    (hn : ∀ x, p.next = some x → ValidRef h.chars x.text) (hh : p.nextItem U h = .ok (h', o, p')) :
    Sound h' ∧ Later h h' ∧ (∀ x, p'.next = some x → ValidRef h'.chars x.text) ∧ ∀ r, o = some r → ValidRef h'.patterns r := by
  have key : ∀ {h1 : Heap} {p1 : PatternsR} {lo : Bool}, Sound h1 → (∀ x, p1.next = some x → ValidRef h1.chars x.text) →
      (do
        let (h, p2) ← PatternsR.nextLoop U (p1.words.s.length + 1) h1 p1 lo
        if p2.allocated == p.allocated then
          return (h, none, p2)
        else
          let condition : ConditionR := ⟨p2.buf, p.allocated, ← subR p2.allocated p.allocated⟩
          let _ ← readR h.patterns condition
          return (h, some condition, p2) : Res (Heap × Option ConditionR × PatternsR)) = .ok (h', o, p') →
      Sound h' ∧ Later h1 h' ∧ (∀ x, p'.next = some x → ValidRef h'.chars x.text) ∧
        ∀ r, o = some r → ValidRef h'.patterns r := by
    intro h1 p1 lo hs1 hn1 hh
    simp only [Res.bind_eq_ok] at hh
    obtain ⟨⟨h2, p2⟩, hl, hh⟩ := hh
    obtain ⟨d1, d2, d3⟩ := patterns_nextLoop_sound _ hs1 hn1 hl
    simp only at hh
    split at hh
    · cases hh
      exact ⟨d1, d2, d3, fun r hr => nomatch hr⟩
    · simp only [Res.bind_eq_ok, Res.pure_def] at hh
      obtain ⟨n, hn, x, hx, hh⟩ := hh
      cases hh
      refine ⟨d1, d2, d3, fun r hr => ?_⟩
      cases hr
      exact valid_of_read hx
  unfold PatternsR.nextItem at hh
  cases hn' : p.next with
  | none =>
    simp only [hn'] at hh
    exact key hs hn hh
  | some x =>
    simp only [hn', Res.bind_assoc, Res.bind_eq_ok] at hh
    obtain ⟨⟨h1, p1⟩, ha, a, ha', hh⟩ := hh
    cases ha'
    obtain ⟨e1, e2, e3⟩ := patterns_alloc_sound hs (hn x hn') ha
    obtain ⟨d1, d2, d3⟩ := key (lo := true) e1 (fun y hy => by rw [e3] at hy; cases hy)
      (by simpa only [Res.bind_eq_ok, Res.pure_def] using hh)
    exact ⟨d1, e2.trans d2, d3⟩

theorem parser_loop_sound {U : Unicode} {c : Nat} : ∀ (fuel : Nat) {h h' : Heap} {p : PatternsR} {k k' : Nat}, Sound h →
    (∀ x, p.next = some x → ValidRef h.chars x.text) → FzfParserR.parseLoop U c fuel h p k = .ok (h', k') →
    Sound h' ∧ Later h h' := by
  intro fuel
  induction fuel with
  | zero => intro h h' p k k' _ _ hh; cases hh
  | succ fuel ih =>
    intro h h' p k k' hs hn hh
    unfold FzfParserR.parseLoop at hh
    simp only [Res.bind_eq_ok] at hh
    obtain ⟨⟨h1, o, p1⟩, hi, hh⟩ := hh
    obtain ⟨a1, a2, a3, a4⟩ := patterns_nextItem_sound hs hn hi
    cases o with
    | none =>
      cases hh
      exact ⟨a1, a2⟩
    | some r =>
      simp only [Res.bind_eq_ok] at hh
      obtain ⟨l, hl, l', hl', hh⟩ := hh
      obtain ⟨_, rfl⟩ := setR_ok hl'
      obtain ⟨b1, b2⟩ := sound_setConditions (b := c) a1 (l' := l.set k r) (by
        intro y hy
        rcases mem_set hy with rfl | hy
        · exact a4 _ rfl
        · exact a1.conditions _ _ (unwrap_eq hl) y hy)
      obtain ⟨c1, c2⟩ := ih b1 a3 hh
      exact ⟨c1, (a2.trans b2).trans c2⟩

theorem mem_resize {α : Type} {l : List α} {n : Nat} {a x : α} (h : x ∈ resize l n a) : x = a ∨ x ∈ l := by
  unfold resize at h
  rcases List.mem_append.1 h with h | h
  · exact .inr (List.mem_of_mem_take h)
  · exact .inl (List.eq_of_mem_replicate h)

theorem le_resize {α : Type} {l : List α} {n : Nat} {a : α} (h : l.length < n) : l.length ≤ (resize l n a).length := by
  rw [resize_length (Nat.le_of_lt h)]
  exact Nat.le_of_lt h

theorem valid_empty {α : Type} (m : Nat → Option (List α)) : ValidRef m Ref.empty := .inl rfl

/-- A parse that moves no buffer. -/
theorem parser_parse_sound {U : Unicode} {h h' : Heap} {mv : Moves} {t : List Char} {P : FzfParserR} {q : FzfQueryR}
    (hs : Sound h) (h1 : P.chars < h.next) (h2 : P.patterns < h.next) (h3 : P.conditions < h.next)
    (hh : P.parse U h mv t = .ok (h', P, q)) : Sound h' ∧ Later h h' := by
  rw [parseR_stages] at hh
  obtain ⟨⟨hx, cx⟩, hx1, hh⟩ := Res.bind_eq_ok.1 hh
  obtain ⟨⟨hy, cy⟩, hy1, hh⟩ := Res.bind_eq_ok.1 hh
  obtain ⟨⟨hz, cz⟩, hz1, hh⟩ := Res.bind_eq_ok.1 hh
  have tail : cx = P.chars ∧ cy = P.conditions ∧ cz = P.patterns := by
    unfold parseTail at hh
    simp only [Res.bind_eq_ok, Res.pure_def] at hh
    obtain ⟨p, hp, l, hl, ⟨h1', k⟩, hk, x, hx, q', hq, hh⟩ := hh
    simp only [Res.ok.injEq, Prod.mk.injEq] at hh
    rw [← hh.2.1]
    exact ⟨rfl, rfl, rfl⟩
  obtain ⟨rfl, rfl, rfl⟩ := tail
  have sx : Sound hx ∧ Later h hx := by
    obtain ⟨l, hl, hx1⟩ := Res.bind_eq_ok.1 hx1
    split at hx1
    · rename_i hlt
      unfold Heap.growChars at hx1
      obtain ⟨l', hl', hx1⟩ := Res.bind_eq_ok.1 hx1
      rw [hl] at hl'
      cases hl'
      cases hm : mv.chars with
      | true =>
        simp only [hm, if_true, Res.pure_def, Res.ok.injEq, Prod.mk.injEq] at hx1
        omega
      | false =>
        simp only [hm, Bool.false_eq_true, if_false, Res.pure_def, Res.ok.injEq, Prod.mk.injEq] at hx1
        rw [← hx1.1]
        exact sound_setChars hs (unwrap_eq hl) (le_resize hlt)
    · cases hx1
      exact ⟨hs, .refl _⟩
  have sy : Sound hy ∧ Later hx hy := by
    obtain ⟨l, hl, hy1⟩ := Res.bind_eq_ok.1 hy1
    split at hy1
    · rename_i hlt
      unfold Heap.growConditions at hy1
      obtain ⟨l', hl', hy1⟩ := Res.bind_eq_ok.1 hy1
      rw [hl] at hl'
      cases hl'
      have hn := sx.2.next
      cases hm : mv.conditions with
      | true =>
        simp only [hm, if_true, Res.pure_def, Res.ok.injEq, Prod.mk.injEq] at hy1
        omega
      | false =>
        simp only [hm, Bool.false_eq_true, if_false, Res.pure_def, Res.ok.injEq, Prod.mk.injEq] at hy1
        rw [← hy1.1]
        refine sound_setConditions sx.1 fun c hc => ?_
        rcases mem_resize hc with rfl | hc
        · exact valid_empty _
        · exact sx.1.conditions _ _ (unwrap_eq hl) c hc
    · cases hy1
      exact ⟨sx.1, .refl _⟩
  have sz : Sound hz ∧ Later hy hz := by
    obtain ⟨l, hl, hz1⟩ := Res.bind_eq_ok.1 hz1
    split at hz1
    · rename_i hlt
      unfold Heap.growPatterns at hz1
      obtain ⟨l', hl', hz1⟩ := Res.bind_eq_ok.1 hz1
      rw [hl] at hl'
      cases hl'
      have hn := (sx.2.trans sy.2).next
      cases hm : mv.patterns with
      | true =>
        simp only [hm, if_true, Res.pure_def, Res.ok.injEq, Prod.mk.injEq] at hz1
        omega
      | false =>
        simp only [hm, Bool.false_eq_true, if_false, Res.pure_def, Res.ok.injEq, Prod.mk.injEq] at hz1
        rw [← hz1.1]
        refine sound_setPatterns sy.1 (unwrap_eq hl) (le_resize hlt) fun c hc => ?_
        rcases mem_resize hc with rfl | hc
        · exact valid_empty _
        · exact sy.1.patterns _ _ (unwrap_eq hl) c hc
    · cases hz1
      exact ⟨sy.1, .refl _⟩
  unfold parseTail at hh
  simp only [Res.bind_eq_ok, Res.pure_def] at hh
  obtain ⟨p, hp, l, hl, ⟨h1', k⟩, hk, x, hx', q', hq, hh⟩ := hh
  cases hh
  have hn : p.next = none := by
    unfold PatternsR.new at hp
    simp only [Res.bind_eq_ok, Res.pure_def] at hp
    obtain ⟨w, _, hp⟩ := hp
    cases hp
    rfl
  obtain ⟨d1, d2⟩ := parser_loop_sound _ sz.1 (fun y hy => by rw [hn] at hy; cases hy) hk
  exact ⟨d1, ((sx.2.trans sy.2).trans sz.2).trans d2⟩

theorem parser_writeChars_sound {c : Nat} (l : List Char) : ∀ {h h' : Heap} {k k' : Nat}, Sound h →
    FzfParserR.writeChars c h l k = .ok (h', k') → Sound h' ∧ Later h h' := by
  induction l with
  | nil =>
    intro h h' k k' hs hh
    unfold FzfParserR.writeChars at hh
    cases hh
    exact ⟨hs, .refl _⟩
  | cons ch rest ih =>
    intro h h' k k' hs hh
    unfold FzfParserR.writeChars at hh
    simp only [Res.bind_eq_ok] at hh
    obtain ⟨l, h1, l', h2, h3⟩ := hh
    obtain ⟨_, rfl⟩ := setR_ok h2
    obtain ⟨a1, a2⟩ := sound_setChars hs (unwrap_eq h1) (l' := l.set k ch) (by simp)
    obtain ⟨b1, b2⟩ := ih a1 h3
    exact ⟨b1, a2.trans b2⟩

/-- New allocations. -/
theorem sound_fresh {h : Heap} {cs : List Char} {ps : List PatternR} {ds : List ConditionR} (hs : Sound h)
    (hp : ∀ x ∈ ps, ValidRef h.chars x.text) (hd : ∀ c ∈ ds, ValidRef h.patterns c) :
    Sound ⟨update h.chars h.next (some cs), update h.patterns h.next (some ps), update h.conditions h.next (some ds),
      h.next + 1⟩ := by
  have grow : ∀ {α : Type} {m : Nat → Option (List α)} {n : Nat} {l : List α} {r : Ref}, (∀ b, n ≤ b → m b = none) →
      ValidRef m r → ValidRef (update m n (some l)) r := by
    intro α m n l r hn hv
    rw [validRef_iff] at hv ⊢
    rcases hv with hv | ⟨buf, h1, h2⟩
    · exact .inl hv
    · refine .inr ⟨buf, ?_, h2⟩
      rw [update_ne]
      · exact h1
      · intro e
        rw [hn _ (Nat.le_of_eq e.symm)] at h1
        cases h1
  refine ⟨fun b l hl x hx => grow hs.charsNew ?_, fun b l hl c hc => grow hs.patternsNew ?_, fun b hb => ?_, fun b hb => ?_⟩
  · simp only [update] at hl
    split at hl
    · cases hl
      exact hp x hx
    · exact hs.patterns b l hl x hx
  · simp only [update] at hl
    split at hl
    · cases hl
      exact hd c hc
    · exact hs.conditions b l hl c hc
  · simp only at hb ⊢
    rw [update_ne _ _ (by omega)]
    exact hs.charsNew b (by omega)
  · simp only at hb ⊢
    rw [update_ne _ _ (by omega)]
    exact hs.patternsNew b (by omega)

theorem inPlace_reachable {U : Unicode} {w : World} (hw : ReachableInPlace U w) : ReachableWorld U w := by
  induction hw with
  | init => exact .init
  | new _ hn ih => exact .step ih (.new hn)
  | clone _ hn hP hc ih => exact .step ih (.clone hn hP hc)
  | parse _ hP hp _ ih => exact .step ih (.parse hP hp)
  | parseNotExtended _ hP hp ih => exact .step ih (.parseNotExtended hP hp)

theorem inPlace_sound {U : Unicode} {w : World} (hw : ReachableInPlace U w) : Sound w.heap := by
  induction hw with
  | init => exact ⟨fun _ _ h => (nomatch h), fun _ _ h => (nomatch h), fun _ _ => rfl, fun _ _ => rfl⟩
  | new _ _ ih =>
    refine sound_fresh ih (fun x hx => ?_) (fun c hc => ?_)
    · rw [List.eq_of_mem_replicate hx]; exact valid_empty _
    · rw [List.eq_of_mem_replicate hc]; exact valid_empty _
  | clone _ _ _ hc ih =>
    unfold FzfParserR.clone at hc
    simp only [Res.bind_eq_ok, Res.pure_def] at hc
    obtain ⟨cs, h1, ps, h2, ds, h3, hc⟩ := hc
    cases hc
    exact sound_fresh ih (ih.patterns _ _ (unwrap_eq h2)) (ih.conditions _ _ (unwrap_eq h3))
  | parse hw hP hp hPP ih =>
    subst hPP
    obtain ⟨_, _, _, hl⟩ := (reachable_winv (inPlace_reachable hw)).live _ _ hP
    exact (parser_parse_sound ih hl.charsLt hl.patternsLt hl.conditionsLt hp).1
  | parseNotExtended _ _ hp ih =>
    unfold FzfParserR.parseNotExtended at hp
    simp only [Res.bind_eq_ok, Res.pure_def] at hp
    obtain ⟨⟨h1, k⟩, hk, q', hq, hp⟩ := hp
    cases hp
    exact (parser_writeChars_sound _ ih hk).1

end Norm
