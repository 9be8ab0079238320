import Verif.Proofs.UsizeBase
import Verif.Proofs.Parser
import Verif.SpecUsize

/-! Parsing, as in `Proofs/UsizeBase`. -/

namespace Norm.Usize

variable {B : Build} {P : Prop} {U : Unicode}

theorem strSplitR_ok : ∀ (s : List Char) (n : Nat) (r : List Char × List Char), strSplitR s n = .ok r →
    s = r.1 ++ r.2 ∧ strLen r.1 = n := by
  intro s
  induction s with
  | nil =>
    intro n r h
    cases n with
    | zero => obtain rfl := Res.ok.inj h; exact ⟨rfl, rfl⟩
    | succ n => cases h
  | cons c s ih =>
    intro n r h
    cases n with
    | zero => obtain rfl := Res.ok.inj h; exact ⟨rfl, rfl⟩
    | succ n =>
      simp only [strSplitR] at h
      by_cases hc : c.utf8Size ≤ n + 1
      · rw [if_pos hc] at h
        cases hr : strSplitR s (n + 1 - c.utf8Size) with
        | panic => rw [hr] at h; cases h
        | ok r' =>
          rw [hr] at h
          obtain rfl := Res.ok.inj h
          obtain ⟨h1, h2⟩ := ih _ _ hr
          refine ⟨by simp [h1], ?_⟩
          simp only [strLen_cons]
          omega
      · rw [if_neg hc] at h; cases h

theorem wordsAlloc_agree : ∀ (l : List Char) (w : Words), w.buf.length < 2 ^ B.bits →
    Agree P (fun w' => w'.buf.length = w.buf.length ∧ w'.s = w.s) (wordsAlloc B w l) (w.alloc l) := by
  intro l
  induction l with
  | nil => intro w _; exact Agree.ok ⟨rfl, rfl⟩
  | cons c l ih =>
    intro w h
    unfold wordsAlloc Words.alloc
    refine Agree.same fun buf hbuf => ?_
    obtain ⟨h1, rfl⟩ := length_of_setR hbuf
    refine Agree.skip (usize_ok (by omega)) ?_
    have := ih { w with buf := w.buf.set w.allocated c, allocated := w.allocated + 1 } (by simpa using h)
    simpa using this

theorem wordsNextLoop_agree {T : Nat} (hT : T < 2 ^ B.bits) : ∀ (fuel : Nat) (w : Words) (s : List Char) (e : Nat),
    w.buf.length < 2 ^ B.bits → e + strLen s ≤ T →
    Agree P (fun r => r.1.buf.length = w.buf.length ∧ r.1.s = w.s) (wordsNextLoop B fuel w s e) (w.nextLoop fuel s e) := by
  intro fuel
  induction fuel with
  | zero => intro w s e _ _; exact Agree.right
  | succ fuel ih =>
    intro w s e hb he
    unfold wordsNextLoop Words.nextLoop
    cases hm : memchr 32 (strBytes s) with
    | none =>
      simp only
      refine Agree.bind (wordsAlloc_agree s w hb) fun w' hw' _ => ?_
      exact Agree.skip (usize_ok (by omega)) (Agree.ok hw')
    | some off =>
      have hoff : off < strLen s := by
        unfold memchr at hm
        exact findIdx_lt hm
      cases off with
      | zero => exact Agree.ok ⟨rfl, rfl⟩
      | succ off =>
        simp only
        refine Agree.same fun b _ => ?_
        refine Agree.ite (fun _ => ?_) fun _ => ?_
        · refine Agree.same fun t _ => ?_
          refine Agree.bind (wordsAlloc_agree t w hb) fun w1 hw1 _ => ?_
          refine Agree.bind (wordsAlloc_agree [' '] w1 (by omega)) fun w2 hw2 _ => ?_
          have hu := usize_ok (B := B) (x := off + 1 + 1) (by omega)
          refine Agree.skip hu ?_
          refine Agree.same fun s' hs' => ?_
          have hlen : strLen s' + (off + 1 + 1) = strLen s := by
            unfold strFromR at hs'
            cases hsp : strSplitR s (off + 1 + 1) with
            | panic => rw [hsp] at hs'; cases hs'
            | ok r =>
              rw [hsp] at hs'
              obtain rfl := Res.ok.inj hs'
              obtain ⟨h1, h2⟩ := strSplitR_ok _ _ _ hsp
              conv_rhs => rw [h1, strLen_append, h2]
              exact Nat.add_comm _ _
          refine Agree.skip hu ?_
          refine Agree.skip (usize_ok (by omega)) ?_
          refine (ih w2 s' _ (by omega) (by omega)).mono fun r _ hr => ?_
          exact ⟨hr.1.trans (hw2.1.trans hw1.1), hr.2.trans (hw2.2.trans hw1.2)⟩
        · refine Agree.same fun s' hs' => ?_
          have hlen : strLen s' = off + 1 := by
            unfold strToR at hs'
            cases hsp : strSplitR s (off + 1) with
            | panic => rw [hsp] at hs'; cases hs'
            | ok r =>
              rw [hsp] at hs'
              obtain rfl := Res.ok.inj hs'
              exact (strSplitR_ok _ _ _ hsp).2
          refine Agree.bind (wordsAlloc_agree s' w hb) fun w' hw' _ => ?_
          exact Agree.skip (usize_ok (by omega)) (Agree.ok hw')

theorem strFromR_le {s s' : List Char} {n : Nat} (h : strFromR s n = .ok s') : strLen s' ≤ strLen s := by
  unfold strFromR at h
  cases hsp : strSplitR s n with
  | panic => rw [hsp] at h; cases h
  | ok r =>
    rw [hsp] at h
    obtain rfl := Res.ok.inj h
    obtain ⟨h1, _⟩ := strSplitR_ok _ _ _ hsp
    conv_rhs => rw [h1, strLen_append]
    exact Nat.le_add_left _ _

theorem wordsNext_agree (w : Words) (hb : w.buf.length < 2 ^ B.bits) (hs : strLen w.s < 2 ^ B.bits) :
    Agree P (fun r => r.2.buf.length = w.buf.length ∧ strLen r.2.s ≤ strLen w.s) (wordsNext B w) w.next := by
  unfold wordsNext Words.next
  refine Agree.ite (fun _ => Agree.ok ⟨rfl, Nat.le_refl _⟩) fun _ => ?_
  dsimp only
  refine Agree.bind (wordsNextLoop_agree hs _ w w.s 0 hb (by omega)) fun x hx _ => ?_
  obtain ⟨w', e⟩ := x
  obtain ⟨h1, h2⟩ := hx
  simp only at h1 h2 ⊢
  refine Agree.same fun s1 hs1 => ?_
  refine Agree.same fun s2 hs2 => ?_
  refine Agree.same fun word _ => ?_
  have := strFromR_le hs1
  have := strFromR_le hs2
  refine Agree.ok ⟨h1, ?_⟩
  simp only
  rw [h2] at *
  omega

/-- What is known of a `Patterns`, of a parser and a string of the build. -/
structure POk (B : Build) (c n : Nat) (p : Patterns) : Prop where
  chars : p.words.buf.length = c
  buf : p.buf.length = n
  s : strLen p.words.s < 2 ^ B.bits

theorem patternsAlloc_agree {c n : Nat} (hn : n < 2 ^ B.bits) {p : Patterns} (hp : POk B c n p) (x : Pattern) :
    Agree P (POk B c n) (patternsAlloc B p x) (p.alloc x) := by
  unfold patternsAlloc Patterns.alloc
  refine Agree.same fun buf hbuf => ?_
  obtain ⟨h1, rfl⟩ := length_of_setR hbuf
  have := hp.buf
  refine Agree.skip (usize_ok (by omega)) (Agree.ok ⟨hp.chars, ?_, hp.s⟩)
  simpa using this

theorem patternsNextLoop_agree {c n : Nat} (hc : c < 2 ^ B.bits) (hn : n < 2 ^ B.bits) : ∀ (fuel : Nat) (p : Patterns)
    (lookingForOr : Bool), POk B c n p →
    Agree P (POk B c n) (patternsNextLoop B U fuel p lookingForOr) (p.nextLoop U fuel lookingForOr) := by
  intro fuel
  induction fuel with
  | zero => intro p l _; exact Agree.right
  | succ fuel ih =>
    intro p l hp
    unfold patternsNextLoop Patterns.nextLoop
    refine Agree.bind (wordsNext_agree p.words (by rw [hp.chars]; exact hc) hp.s) fun x hx _ => ?_
    obtain ⟨word, words⟩ := x
    obtain ⟨h1, h2⟩ := hx
    simp only at h1 h2 ⊢
    have hp' : POk B c n { p with words := words } := ⟨h1.trans hp.chars, hp.buf, Nat.lt_of_le_of_lt h2 hp.s⟩
    cases word with
    | none => exact Agree.ok hp'
    | some word =>
      simp only
      refine Agree.ite (fun _ => ?_) fun _ => ih _ _ hp'
      refine Agree.same fun o _ => ?_
      cases o with
      | none => exact ih _ _ hp'
      | some pat =>
        refine Agree.ite (fun _ => Agree.ok ⟨hp'.chars, hp'.buf, hp'.s⟩) fun _ => ?_
        refine Agree.bind (patternsAlloc_agree hn hp' pat) fun p'' hp'' _ => ih _ _ hp''

theorem patternsNextItem_agree {c n : Nat} (hc : c < 2 ^ B.bits) (hn : n < 2 ^ B.bits) {p : Patterns} (hp : POk B c n p) :
    Agree P (fun r => POk B c n r.2) (patternsNextItem B U p) (p.nextItem U) := by
  unfold patternsNextItem Patterns.nextItem
  dsimp only
  have key : ∀ (p' : Patterns) (l : Bool), POk B c n p' →
      Agree P (fun (r : Option (List Pattern) × Patterns) => POk B c n r.2)
        (do
          let p'' ← patternsNextLoop B U (p'.words.s.length + 1) p' l
          if p''.allocated == p.allocated then
            return (none, p'')
          else
            return (some (← sliceR p''.buf p.allocated p''.allocated), p''))
        (do
          let p'' ← p'.nextLoop U (p'.words.s.length + 1) l
          if p''.allocated == p.allocated then
            return (none, p'')
          else
            return (some (← sliceR p''.buf p.allocated p''.allocated), p'')) := by
    intro p' l hp'
    refine Agree.bind (patternsNextLoop_agree hc hn _ p' l hp') fun p'' hp'' _ => ?_
    refine Agree.ite (fun _ => Agree.ok hp'') fun _ => ?_
    exact Agree.same fun sl _ => Agree.ok hp''
  cases hnx : p.next with
  | none => exact key p false hp
  | some first =>
    simp only [Res.bind_assoc]
    refine Agree.bind (patternsAlloc_agree hn (p := { p with next := none }) ⟨hp.chars, hp.buf, hp.s⟩ first)
      fun p' hp' _ => ?_
    exact key p' true hp'

theorem parseLoop_agree {c n : Nat} (hc : c < 2 ^ B.bits) (hn : n < 2 ^ B.bits) : ∀ (fuel : Nat) (p : Patterns)
    (cs : List Condition) (k : Nat), POk B c n p → cs.length < 2 ^ B.bits →
    Agree P (fun r => POk B c n r.1 ∧ r.2.1.length = cs.length) (parseLoop B U fuel p cs k)
      (FzfParser.parseLoop U fuel p cs k) := by
  intro fuel
  induction fuel with
  | zero => intro p cs k _ _; exact Agree.right
  | succ fuel ih =>
    intro p cs k hp hcs
    unfold parseLoop FzfParser.parseLoop
    refine Agree.bind (patternsNextItem_agree hc hn hp) fun x hx _ => ?_
    obtain ⟨item, p'⟩ := x
    simp only at hx ⊢
    cases item with
    | none => exact Agree.ok ⟨hx, rfl⟩
    | some cond =>
      simp only
      refine Agree.same fun cs' hcs' => ?_
      obtain ⟨h1, rfl⟩ := length_of_setR hcs'
      refine Agree.skip (usize_ok (by omega)) ?_
      have := ih p' (cs.set k cond) (k + 1) hx (by simpa using hcs)
      simpa using this

/-- What holds of every parser in a build. -/
structure InvP (B : Build) (p : FzfParser) : Prop where
  chars : p.chars.length ≤ B.limit .char
  patterns : p.patterns.length ≤ B.limit .pattern
  conditions : p.conditions.length ≤ B.limit .condition

theorem parse_agree (hB : Spec.BuildOk B) (hM : 2 * 2 ^ (B.bits - 1) = 2 ^ B.bits) {p : FzfParser} (hp : InvP B p)
    {t : List Char}
    (hg : P ∨ (strLen t ≤ B.limit .char ∧ strLen t / 2 + 1 ≤ B.limit .pattern ∧ strLen t / 2 + 1 ≤ B.limit .condition)) :
    Agree P (fun r => InvP B r.1) (parse B U p t) (p.parse U t) := by
  have hl1 := hB.hi .char
  have hl2 := hB.hi .pattern
  have hl3 := hB.hi .condition
  unfold parse FzfParser.parse
  refine ensure_agree hp.chars (hg.imp_right And.left) fun _ h1 => ?_
  refine Agree.skip (usize_ok (by omega)) ?_
  refine ensure_agree hp.conditions (hg.imp_right fun h => h.2.2) fun _ h2 => ?_
  refine ensure_agree hp.patterns (hg.imp_right fun h => h.2.1) fun _ h3 => ?_
  simp only [gt_iff_lt] at h1 h2 h3 ⊢
  unfold Patterns.new Words.new
  simp only [Res.bind_assoc, Res.bind_ok, Res.pure_def]
  refine Agree.same fun s hs => ?_
  have hsl := strFromR_le hs
  refine Agree.bind (parseLoop_agree (Nat.lt_of_le_of_lt h1 (by omega)) (Nat.lt_of_le_of_lt h3 (by omega)) _ _ _ 0 ⟨rfl, rfl, by simp only; omega⟩ (by omega))
    fun x hx _ => ?_
  obtain ⟨p', cs, k⟩ := x
  obtain ⟨g1, g2⟩ := hx
  simp only at g1 g2 ⊢
  refine Agree.same fun sl _ => ?_
  refine Agree.same fun q _ => ?_
  refine Agree.ok ⟨?_, ?_, ?_⟩
  · simp only; rw [g1.chars]; exact h1
  · simp only; rw [g1.buf]; exact h3
  · simp only; rw [g2]; exact h2

theorem writeChars_eq : ∀ (t chars : List Char) (n : Nat), chars.length < 2 ^ B.bits →
    writeChars B chars t n = FzfParser.writeChars chars t n := by
  intro t
  induction t with
  | nil => intro chars n _; rfl
  | cons ch t ih =>
    intro chars n h
    unfold writeChars FzfParser.writeChars
    cases hs : setR chars n ch with
    | panic => rfl
    | ok chars' =>
      obtain ⟨h1, rfl⟩ := length_of_setR hs
      simp only [Res.bind_ok]
      rw [usize_ok (by omega)]
      exact ih _ _ (by simpa using h)

theorem writeChars_length : ∀ (t chars : List Char) (n : Nat) (r : List Char × Nat),
    FzfParser.writeChars chars t n = .ok r → r.1.length = chars.length := by
  intro t
  induction t with
  | nil => intro chars n r h; obtain rfl := Res.ok.inj h; rfl
  | cons ch t ih =>
    intro chars n r h
    unfold FzfParser.writeChars at h
    obtain ⟨chars', h1, h⟩ := Res.bind_eq_ok.mp h
    obtain ⟨_, rfl⟩ := length_of_setR h1
    rw [ih _ _ _ h, List.length_set]

theorem parseNotExtended_eq (hB : Spec.BuildOk B) (hM : 2 * 2 ^ (B.bits - 1) = 2 ^ B.bits) {p : FzfParser} (hp : InvP B p)
    (t : List Char) : parseNotExtended B U p t = p.parseNotExtended U t := by
  have hl1 := hB.hi .char
  have := hp.chars
  unfold parseNotExtended FzfParser.parseNotExtended
  rw [writeChars_eq _ _ _ (by omega)]

theorem parseNotExtended_inv {p p' : FzfParser} {q : FzfQuery} (hp : InvP B p) {t : List Char}
    (h : p.parseNotExtended U t = .ok (p', q)) : InvP B p' := by
  unfold FzfParser.parseNotExtended at h
  obtain ⟨⟨chars, n⟩, h1, h⟩ := Res.bind_eq_ok.mp h
  obtain ⟨sl, _, h⟩ := Res.bind_eq_ok.mp h
  obtain ⟨rfl, _⟩ := Prod.mk.inj (Res.ok.inj h)
  refine ⟨?_, hp.patterns, hp.conditions⟩
  have := writeChars_length _ _ _ _ h1
  simp only at this ⊢
  rw [this]
  exact hp.chars

end Norm.Usize
