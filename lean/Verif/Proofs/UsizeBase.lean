import Verif.Model.Usize
import Verif.SpecUsize
import Verif.Proofs.Candidate
import Verif.Proofs.Ranges
import Verif.Proofs.Utf8

/-! The functions of `Model/Usize` on candidates, ranges and slabs return what those of the main model return, or
panic. -/

namespace Norm.Usize

/-! ### Two runs that agree -/

/-- If the run `y` returns, then the run `x` returns the same, which satisfies `Q`, or `P` holds and `x` panics. -/
def Agree {α : Type} (P : Prop) (Q : α → Prop) (x y : Res α) : Prop :=
  ∀ r, y = .ok r → (x = .ok r ∧ Q r) ∨ (P ∧ x = .panic)

namespace Agree
variable {α β : Type} {P : Prop} {Q : α → Prop} {R : β → Prop}

theorem ok {a : α} (h : Q a) : Agree P Q (.ok a) (.ok a) := by rintro _ ⟨⟩; exact Or.inl ⟨rfl, h⟩

theorem right {x : Res α} : Agree P Q x .panic := by rintro _ ⟨⟩

theorem left {y : Res α} (hp : P) : Agree P Q .panic y := fun _ _ => Or.inr ⟨hp, rfl⟩

theorem self (x : Res α) (h : ∀ a, x = .ok a → Q a) : Agree P Q x x := fun a ha => Or.inl ⟨ha, h a ha⟩

theorem bind {x y : Res α} {f g : α → Res β} (h : Agree P Q x y) (hf : ∀ a, Q a → y = .ok a → Agree P R (f a) (g a)) :
    Agree P R (x >>= f) (y >>= g) := by
  intro r hr
  obtain ⟨a, ha, hg⟩ := Res.bind_eq_ok.mp hr
  rcases h a ha with ⟨hx, hq⟩ | ⟨hp, hx⟩
  · rcases hf a hq ha r hg with ⟨h1, h2⟩ | ⟨h1, h2⟩
    · exact Or.inl ⟨by rw [hx]; exact h1, h2⟩
    · exact Or.inr ⟨h1, by rw [hx]; exact h2⟩
  · exact Or.inr ⟨hp, by rw [hx]; rfl⟩

/-- The same first step in both runs. -/
theorem same {x : Res α} {f g : α → Res β} (hf : ∀ a, x = .ok a → Agree P R (f a) (g a)) :
    Agree P R (x >>= f) (x >>= g) :=
  bind (Q := fun _ => True) (self x fun _ _ => trivial) fun a _ ha => hf a ha

theorem mono {Q' : α → Prop} {x y : Res α} (h : Agree P Q x y) (hQ : ∀ a, y = .ok a → Q a → Q' a) : Agree P Q' x y := by
  intro r hr
  rcases h r hr with ⟨h1, h2⟩ | h
  · exact Or.inl ⟨h1, hQ r hr h2⟩
  · exact Or.inr h

/-- A step taken only in the first run, which cannot fail. -/
theorem skip {x : Res β} {b : β} {f : β → Res α} {y : Res α} (hx : x = .ok b) (h : Agree P Q (f b) y) :
    Agree P Q (x >>= f) y := by rw [hx]; exact h

theorem ite {c : Prop} [Decidable c] {x y x' y' : Res α} (h : c → Agree P Q x y) (h' : ¬ c → Agree P Q x' y') :
    Agree P Q (if c then x else x') (if c then y else y') := by
  split
  · exact h ‹_›
  · exact h' ‹_›

theorem mapR {f : α → β} {x y : Res α} (h : Agree P Q x y) : Agree P (fun b => ∃ a, Q a ∧ b = f a) (x.mapR f) (y.mapR f) := by
  intro r hr
  cases y with
  | panic => cases hr
  | ok a =>
    obtain rfl := Res.ok.inj hr
    rcases h a rfl with ⟨h1, h2⟩ | ⟨h1, h2⟩
    · exact Or.inl ⟨by rw [h1]; rfl, a, h2, rfl⟩
    · exact Or.inr ⟨h1, by rw [h2]; rfl⟩

end Agree

/-! ### The arithmetic -/

variable {B : Build} {P : Prop}

theorem usize_ok {x : Nat} (h : x < 2 ^ B.bits) : B.usize x = .ok x := by
  unfold Build.usize; rw [if_pos h]

theorem sub_ok {a b : Nat} (h : b ≤ a) : B.sub a b = .ok (a - b) := by
  unfold Build.sub; rw [if_pos h]

theorem sub_agree (a b : Nat) : Agree P (fun r => b ≤ a ∧ r = a - b) (B.sub a b) (subR a b) := by
  unfold Build.sub subR
  split
  · rename_i h; exact Agree.ok ⟨h, rfl⟩
  · exact Agree.right

theorem assert_agree (b : Bool) : Agree P (fun _ => b = true) (B.assert b) (Res.assert b) := by
  unfold Build.assert Res.assert
  cases b with
  | false => exact Agree.right
  | true =>
    cases B.debug with
    | true => exact Agree.ok rfl
    | false => exact Agree.ok rfl

theorem ensure_agree {α β : Type} {Q : β → Prop} {e : Elem} {l : List α} {len : Nat} {fill : α}
    {f : List α → Res β} {y : Res β} (hl : l.length ≤ B.limit e) (hg : P ∨ len ≤ B.limit e)
    (hf : len ≤ B.limit e → (if len > l.length then resize l len fill else l).length ≤ B.limit e →
      Agree P Q (f (if len > l.length then resize l len fill else l)) y) :
    Agree P Q (B.ensure e l len fill >>= f) y := by
  unfold Build.ensure Build.grow
  by_cases h : len > l.length
  · rw [if_pos h]
    by_cases h' : len ≤ B.limit e
    · rw [if_pos h'] at *
      rw [if_pos h] at hf
      refine hf h' ?_
      simp only [resize, List.length_append, List.length_take, List.length_replicate]
      omega
    · rw [if_neg h']
      exact Agree.left (hg.resolve_right h')
  · rw [if_neg h]
    rw [if_neg h] at hf
    exact hf (by omega) hl

theorem length_of_setR {α : Type} {l l' : List α} {i : Nat} {a : α} (h : setR l i a = .ok l') :
    i < l.length ∧ l' = l.set i a := by
  unfold setR at h
  split at h
  · rename_i hi; exact ⟨hi, (Res.ok.inj h).symm⟩
  · cases h

theorem of_getR {α : Type} {l : List α} {i : Nat} {a : α} (h : getR l i = .ok a) : i < l.length :=
  (List.getElem?_eq_some_iff.mp (getR_eq_ok.mp h)).1

theorem of_sliceR {α : Type} {l l' : List α} {a b : Nat} (h : sliceR l a b = .ok l') :
    a ≤ b ∧ b ≤ l.length ∧ l' = (l.take b).drop a := by
  unfold sliceR at h
  split at h
  · rename_i hi; exact ⟨hi.1, hi.2, (Res.ok.inj h).symm⟩
  · cases h

theorem of_sliceFromR {α : Type} {l l' : List α} {a : Nat} (h : sliceFromR l a = .ok l') :
    a ≤ l.length ∧ l' = l.drop a := by
  unfold sliceFromR at h
  split at h
  · rename_i hi; exact ⟨hi, (Res.ok.inj h).symm⟩
  · cases h

theorem of_sliceToR {α : Type} {l l' : List α} {b : Nat} (h : sliceToR l b = .ok l') :
    b ≤ l.length ∧ l' = l.take b := by
  unfold sliceToR at h
  split at h
  · rename_i hi; exact ⟨hi, (Res.ok.inj h).symm⟩
  · cases h

/-! ### Candidates -/

theorem shiftFound_agree {n off : Nat} (hn : n < 2 ^ B.bits) {o : Option Nat} (ho : ∀ i, o = some i → i + off < n) :
    Agree P (fun r => ∀ i, r = some i → i < n) (shiftFound B off o) (.ok (o.map fun o => o + off)) := by
  cases o with
  | none => exact Agree.ok (by simp)
  | some i =>
    have := ho i rfl
    simp only [shiftFound]
    refine Agree.skip (usize_ok (by omega)) ?_
    exact Agree.ok (by rintro j ⟨⟩; exact this)

theorem findIdx_lt {α : Type} {p : α → Bool} {l : List α} {i : Nat} (h : l.findIdx? p = some i) : i < l.length := by
  rw [List.findIdx?_eq_some_iff_getElem] at h
  exact h.1

theorem findFirstFrom_agree {c : Candidate} (hn : c.toChars.length < 2 ^ B.bits) (off : Nat) (ch : Char) (sens : Bool)
    (eq : CharEq) : Agree P (fun r => ∀ i, r = some i → i < c.toChars.length)
      (findFirstFrom B c off ch sens eq) (c.findFirstFrom off ch sens eq) := by
  cases c with
  | ascii bs =>
    simp only [Candidate.toChars, List.length_map] at *
    unfold findFirstFrom Candidate.findFirstFrom
    refine Agree.ite (fun _ => Agree.ok (by simp)) fun _ => ?_
    refine Agree.same fun sl hsl => ?_
    obtain ⟨h1, rfl⟩ := of_sliceFromR hsl
    refine shiftFound_agree hn ?_
    intro i hi
    have := findIdx_lt hi
    rw [List.length_drop] at this
    omega
  | unicode cs =>
    simp only [Candidate.toChars] at *
    unfold findFirstFrom Candidate.findFirstFrom
    refine Agree.same fun sl hsl => ?_
    obtain ⟨h1, rfl⟩ := of_sliceFromR hsl
    refine shiftFound_agree hn ?_
    intro i hi
    have := findIdx_lt hi
    rw [List.length_drop] at this
    omega

theorem collect_agree {n : Nat} (hn : n < 2 ^ B.bits) : ∀ (fuel : Nat) (it : UnicodeMatches),
    it.offset + it.haystack.length ≤ n →
    Agree P (fun l => ∀ i ∈ l, i < n) (unicodeMatchesCollect B fuel it) (it.collect fuel) := by
  intro fuel
  induction fuel with
  | zero => intro it _; exact Agree.right
  | succ fuel ih =>
    intro it hit
    unfold unicodeMatchesCollect UnicodeMatches.collect
    refine Agree.bind (Q := fun r => ∀ i it', r = some (i, it') → i < n ∧ it'.offset + it'.haystack.length ≤ n) ?_ ?_
    · unfold unicodeMatchesNext UnicodeMatches.next
      cases hidx : it.haystack.findIdx? (fun ch => it.eq it.needle ch) with
      | none => exact Agree.ok nofun
      | some idx =>
        have := findIdx_lt hidx
        refine Agree.skip (usize_ok (by omega)) ?_
        refine Agree.same fun hs hhs => ?_
        obtain ⟨_, rfl⟩ := of_sliceFromR hhs
        refine Agree.skip (usize_ok (by omega)) ?_
        refine Agree.skip (usize_ok (by omega)) ?_
        refine Agree.ok ?_
        rintro i it' ⟨⟩
        simp only [List.length_drop]
        omega
    · rintro r hr -
      cases r with
      | none => exact Agree.ok (by simp)
      | some p =>
        obtain ⟨i, it'⟩ := p
        obtain ⟨h1, h2⟩ := hr i it' rfl
        refine Agree.bind (ih it' h2) fun l hl _ => Agree.ok ?_
        intro j hj
        rcases List.mem_cons.mp hj with rfl | hj
        · exact h1
        · exact hl j hj

theorem shiftAll_agree {n off : Nat} (hn : n < 2 ^ B.bits) : ∀ (l : List Nat), (∀ i ∈ l, off + i < n) →
    Agree P (fun l => ∀ i ∈ l, i < n) (shiftAll B off l) (.ok (l.map fun o => off + o)) := by
  intro l
  induction l with
  | nil => intro _; exact Agree.ok (by simp)
  | cons i l ih =>
    intro h
    simp only [shiftAll, List.map_cons]
    have := h i (by simp)
    refine Agree.skip (usize_ok (by omega)) ?_
    have key := Agree.bind (R := fun l => ∀ i ∈ l, i < n) (f := fun l => Res.ok ((off + i) :: l))
      (g := fun l => Res.ok ((off + i) :: l)) (ih fun j hj => h j (by simp [hj])) fun l hl _ => Agree.ok (by
        intro j hj
        rcases List.mem_cons.mp hj with rfl | hj
        · exact this
        · exact hl j hj)
    exact key

theorem allIdxFrom_lt {α : Type} {p : α → Bool} : ∀ (l : List α) (off : Nat), ∀ i ∈ allIdxFrom p l off, i < off + l.length := by
  intro l
  induction l with
  | nil => intro off i hi; simp [allIdxFrom] at hi
  | cons a l ih =>
    intro off i hi
    simp only [allIdxFrom, List.length_cons] at *
    split at hi
    · rcases List.mem_cons.mp hi with rfl | hi
      · omega
      · have := ih _ i hi; omega
    · have := ih _ i hi; omega

theorem matchesAscii_agree {n off : Nat} (hn : n < 2 ^ B.bits) (ch : Char) (bs : List UInt8) (sens : Bool)
    (h : off + bs.length ≤ n) : Agree P (fun l => ∀ i ∈ l, i < n) (matchesAscii B ch bs sens off)
      (Candidate.matchesAscii ch bs sens off) := by
  unfold matchesAscii Candidate.matchesAscii
  refine Agree.ite (fun _ => collect_agree hn _ _ (by simp)) fun _ => shiftAll_agree hn _ ?_
  intro i hi
  have := allIdxFrom_lt _ _ i hi
  omega

theorem matchesUnicode_agree {n off : Nat} (hn : n < 2 ^ B.bits) (ch : Char) (cs : List Char) (eq : CharEq)
    (h : off + cs.length ≤ n) : Agree P (fun l => ∀ i ∈ l, i < n) (matchesUnicode B ch cs eq off)
      (Candidate.matchesUnicode ch cs eq off) := by
  unfold matchesUnicode Candidate.matchesUnicode
  refine Agree.bind (collect_agree (n := cs.length) (by omega) _ _ (by simp)) fun l hl _ => shiftAll_agree hn l ?_
  intro i hi
  have := hl i hi
  omega

theorem candidateMatches_agree {c : Candidate} (hn : c.toChars.length < 2 ^ B.bits) (ch : Char) (sens : Bool)
    (eq : CharEq) : Agree P (fun l => ∀ i ∈ l, i < c.toChars.length) (candidateMatches B c ch sens eq)
      (c.matches ch sens eq) := by
  cases c with
  | ascii bs =>
    simp only [Candidate.toChars, List.length_map] at *
    exact matchesAscii_agree hn ch bs sens (by omega)
  | unicode cs => exact matchesUnicode_agree hn ch cs eq (by simp [Candidate.toChars])

theorem candidateMatchesFrom_agree {c : Candidate} (hn : c.toChars.length < 2 ^ B.bits) (off : Nat) (ch : Char)
    (sens : Bool) (eq : CharEq) :
    Agree P (fun l => off ≤ c.toChars.length ∧ ∀ i ∈ l, i < c.toChars.length) (candidateMatchesFrom B c off ch sens eq)
      (c.matchesFrom off ch sens eq) := by
  cases c with
  | ascii bs =>
    simp only [Candidate.toChars, List.length_map] at *
    refine Agree.same fun sl hsl => ?_
    obtain ⟨h1, rfl⟩ := of_sliceFromR hsl
    refine (matchesAscii_agree hn ch _ sens ?_).mono fun l _ hl => ⟨h1, hl⟩
    rw [List.length_drop]; omega
  | unicode cs =>
    simp only [Candidate.toChars] at *
    refine Agree.same fun sl hsl => ?_
    obtain ⟨h1, rfl⟩ := of_sliceFromR hsl
    refine (matchesUnicode_agree hn ch _ eq ?_).mono fun l _ hl => ⟨h1, hl⟩
    rw [List.length_drop]; omega

theorem sumUtf8_eq : ∀ (l : List Char) (sum : Nat), sum + strLen l < 2 ^ B.bits →
    sumUtf8 B l sum = .ok (sum + strLen l) := by
  intro l
  induction l with
  | nil => intro sum _; rfl
  | cons c l ih =>
    intro sum h
    simp only [strLen_cons] at h
    simp only [sumUtf8]
    have e : lenUtf8 c = c.utf8Size := rfl
    rw [usize_ok (by omega)]
    simp only [Res.bind_ok]
    rw [ih _ (by omega), strLen_cons, e, Nat.add_assoc]

theorem strLen_take_le (l : List Char) (i : Nat) : strLen (l.take i) ≤ strLen l := by
  conv_rhs => rw [← List.take_append_drop i l, strLen_append]
  omega

theorem toByteOffset_agree {c : Candidate} (hwf : c.WF) (hK : strLen c.toChars < 2 ^ B.bits) (off : Nat) :
    Agree P (fun r => off ≤ c.toChars.length → r = strLen (c.toChars.take off)) (toByteOffset B c off)
      (c.toByteOffset off) := by
  have key : ∀ r, c.toByteOffset off = .ok r → off ≤ c.toChars.length → r = strLen (c.toChars.take off) := by
    intro r hr ho
    rw [Candidate.toByteOffset_eq hwf ho] at hr
    exact (Res.ok.inj hr).symm
  cases c with
  | ascii bs => exact Agree.self _ key
  | unicode cs =>
    have : ∀ x, Agree P (fun _ => True) x (Candidate.toByteOffset (.unicode cs) off) →
        Agree P (fun r => off ≤ cs.length → r = strLen (cs.take off)) x (Candidate.toByteOffset (.unicode cs) off) :=
      fun x hx => hx.mono fun a ha _ => key a ha
    refine this _ ?_
    refine Agree.same fun sl hsl => ?_
    obtain ⟨_, rfl⟩ := of_sliceToR hsl
    simp only [Candidate.toChars] at hK
    have := strLen_take_le cs off
    rw [sumUtf8_eq _ _ (by omega), strLen_eq_sum, Nat.zero_add]
    exact Agree.ok trivial

theorem toByteRange_agree {c : Candidate} (hwf : c.WF) (hK : strLen c.toChars < 2 ^ B.bits) {r : Range}
    (h1 : r.start ≤ r.stop) (h2 : r.stop ≤ c.toChars.length) :
    Agree P (fun r' => r' = ⟨strLen (c.toChars.take r.start), strLen (c.toChars.take r.stop)⟩) (toByteRange B c r)
      (c.toByteRange r) := by
  have key : ∀ r', c.toByteRange r = .ok r' → r' = ⟨strLen (c.toChars.take r.start), strLen (c.toChars.take r.stop)⟩ := by
    intro r' hr
    rw [Candidate.toByteRange_eq hwf h1 h2] at hr
    exact (Res.ok.inj hr).symm
  cases c with
  | ascii bs => exact Agree.self _ key
  | unicode cs =>
    have : ∀ x, Agree P (fun _ => True) x (Candidate.toByteRange (.unicode cs) r) →
        Agree P (fun r' => r' = ⟨strLen (cs.take r.start), strLen (cs.take r.stop)⟩) x
          (Candidate.toByteRange (.unicode cs) r) :=
      fun x hx => hx.mono fun a ha _ => key a ha
    refine this _ ?_
    refine Agree.same fun sl hsl => ?_
    obtain ⟨_, rfl⟩ := of_sliceToR hsl
    simp only [Candidate.toChars] at hK
    have h3 := strLen_take_le cs r.stop
    have h4 : strLen ((cs.take r.stop).take r.start) + strLen ((cs.take r.stop).drop r.start) = strLen (cs.take r.stop) := by
      rw [← strLen_append, List.take_append_drop]
    rw [sumUtf8_eq _ _ (by omega), sumUtf8_eq _ _ (by omega)]
    simp only [Res.bind_ok, Nat.zero_add]
    rw [usize_ok (by omega)]
    simp only [Res.bind_ok, Res.pure_def, strLen_eq_sum]
    exact Agree.ok trivial

theorem of_slice {c c' : Candidate} (hwf : c.WF) {r : Range} (h : c.slice r = .ok c') :
    r.start ≤ r.stop ∧ r.stop ≤ c.toChars.length ∧ c'.WF ∧ c'.toChars = (c.toChars.take r.stop).drop r.start := by
  have hh : r.start ≤ r.stop ∧ r.stop ≤ c.toChars.length := by
    cases c with
    | ascii bs =>
      obtain ⟨a, ha, _⟩ := Res.bind_eq_ok.mp h
      have := of_sliceR ha
      simp only [Candidate.toChars, List.length_map]
      exact ⟨this.1, this.2.1⟩
    | unicode cs =>
      obtain ⟨a, ha, _⟩ := Res.bind_eq_ok.mp h
      have := of_sliceR ha
      exact ⟨this.1, this.2.1⟩
  obtain ⟨c'', h1, h2, h3⟩ := Candidate.slice_ok hwf hh.1 hh.2
  rw [h] at h1
  obtain rfl := Res.ok.inj h1
  exact ⟨hh.1, hh.2, h2, h3⟩

end Norm.Usize
