import Verif.Proofs.UsizeBase
import Verif.Proofs.Res
import Verif.Proofs.Distance

/-! `MatchedRanges::insert` and the slabs, as in `Proofs/UsizeBase`. -/

namespace Norm.Usize

variable {B : Build} {P : Prop}

/-! ### `MatchedRanges::insert` -/

theorem grow_agree {α : Type} {Q : α → Prop} {e : Elem} {len : Nat} {x y : Res α} (hg : P ∨ len ≤ B.limit e)
    (h : Agree P Q x y) : Agree P Q (B.grow e len >>= fun _ => x) y := by
  unfold Build.grow
  by_cases h' : len ≤ B.limit e
  · rw [if_pos h']; exact h
  · rw [if_neg h']; exact Agree.left (hg.resolve_right h')

theorem grow_agree' {α : Type} {Q : α → Prop} {e : Elem} {len : Nat} {x y : Res α} (hg : P ∨ len ≤ B.limit e)
    (h : len ≤ B.limit e → Agree P Q x y) : Agree P Q (B.grow e len >>= fun _ => x) y := by
  unfold Build.grow
  by_cases h' : len ≤ B.limit e
  · rw [if_pos h']; exact h h'
  · rw [if_neg h']; exact Agree.left (hg.resolve_right h')

theorem rangesPush_agree {m : MatchedRanges} {r : Range} (hg : P ∨ m.ranges.length + 1 ≤ B.limit .range) :
    Agree P (fun m' => m'.ranges.length ≤ B.limit .range) (rangesPush B m r) (.ok (m.push r)) := by
  unfold rangesPush
  refine grow_agree' hg fun hl => Agree.ok ?_
  simpa [MatchedRanges.push] using hl

theorem rangesInsertAt_agree {m : MatchedRanges} {i : Nat} {r : Range} (hi : m.initialLen + i < 2 ^ B.bits)
    (hg : P ∨ m.ranges.length + 1 ≤ B.limit .range) :
    Agree P (fun m' => m'.ranges.length ≤ B.limit .range) (rangesInsertAt B m i r) (m.insertAt i r) := by
  unfold rangesInsertAt MatchedRanges.insertAt
  refine Agree.skip (usize_ok hi) ?_
  refine Agree.same fun rs hrs => grow_agree' hg fun hl => Agree.ok ?_
  unfold insertAtR at hrs
  split at hrs
  · obtain rfl := Res.ok.inj hrs
    simp only [List.length_append, List.length_take, List.length_cons, List.length_drop]
    omega
  · cases hrs

theorem rangesRemove_agree {m : MatchedRanges} {i : Nat} (hi : m.initialLen + i < 2 ^ B.bits)
    (hl : m.ranges.length ≤ B.limit .range) :
    Agree P (fun m' => m'.ranges.length ≤ B.limit .range) (rangesRemove B m i) (m.remove i) := by
  unfold rangesRemove MatchedRanges.remove
  refine Agree.skip (usize_ok hi) ?_
  refine Agree.self _ fun m' hm' => ?_
  obtain ⟨rs, h1, h2⟩ := Res.bind_eq_ok.mp hm'
  obtain rfl := Res.ok.inj h2
  unfold removeR at h1
  split at h1
  · obtain rfl := Res.ok.inj h1
    simp only [List.length_append, List.length_take, List.length_drop]
    omega
  · cases h1

theorem rangesSplitAt_eq {m : MatchedRanges} {i : Nat} (hl : m.ranges.length < 2 ^ B.bits)
    (h : m.initialLen + i ≤ m.ranges.length) :
    rangesSplitAt B m i = .ok ((m.ranges.take (m.initialLen + i)).drop m.initialLen, m.ranges.drop (m.initialLen + i)) := by
  unfold rangesSplitAt
  rw [usize_ok (by omega)]
  simp only [Res.bind_ok]
  rw [sliceToR_of_le h, sliceFromR_of_le h]
  simp only [Res.bind_ok]
  rw [sliceFromR_of_le (by rw [List.length_take]; omega)]
  rfl

theorem binarySearch_found_lt {l : List Range} {s i : Nat} (h : binarySearchStart l s = .ok (.found i)) : i < l.length := by
  unfold binarySearchStart at h
  split at h
  · split at h
    · rename_i idx hidx
      simp only [Res.ok.injEq, Search.found.injEq] at h
      subst h
      exact findIdx_lt hidx
    · cases h
  · cases h

theorem binarySearch_notFound_le {l : List Range} {s i : Nat} (h : binarySearchStart l s = .ok (.notFound i)) :
    i ≤ l.length := by
  unfold binarySearchStart at h
  split at h
  · split at h
    · cases h
    · simp only [Res.ok.injEq, Search.notFound.injEq] at h
      subst h
      exact (List.takeWhile_sublist _).length_le
  · cases h

theorem setAt_length {m m' : MatchedRanges} {i : Nat} {r : Range} (h : m.setAt i r = .ok m') :
    m'.ranges.length = m.ranges.length ∧ m'.initialLen = m.initialLen := by
  obtain ⟨rs, h1, h2⟩ := Res.bind_eq_ok.mp h
  obtain rfl := Res.ok.inj h2
  obtain ⟨_, rfl⟩ := length_of_setR h1
  exact ⟨List.length_set, rfl⟩

theorem insertAt_length {m m' : MatchedRanges} {i : Nat} {r : Range} (h : m.insertAt i r = .ok m') :
    m'.ranges.length = m.ranges.length + 1 := by
  obtain ⟨rs, h1, h2⟩ := Res.bind_eq_ok.mp h
  obtain rfl := Res.ok.inj h2
  unfold insertAtR at h1
  split at h1
  · obtain rfl := Res.ok.inj h1
    simp only [List.length_append, List.length_take, List.length_cons, List.length_drop]
    omega
  · cases h1

theorem getR_split {m : MatchedRanges} {i j : Nat} (h : i < j) :
    getR ((m.ranges.take (m.initialLen + j)).drop m.initialLen) i = m.getAt i := by
  unfold MatchedRanges.getAt getR
  rw [List.getElem?_drop, List.getElem?_take_of_lt (by omega)]

theorem rangesInsert_agree {m : MatchedRanges} {new : Range} (hl : m.ranges.length < 2 ^ B.bits)
    (hm : m.ranges.length ≤ B.limit .range)
    (hg : P ∨ ∀ m', m.insert new = .ok m' → m'.ranges.length ≤ B.limit .range) :
    Agree P (fun m' => m'.ranges.length ≤ B.limit .range) (rangesInsert B m new) (m.insert new) := by
  -- it suffices to grow only when the result is that long
  have hpush : ∀ (x y : Res MatchedRanges), m.insert new = y →
      ((P ∨ ∀ m', y = .ok m' → m'.ranges.length ≤ B.limit .range) → Agree P (fun m' => m'.ranges.length ≤ B.limit .range) x y) →
      Agree P (fun m' => m'.ranges.length ≤ B.limit .range) x (m.insert new) := by
    rintro x y rfl h; exact h hg
  unfold rangesInsert
  refine hpush _ _ rfl ?_
  clear hg hpush
  unfold MatchedRanges.insert
  intro hg
  cases hs : sliceFromR m.ranges m.initialLen with
  | panic => exact Agree.right
  | ok this =>
    simp only [hs, Res.bind_ok] at hg
    simp only [Res.bind_ok]
    obtain ⟨hle, rfl⟩ := of_sliceFromR hs
    cases hb : binarySearchStart (m.ranges.drop m.initialLen) new.start with
    | panic => exact Agree.right
    | ok found =>
    rw [hb] at hg
    simp only [Res.bind_ok] at hg ⊢
    cases found with
    | found idx =>
      have hidx := binarySearch_found_lt hb
      rw [List.length_drop] at hidx
      simp only
      clear hg
      rw [usize_ok (show idx + 1 < _ by omega)]
      simp only [Res.bind_ok]
      rw [rangesSplitAt_eq hl (by omega)]
      simp only [Res.bind_ok]
      rw [getR_split (by omega)]
      refine Agree.same fun range _ => ?_
      refine Agree.ite (fun _ => Agree.ok hm) fun _ => ?_
      rw [List.head?_drop]
      cases hn : m.ranges[m.initialLen + (idx + 1)]? with
      | none => exact Agree.self _ fun m' h => by have := setAt_length h; omega
      | some next =>
        refine Agree.ite (fun _ => ?_) fun _ => Agree.self _ fun m' h => by have := setAt_length h; omega
        refine Agree.same fun m' hm' => ?_
        have := setAt_length hm'
        exact rangesRemove_agree (by omega) (by omega)
    | notFound idx =>
      have hidx := binarySearch_notFound_le hb
      rw [List.length_drop] at hidx
      by_cases h0 : (idx == 0) = true
      · simp only [if_pos h0] at hg ⊢
        rw [usize_ok (show m.initialLen + 0 < _ by omega)]
        simp only [Res.bind_ok]
        cases hf : m.ranges[m.initialLen + 0]? with
        | none =>
          rw [hf] at hg
          refine rangesPush_agree (hg.imp_right fun h => ?_)
          have := h _ rfl
          simpa [MatchedRanges.push] using this
        | some first =>
          rw [hf] at hg
          simp only at hg ⊢
          by_cases h1 : new.stop ≥ first.start
          · simp only [if_pos h1]; exact Agree.self _ fun m' h => by have := setAt_length h; omega
          · simp only [if_neg h1] at hg ⊢
            intro m' hm'
            refine rangesInsertAt_agree (by omega) (hg.imp_right fun h => ?_) m' hm'
            have := h m' hm'
            rwa [insertAt_length hm'] at this
      · simp only [if_neg h0] at hg ⊢
        have hsub : m.len = .ok (m.ranges.length - m.initialLen) := by unfold MatchedRanges.len; rw [subR_of_le hle]
        rw [sub_ok hle]
        rw [hsub] at hg ⊢
        simp only [Res.bind_ok] at hg ⊢
        by_cases h1 : (idx == m.ranges.length - m.initialLen) = true
        · simp only [if_pos h1] at hg ⊢
          cases hlast : m.ranges.getLast? with
          | none => exact Agree.right
          | some last =>
            rw [hlast] at hg
            simp only [Res.unwrap, Res.bind_ok] at hg ⊢
            by_cases h2 : new.start ≤ last.stop
            · rw [if_pos h2, if_pos h2]
              refine Agree.ok ?_
              have : m.ranges ≠ [] := by rintro e; rw [e] at hlast; cases hlast
              have := List.length_pos_iff.mpr this
              simp only [List.length_append, List.length_dropLast, List.length_cons, List.length_nil]
              omega
            · simp only [if_neg h2] at hg ⊢
              refine rangesPush_agree (hg.imp_right fun h => ?_)
              have := h _ rfl
              simpa [MatchedRanges.push] using this
        · simp only [if_neg h1] at hg ⊢
          have h0' : idx ≠ 0 := by simpa using h0
          rw [rangesSplitAt_eq hl (by omega)]
          simp only [Res.bind_ok]
          rw [sub_ok (show 1 ≤ idx by omega)]
          rw [subR_of_le (show 1 ≤ idx by omega)] at hg ⊢
          simp only [Res.bind_ok] at hg ⊢
          rw [getR_split (show idx - 1 < idx by omega)]
          have hnext : getR (m.ranges.drop (m.initialLen + idx)) 0 = m.getAt idx := by
            unfold MatchedRanges.getAt getR
            rw [List.getElem?_drop, Nat.add_zero]
          rw [hnext]
          cases hp : m.getAt (idx - 1) with
          | panic => exact Agree.right
          | ok prev =>
            cases hn : m.getAt idx with
            | panic => exact Agree.right
            | ok next =>
              rw [hp, hn] at hg
              simp only [Res.bind_ok] at hg ⊢
              cases h3 : decide (new.start ≤ prev.stop) with
              | true =>
                cases h4 : decide (new.stop ≥ next.start) with
                | true =>
                  refine Agree.same fun m' hm' => ?_
                  have := setAt_length hm'
                  exact rangesRemove_agree (by omega) (by omega)
                | false =>
                  refine Agree.ite (fun _ => ?_) fun _ => Agree.ok hm
                  exact Agree.self _ fun m' h => by have := setAt_length h; omega
              | false =>
                cases h4 : decide (new.stop ≥ next.start) with
                | true => exact Agree.self _ fun m' h => by have := setAt_length h; omega
                | false =>
                  rw [h3, h4] at hg
                  intro m' hm'
                  refine rangesInsertAt_agree (by omega) (hg.imp_right fun h => ?_) m' hm'
                  have := h m' hm'
                  rwa [insertAt_length hm'] at this

/-! ### Ranges inserted by one call -/

/-- The vector of ranges during a call on a candidate of `K` bytes: `pre` was there before the call; what was added is
made of separated ranges that end at `K` or before; there is room for all of them. -/
def RInv (B : Build) (pre : List Range) (K : Nat) (m : MatchedRanges) : Prop :=
  (∃ this, m = ⟨pre ++ this, pre.length⟩ ∧ Sep this ∧ ∀ r ∈ this, r.stop ≤ K) ∧ m.ranges.length ≤ B.limit .range

theorem sep_length {l : List Range} (h : Sep l) {a K : Nat} (ha : ∀ r ∈ l, a ≤ r.start) (hK : ∀ r ∈ l, r.stop ≤ K) :
    2 * l.length + a ≤ K + 1 ∨ l = [] := by
  induction l generalizing a with
  | nil => exact .inr rfl
  | cons r l ih =>
    obtain ⟨h1, h2, h3⟩ := sep_cons.mp h
    have h4 := hK r (by simp)
    have h5 := ha r (by simp)
    left
    rcases ih h3 (a := r.stop + 1) (fun x hx => h2 x hx) (fun x hx => hK x (by simp [hx])) with h6 | rfl
    · rw [List.length_cons]; omega
    · simp only [List.length_cons, List.length_nil]; omega

theorem RInv.length {pre : List Range} {K : Nat} {m : MatchedRanges} (h : RInv B pre K m) :
    m.ranges.length ≤ pre.length + (K + 1) / 2 := by
  obtain ⟨⟨this, rfl, h1, h2⟩, _⟩ := h
  rcases sep_length h1 (a := 0) (fun _ _ => Nat.zero_le _) h2 with h3 | rfl
  · simp only [List.length_append]; omega
  · simp

theorem RInv.insert {pre : List Range} {K : Nat} {m m' : MatchedRanges} (h : RInv B pre K m) {r : Range}
    (h1 : r.start < r.stop) (h2 : r.stop ≤ K) (hm : m.insert r = .ok m') :
    (∃ this, m' = ⟨pre ++ this, pre.length⟩ ∧ Sep this ∧ ∀ r ∈ this, r.stop ≤ K) ∧ m'.ranges.length ≤ pre.length + (K + 1) / 2 := by
  obtain ⟨⟨this, rfl, h3, h4⟩, _⟩ := h
  rw [insert_eq pre this h3.starts] at hm
  obtain rfl := Res.ok.inj hm
  have h5 := sep_pinsert h3 h1
  have h6 : ∀ x ∈ pinsert this r, x.stop ≤ K := by
    intro x hx
    rcases pinsert_stop this r x hx with h | ⟨y, hy, h⟩
    · omega
    · have := h4 y hy; omega
  refine ⟨⟨_, rfl, h5, h6⟩, ?_⟩
  rcases sep_length h5 (a := 0) (fun _ _ => Nat.zero_le _) h6 with h7 | h7
  · simp only [List.length_append]; omega
  · rw [h7]; simp

theorem RInv.ofVec {buf : List Range} (K : Nat) (hl : buf.length ≤ B.limit .range) : RInv B buf K (MatchedRanges.ofVec buf) :=
  ⟨⟨[], by simp [MatchedRanges.ofVec], sep_nil, by simp⟩, hl⟩

/-- What the vector of ranges may need, during a call on a candidate of `K` bytes. -/
structure RBd (B : Build) (P : Prop) (R : Bool) (pre : List Range) (K : Nat) : Prop where
  lt : pre.length + K < 2 ^ B.bits
  init : pre.length ≤ B.limit .range
  grow : R = true → P ∨ pre.length + (K + 1) / 2 ≤ B.limit .range

theorem RBd.of {R R' : Bool} {pre : List Range} {K : Nat} (h : RBd B P R pre K) (h' : R' = true → R = true) :
    RBd B P R' pre K := ⟨h.lt, h.init, fun hr => h.grow (h' hr)⟩

theorem insert_agree {pre : List Range} {K : Nat} (hb : RBd B P true pre K) {m : MatchedRanges} (h : RInv B pre K m) {r : Range}
    (h1 : r.start < r.stop) (h2 : r.stop ≤ K) : Agree P (RInv B pre K) (rangesInsert B m r) (m.insert r) := by
  have h3 := h.length
  have h4 := hb.lt
  refine (rangesInsert_agree (by omega) h.2 ?_).mono fun m' hm' hl => ⟨(h.insert h1 h2 hm').1, hl⟩
  refine (hb.grow rfl).imp_right fun h5 m' hm' => ?_
  have := (h.insert h1 h2 hm').2
  omega

/-! ### Slabs -/

theorem length_resize_ite {α : Type} (l : List α) (len : Nat) (fill : α) :
    len ≤ (if len > l.length then resize l len fill else l).length := length_ite_resize l len fill

theorem bonusAlloc_agree {vec : List BonusCell} {len : Nat} (hl : vec.length ≤ B.limit .bonus)
    (hg : P ∨ len ≤ B.limit .bonus) :
    Agree P (fun r => r.1.length ≤ B.limit .bonus ∧ r.2.length = len ∧ len ≤ r.1.length) (bonusAlloc B vec len)
      (Norm.bonusAlloc vec len) := by
  unfold bonusAlloc Norm.bonusAlloc
  refine ensure_agree hl hg fun _ h2 => ?_
  dsimp only
  refine Agree.same fun sl hsl => ?_
  obtain ⟨h3, rfl⟩ := of_sliceToR hsl
  refine Agree.ok ⟨h2, ?_, h3⟩
  rw [List.length_map, List.length_take]
  omega

theorem indicesAlloc_agree {vec : List Nat} {len : Nat} (hl : vec.length ≤ B.limit .index)
    (hg : P ∨ len ≤ B.limit .index) :
    Agree P (fun r => r.1.length ≤ B.limit .index ∧ r.2.length = len ∧ len ≤ r.1.length) (indicesAlloc B vec len)
      (Norm.indicesAlloc vec len) := by
  unfold indicesAlloc Norm.indicesAlloc
  refine ensure_agree hl hg fun _ h2 => ?_
  dsimp only
  refine Agree.same fun sl hsl => ?_
  obtain ⟨h3, rfl⟩ := of_sliceToR hsl
  refine Agree.ok ⟨h2, ?_, h3⟩
  rw [List.length_take]
  omega

theorem slabWriteChars_agree (text : List Char) : ∀ (chars : List Char) (n : Nat), chars.length < 2 ^ B.bits →
    Agree P (fun r => r.1.length = chars.length) (slabWriteChars B chars text n) (Norm.slabWriteChars chars text n) := by
  induction text with
  | nil => intro chars n _; exact Agree.ok rfl
  | cons ch text ih =>
    intro chars n h
    unfold slabWriteChars Norm.slabWriteChars
    refine Agree.same fun chars' hc => ?_
    obtain ⟨h1, rfl⟩ := length_of_setR hc
    refine Agree.skip (usize_ok (by omega)) ?_
    have := ih (chars.set n ch) (n + 1) (by simpa using h)
    rwa [List.length_set] at this

theorem candidateAlloc_agree {chars text : List Char} (hlim : B.limit .char < 2 ^ B.bits)
    (hl : chars.length ≤ B.limit .char) (hg : P ∨ strLen text ≤ B.limit .char) :
    Agree P (fun r => r.1.length ≤ B.limit .char ∧ r.2 = text) (candidateAlloc B chars text)
      (Norm.candidateAlloc chars text) := by
  have key : ∀ r, Norm.candidateAlloc chars text = .ok r → r.2 = text := by
    intro r hr
    obtain ⟨slab', h⟩ := candidateAlloc_eq chars text
    rw [h] at hr
    obtain rfl := Res.ok.inj hr
    rfl
  have : Agree P (fun r => r.1.length ≤ B.limit .char) (candidateAlloc B chars text)
      (Norm.candidateAlloc chars text) := by
    unfold candidateAlloc Norm.candidateAlloc
    refine ensure_agree hl hg fun _ h2 => ?_
    dsimp only
    refine Agree.bind (slabWriteChars_agree text _ 0 (by omega)) fun r hr _ => ?_
    obtain ⟨chars', n⟩ := r
    refine Agree.same fun sl _ => Agree.ok ?_
    simp only at hr ⊢
    omega
  exact this.mono fun r h1 h2 => ⟨h2, key r h1⟩

end Norm.Usize
