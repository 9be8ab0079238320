import Verif.Proofs.Highlights
import Verif.Proofs.V2Spec
import Verif.Proofs.ExactSeen
import Verif.SpecOutcome
import Mathlib.Data.List.Induction

/-!
# Helper lemmas about the results of a query -/

namespace Norm

open Spec

variable {U : Unicode} {a : Algo} {m : Metric} {st : Settings} {q : FzfQuery} {s : List Char} {p : Pattern}

/-! ### Ranges -/

/-- Separated ranges are determined by what they cover. -/
theorem sep_ext : ∀ {l l' : List Range}, Sep l → Sep l' → (∀ b, Covered l b ↔ Covered l' b) → l = l' := by
  intro l
  induction l with
  | nil =>
    intro l' _ h' h
    cases l' with
    | nil => rfl
    | cons r l' =>
      have := (h r.start).mpr ⟨r, by simp, Nat.le_refl _, h'.1 r (by simp)⟩
      simp at this
  | cons r l ih =>
    intro l' hl h' h
    cases l' with
    | nil =>
      have := (h r.start).mp ⟨r, by simp, Nat.le_refl _, hl.1 r (by simp)⟩
      simp at this
    | cons r' l' =>
      have hr := hl.1 r (by simp)
      have hr' := h'.1 r' (by simp)
      have after : ∀ {r : Range} {l : List Range}, Sep (r :: l) → ∀ {b}, Covered l b → r.stop < b := by
        rintro r l h b ⟨x, hx, h1, _⟩
        have := (List.pairwise_cons.mp h.2).1 x hx
        omega
      have hge : ∀ {r : Range} {l : List Range}, Sep (r :: l) → ∀ {b}, Covered (r :: l) b → r.start ≤ b := by
        intro r l h b hb
        rcases (covered_cons ..).mp hb with hb | hb
        · exact hb.1
        · have := after h hb
          have := h.1 r (by simp)
          omega
      have e1 : r.start = r'.start := by
        have h1 := hge h' ((h r.start).mp ⟨r, by simp, Nat.le_refl _, hr⟩)
        have h2 := hge hl ((h r'.start).mpr ⟨r', by simp, Nat.le_refl _, hr'⟩)
        omega
      have notc : ∀ {r : Range} {l : List Range}, Sep (r :: l) → ¬ Covered (r :: l) r.stop := by
        intro r l h hb
        rcases (covered_cons ..).mp hb with hb | hb
        · omega
        · have := after h hb
          omega
      have e2 : r.stop = r'.stop := by
        by_contra hne
        rcases Nat.lt_or_gt_of_ne hne with hlt | hlt
        · exact notc hl ((h r.stop).mpr ⟨r', by simp, by omega, hlt⟩)
        · exact notc h' ((h r'.stop).mp ⟨r, by simp, by omega, hlt⟩)
      have e : r = r' := by
        cases r; cases r'; simp_all
      subst e
      congr 1
      refine ih ⟨fun x hx => hl.1 x (by simp [hx]), (List.pairwise_cons.mp hl.2).2⟩
        ⟨fun x hx => h'.1 x (by simp [hx]), (List.pairwise_cons.mp h'.2).2⟩ (fun b => ?_)
      have := h b
      rw [covered_cons, covered_cons] at this
      constructor
      · intro hb
        have hlt := after hl hb
        rcases this.mp (.inr hb) with h | h
        · omega
        · exact h
      · intro hb
        have hlt := after h' hb
        rcases this.mpr (.inr hb) with h | h
        · omega
        · exact h

theorem byteLen_take_lt {i j : Nat} (h : i < j) (hj : j ≤ s.length) : byteLen (s.take i) < byteLen (s.take j) :=
  byteRange_nonempty h hj

/-- The bytes of character `i` lie in the slice `[x, y)` iff `i` does. -/
theorem charRange_slice {x y i b : Nat} (hb : (charRange s i).start ≤ b ∧ b < (charRange s i).stop) :
    ((byteRange s x y).start ≤ b ∧ b < (byteRange s x y).stop) ↔ x ≤ i ∧ i < y := by
  simp only [charRange, byteRange] at hb ⊢
  constructor
  · intro h
    constructor
    · by_contra hc
      have := byteLen_take_le (s := s) (i := i + 1) (j := x) (by omega)
      omega
    · by_contra hc
      have := byteLen_take_le (s := s) (i := y) (j := i) (by omega)
      omega
  · rintro ⟨h1, h2⟩
    have := byteLen_take_le (s := s) h1
    have := byteLen_take_le (s := s) (i := i + 1) (j := y) (by omega)
    omega

theorem charRange_inj {i j b : Nat} (hi : (charRange s i).start ≤ b ∧ b < (charRange s i).stop)
    (hj : (charRange s j).start ≤ b ∧ b < (charRange s j).stop) : i = j := by
  have := (charRange_slice hi).mp hj
  omega

/-- The bytes of the characters in `H`. -/
def Bytes (s : List Char) (H : Nat → Prop) (b : Nat) : Prop :=
  ∃ i, H i ∧ (charRange s i).start ≤ b ∧ b < (charRange s i).stop

theorem bytes_char {H : Nat → Prop} {i b : Nat} (hb : (charRange s i).start ≤ b ∧ b < (charRange s i).stop) :
    Bytes s H b ↔ H i := by
  constructor
  · rintro ⟨j, hj, h⟩
    rwa [charRange_inj hb h]
  · intro h; exact ⟨i, h, hb⟩

theorem start_mem {i : Nat} (h : i < s.length) :
    (charRange s i).start ≤ (charRange s i).start ∧ (charRange s i).start < (charRange s i).stop :=
  ⟨Nat.le_refl _, byteRange_nonempty (Nat.lt_succ_self i) h⟩

/-- A byte of a slice is a byte of one of its characters. -/
theorem slice_bytes {x y b : Nat} (hy : y ≤ s.length) (h : (byteRange s x y).start ≤ b ∧ b < (byteRange s x y).stop) :
    ∃ i, x ≤ i ∧ i < y ∧ (charRange s i).start ≤ b ∧ b < (charRange s i).stop := by
  simp only [byteRange] at h
  have hxy : x ≤ y := by
    by_contra hc
    have := byteLen_take_le (s := s) (i := y) (j := x) (by omega)
    omega
  obtain ⟨k, rfl⟩ := Nat.exists_eq_add_of_le hxy
  induction k with
  | zero => simp at h; omega
  | succ k ih =>
    by_cases hb : b < byteLen (s.take (x + k))
    · obtain ⟨i, h1, h2, h3⟩ := ih (by omega) ⟨h.1, hb⟩ (by omega)
      exact ⟨i, h1, by omega, h3⟩
    · exact ⟨x + k, by omega, by omega, by simp only [charRange, byteRange]; rw [← Nat.add_assoc] at h; omega⟩

/-- When the character `i` of a block that starts at `x` is kept by `insert`. -/
theorem kept_iff {l : List Range} {H : Nat → Prop} (hs : Sep l) (hl : ∀ r ∈ l, Slice s r)
    (hH : ∀ b, Covered l b ↔ Bytes s H b) {x i b : Nat} (hi : i < s.length)
    (hb : (charRange s i).start ≤ b ∧ b < (charRange s i).stop) :
    (∀ r' ∈ l, byteLen (s.take x) < r'.start → b < r'.stop) ↔ Kept H x i := by
  have inH : ∀ {u v : Nat}, byteRange s u v ∈ l → v ≤ s.length → ∀ k, u ≤ k → k < v → H k := by
    intro u v hr hv k h1 h2
    have hk := start_mem (s := s) (i := k) (by omega)
    refine (bytes_char hk).mp ((hH _).mp ⟨_, hr, ?_⟩)
    exact (charRange_slice hk).mpr ⟨h1, h2⟩
  constructor
  · intro h j k hj h1 h2 hjk hki
    have hjl : j < s.length := by omega
    have hjm := start_mem hjl
    obtain ⟨r, hr, hc⟩ := (hH _).mpr ((bytes_char hjm).mpr h1)
    obtain ⟨u, v, huv, hv, rfl⟩ := hl r hr
    have hu := (charRange_slice hjm).mp hc
    have : u = j := by
      by_contra hne
      exact h2 (inH hr hv (j - 1) (by omega) (by omega))
    subst this
    have := h _ hr (byteLen_take_lt hj (by omega))
    have hiv : i < v := by
      by_contra hc
      have := byteLen_take_le (s := s) (i := v) (j := i) (by omega)
      simp only [charRange, byteRange] at hb this ⊢
      simp only [byteRange] at *
      omega
    exact inH hr hv k hjk (by omega)
  · intro h r hr hlt
    obtain ⟨u, v, huv, hv, rfl⟩ := hl r hr
    have hxu : x < u := by
      by_contra hc
      have := byteLen_take_le (s := s) (i := u) (j := x) (by omega)
      simp only [byteRange] at hlt
      omega
    by_contra hge
    have hvi : v ≤ i := by
      by_contra hc
      have := (charRange_slice (x := u) (y := i + 1) hb).mpr
      have := byteLen_take_le (s := s) (i := i + 1) (j := v) (by omega)
      simp only [charRange, byteRange] at hb hge
      omega
    have hadj : ∀ k, k < s.length → H k → (k + 1 = u ∨ k = v) → False := by
      intro k hk hHk hor
      have hm := start_mem hk
      obtain ⟨r', hr', hc⟩ := (hH _).mpr ((bytes_char hm).mpr hHk)
      obtain ⟨u', v', huv', hv', rfl⟩ := hl r' hr'
      have hin := (charRange_slice hm).mp hc
      have hne : byteRange s u' v' ≠ byteRange s u v := by
        intro he
        rw [he] at hc
        have := (charRange_slice hm).mp hc
        omega
      have hdis : ∀ {l : List Range}, l.Pairwise (fun a b => a.stop < b.start) → ∀ {r r'}, r ∈ l → r' ∈ l → r ≠ r' →
          r.stop < r'.start ∨ r'.stop < r.start := by
        intro l
        induction l with
        | nil => simp
        | cons z l ih =>
          intro hp r r' h1 h2 h3
          obtain ⟨hz, hp⟩ := List.pairwise_cons.mp hp
          rcases List.mem_cons.mp h1 with e1 | h1 <;> rcases List.mem_cons.mp h2 with e2 | h2
          · exact absurd (e1.trans e2.symm) h3
          · exact .inl (e1 ▸ hz _ h2)
          · exact .inr (e2 ▸ hz _ h1)
          · exact ih hp h1 h2 h3
      have := hdis hs.2 hr' hr hne
      simp only [byteRange] at this
      have k1 := byteLen_take_le (s := s) (i := u) (j := v') 
      have k2 := byteLen_take_le (s := s) (i := u') (j := v) 
      omega
    have := h u v hxu (inH hr hv u (by omega) huv) (fun hc => hadj (u - 1) (by omega) hc (by omega)) (by omega) hvi
    exact hadj v (by omega) this (.inr rfl)

/-! ### Fuzzy patterns -/

theorem forall₂_antisymm {x y : List Nat} (h : List.Forall₂ (· ≤ ·) x y) (h' : List.Forall₂ (· ≤ ·) y x) : x = y := by
  induction h with
  | nil => rfl
  | cons h _ ih => cases h' with | cons h1 h2 => rw [ih h2]; congr 1; omega

theorem head_le_of_increasing {g : List Nat} (h : g.Pairwise (· < ·)) {l : Nat} (hl : g.head? = some l) :
    ∀ x ∈ g, l ≤ x := by
  cases g with
  | nil => simp at hl
  | cons y g =>
    simp at hl; subst hl
    intro x hx
    rcases List.mem_cons.mp hx with rfl | hx
    · exact Nat.le_refl _
    · exact Nat.le_of_lt ((List.pairwise_cons.mp h).1 x hx)

/-- `FzfV1`'s choice is unique. -/
theorem Spec.V1Chooses.unique {R : Char → Char → Prop} {p s : List Char} {x y : List Nat} (hp : p ≠ [])
    (hx : V1Chooses R p s x) (hy : V1Chooses R p s y) : x = y := by
  have ne : ∀ {x}, V1Chooses R p s x → x ≠ [] := by
    intro x hx h
    have := hx.alignment.spells.length_eq
    simp [h] at this
    exact hp this
  obtain ⟨fx, hfx⟩ : ∃ f, x.head? = some f := ⟨_, List.head?_eq_some_head (ne hx)⟩
  obtain ⟨fy, hfy⟩ : ∃ f, y.head? = some f := ⟨_, List.head?_eq_some_head (ne hy)⟩
  obtain ⟨lx, hlx⟩ : ∃ f, x.getLast? = some f := ⟨_, List.getLast?_eq_some_getLast (ne hx)⟩
  obtain ⟨ly, hly⟩ : ∃ f, y.getLast? = some f := ⟨_, List.getLast?_eq_some_getLast (ne hy)⟩
  have lex := le_last_of_increasing hx.alignment.increasing hlx
  have ley := le_last_of_increasing hy.alignment.increasing hly
  have gex := head_le_of_increasing hx.alignment.increasing hfx
  have gey := head_le_of_increasing hy.alignment.increasing hfy
  have e1 : lx = ly := by
    obtain ⟨i, hi, h1⟩ := hx.ends lx hlx y hy.alignment
    obtain ⟨j, hj, h2⟩ := hy.ends ly hly x hx.alignment
    have := ley i hi
    have := lex j hj
    omega
  subst e1
  have e2 : fx = fy := by
    obtain ⟨i, hi, h1⟩ := hx.starts fx lx hfx hlx y hy.alignment ley
    obtain ⟨j, hj, h2⟩ := hy.starts fy lx hfy hly x hx.alignment lex
    have := gey i hi
    have := gex j hj
    omega
  subst e2
  exact forall₂_antisymm (hx.leftmost fx hfx y hy.alignment gey) (hy.leftmost fx hfy x hx.alignment gex)

/-- What `FzfV1` finds. -/
theorem v1Align_chooses {eq : CharEq} {p s : List Char} (hp : p ≠ []) {g : List Nat} :
    v1Align eq s p = some g ↔ V1Chooses (rel eq) p s g := by
  have fwd : ∀ {g}, v1Align eq s p = some g → V1Chooses (rel eq) p s g := by
    intro g h
    obtain ⟨a, l, h1, h2, h3, h4, h5⟩ := v1Align_some hp h
    refine ⟨h4, ?_, ?_, ?_⟩
    · intro last hl ps' ha
      obtain rfl : l = last := by rw [h3] at hl; simpa using hl
      obtain ⟨j, hj, hle⟩ := h5.least ps' ha
      exact ⟨j, hj, by omega⟩
    · intro first last hf hl ps' ha hall
      obtain rfl : l = last := by rw [h3] at hl; simpa using hl
      obtain rfl : a = first := by rw [h2] at hf; simpa using hf
      exact h5.greatest ps' ha (fun i hi => by have := hall i hi; omega)
    · intro first hf ps' ha hall
      obtain rfl : a = first := by rw [h2] at hf; simpa using hf
      obtain ⟨g', hg', hle⟩ := greedyFrom_least ha hall
      rw [h1] at hg'
      cases hg'
      exact hle
  refine ⟨fwd, fun h => ?_⟩
  cases hv : v1Align eq s p with
  | none =>
    have := (v1Align_none hp).mp hv
    obtain ⟨g', hg', _⟩ := greedyFrom_least h.alignment (off := 0) (by simp)
    rw [this] at hg'
    cases hg'
  | some g' => rw [(fwd hv).unique hp h]

theorem bestChar_unique {B : Nat → Int} {R : Char → Char → Prop} {c : Char} {i j : Nat} (hi : BestChar B R c s i)
    (hj : BestChar B R c s j) : i = j := by
  obtain ⟨⟨x, hx, hx'⟩, h1⟩ := hi
  obtain ⟨⟨y, hy, hy'⟩, h2⟩ := hj
  have a1 := h1 j y hy hy'
  have a2 := h2 i x hx hx'
  rcases Nat.lt_trichotomy i j with h | h | h
  · have := a2.2 h; omega
  · exact h
  · have := a1.2 h; omega

theorem best_unique {G : Grid} {n r c r' c' : Nat} (h : G.Best n r c) (h' : G.Best n r' c') : r = r' ∧ c = c' := by
  have h1 := h.2.2 r' c' h'.1 h'.2.1
  have h2 := h'.2.2 r c h.1 h.2.1
  by_contra hne
  have : (r' < r ∨ (r' = r ∧ c' < c)) ∨ (r < r' ∨ (r = r' ∧ c < c')) := by omega
  rcases this with hlt | hlt
  · have := h1.2 hlt; omega
  · have := h2.2 hlt; omega

/-- What `FzfV2` finds. -/
theorem v2Result_chooses {B : Nat → Int} (hB : ∀ i, 0 ≤ B i) {eq : CharEq} {p s : List Char} (hp : p ≠ [])
    {ps : List Nat} {n : Int} : v2Result B eq p s = some (ps, n) ↔ V2Chooses (rel eq) B p s ps n := by
  by_cases h1 : p.length = 1
  · obtain ⟨c, rfl⟩ := List.length_eq_one_iff.mp h1
    have hv : v2Result B eq [c] s = singleResult B eq c s := by simp [v2Result]
    rw [hv]
    have fwd : ∀ {x}, singleResult B eq c s = some x → ∃ i, BestChar B (rel eq) c s i ∧ x = ([i], 16 + 2 * B i) := by
      intro x hx
      obtain ⟨i, y, rfl, h3, h4, h5⟩ := singleResult_some hx
      exact ⟨i, ⟨⟨y, h3, h4⟩, h5⟩, rfl⟩
    constructor
    · intro h
      obtain ⟨i, h2, h3⟩ := fwd h
      cases h3
      exact .inl ⟨c, i, rfl, h2, rfl, rfl⟩
    · rintro (⟨c', i, hc, h2, rfl, rfl⟩ | ⟨h2, _⟩)
      · cases hc
        cases hx : singleResult B eq c s with
        | none =>
          obtain ⟨⟨x, h3, h4⟩, _⟩ := h2
          have := (singleResult_none hB).mp hx i x h3
          unfold rel at h4
          rw [this] at h4
          cases h4
        | some x =>
          obtain ⟨j, h3, rfl⟩ := fwd hx
          rw [bestChar_unique h2 h3]
      · simp at h2
  · have h2 : 2 ≤ p.length := by
      have := List.length_pos_iff.mpr hp
      omega
    constructor
    · intro h
      have hsub : Subseq (rel eq) p s := by
        by_contra hcon
        rw [(v2Result_none hB).mpr hcon] at h
        cases h
      obtain ⟨G, hG⟩ := gridOf_exists (B := B) hp hsub
      obtain ⟨r, c, hb, he⟩ := v2Result_grid hB h2 hG h
      cases he
      exact .inr ⟨h2, G, r, c, hG, hb, rfl, rfl⟩
    · rintro (⟨c, _, rfl, _⟩ | ⟨_, G, r, c, hG, hb, rfl, rfl⟩)
      · simp at h1
      · cases hx : v2Result B eq p s with
        | none =>
          have := (v2Result_none hB).mp hx
          refine absurd ?_ this
          exact subseq_iff.mpr ⟨_, hG.first.1⟩
        | some x =>
          obtain ⟨r', c', hb', rfl⟩ := v2Result_grid hB h2 hG hx
          obtain ⟨rfl, rfl⟩ := best_unique hb hb'
          rfl

/-- What a fuzzy pattern finds. -/
theorem pureOf_finds (hr : rel (st.eqOf p) = Cmp U st p.text) (hp : p.text ≠ []) (hk : p.matchType = .fuzzy)
    {ps : List Nat} {n : Int} :
    pureOf a (posBonus U st.scheme s) (st.eqOf p) p.text s = some (ps, n) ↔ Finds U a st s p ps n := by
  unfold Finds
  simp only [hk, if_true, ← hr]
  cases a with
  | v1 =>
    simp only [pureOf, v1Result, Option.map_eq_some_iff, Prod.mk.injEq, ← v1Align_chooses hp]
    constructor
    · rintro ⟨g, h, rfl, rfl⟩; exact ⟨h, rfl⟩
    · rintro ⟨h, rfl⟩; exact ⟨_, h, rfl, rfl⟩
  | v2 => exact v2Result_chooses (posBonus_nonneg U st.scheme s) hp

/-! ### Blocks -/

theorem bestPlaced_unique {B : Nat → Int} {R : Char → Char → Prop} {p s : List Char} {i j : Nat}
    (hi : BestPlaced B R p s i) (hj : BestPlaced B R p s j) : i = j := by
  obtain ⟨oi, hi⟩ := hi
  obtain ⟨oj, hj⟩ := hj
  by_contra hne
  have := Nat.lt_or_gt_of_ne hne
  rcases hi with ⟨a1, a2⟩ | a <;> rcases hj with ⟨b1, b2⟩ | b
  · rcases this with h | h
    · have := b2 i h oi; omega
    · have := a2 j h oj; omega
  · have := b i oi; omega
  · have := a j oj; omega
  · have h1 := a j oj
    have h2 := b i oi
    rcases this with h | h
    · have := h2.2.2 h; omega
    · have := h1.2.2 h; omega

/-- The occurrence that a non-fuzzy pattern highlights is unique. -/
theorem blockAt_unique (hp : PatternOk U p) {i j : Nat}
    (hi : BlockAt U st.scheme (Cmp U st p.text) p.text s p.matchType i)
    (hj : BlockAt U st.scheme (Cmp U st p.text) p.text s p.matchType j) : i = j := by
  cases hk : p.matchType <;> rw [hk] at hi hj <;> simp only [BlockAt] at hi hj
  · obtain ⟨x, hx, hi⟩ := hi
    obtain ⟨y, hy, hj⟩ := hj
    rw [← rel_eqOf st hp.upper] at hx hy hi hj
    obtain ⟨q, qs, hq⟩ := List.exists_cons_of_ne_nil hp.1
    rw [hq] at hx hy hi hj
    rw [← seenBonusOf_eq hx] at hi
    rw [← seenBonusOf_eq hy] at hj
    exact bestPlaced_unique hi hj
  · omega
  · have := occursAt_lt hi.1
    have := occursAt_lt hj.1
    omega
  · omega

/-- What the search finds, for each kind of pattern. -/
theorem rawHit_block (hk : p.matchType ≠ .fuzzy) (hp : PatternOk U p) {h : List Range × Int}
    (hh : rawHit U (pureOf a) st s p = some h) :
    ∃ i, BlockAt U st.scheme (Cmp U st p.text) p.text s p.matchType i ∧ i + p.text.length ≤ s.length ∧
      h = ([byteRange s i (i + p.text.length)],
        alignScore (posBonus U st.scheme s) (List.range' i p.text.length)) := by
  obtain ⟨i, h1, h2, h3, h4, h5⟩ := block_hit hk hp hh
  refine ⟨i, ?_, occursAt_lt h1, h2⟩
  cases hm : p.matchType <;> simp only [BlockAt]
  · exact absurd hm hk
  · have hr := rel_eqOf st hp.upper
    obtain ⟨q, qs, hq⟩ := List.exists_cons_of_ne_nil hp.1
    have he := exactMatch_eq U st.scheme.intoInner false (c := .unicode s) (by simp [Candidate.WF]) p (st.eqOf p) hp.1
      (computeBonus_nonneg st.scheme) [] [] sep_nil
    have hb : BestPlaced (seenBonusOf U st.scheme.intoInner (st.eqOf p) q qs s) (rel (st.eqOf p)) p.text s i :=
      (he.2.2 i (h5 hm)).2 q qs hq
    have hs := seenCls_ok (U := U) (eq := st.eqOf p) st.scheme q qs s
    rw [seenBonusOf_eq hs] at hb
    rw [← hr]
    refine ⟨_, ?_, hb⟩
    rw [hq]; exact hs
  · exact ⟨h1, h3 (.inl hm)⟩
  · exact ⟨h1, h4 (.inl hm)⟩
  · exact ⟨h1, h3 (.inr hm), h4 (.inr hm)⟩

/-- A block is a match. -/
theorem blockAt_matches {i : Nat} (h : BlockAt U st.scheme (Cmp U st p.text) p.text s p.matchType i) :
    RawMatches U st p s := by
  unfold RawMatches
  have take_spaces : ∀ j, j ≤ leading s → s.take j = List.replicate j ' ' := by
    intro j hj
    have := congrArg (List.take j) (split_leading hj)
    rw [List.take_left' (by simp)] at this
    exact this
  have drop_spaces : ∀ j, j ≤ trailing s → s.drop (s.length - j) = List.replicate j ' ' := by
    intro j hj
    have := congrArg (List.drop (s.length - j)) (split_trailing hj)
    rw [List.drop_left' (by simp)] at this
    exact this
  cases hk : p.matchType <;> rw [hk] at h <;> simp only [BlockAt, TextMatches] at h ⊢
  · obtain ⟨_, _, h⟩ := h
    exact ⟨i, h.1⟩
  · obtain ⟨⟨x, m, y, rfl, hx, hm⟩, h2⟩ := h
    refine ⟨i, m, y, ?_, by omega, hm⟩
    have := take_spaces i (by omega)
    rw [List.append_assoc, List.take_left' hx] at this
    rw [this]
  · obtain ⟨⟨x, m, y, rfl, hx, hm⟩, h2⟩ := h
    have hl := hm.length_eq
    have e : (x ++ m ++ y).length - (i + p.text.length) = y.length := by simp; omega
    refine ⟨y.length, m, x, ?_, by omega, hm⟩
    have := drop_spaces y.length (by omega)
    rw [List.drop_left' (by simp; omega)] at this
    rw [← this]
  · obtain ⟨⟨x, m, y, rfl, hx, hm⟩, h2, h3⟩ := h
    have hl := hm.length_eq
    have e : (x ++ m ++ y).length - (i + p.text.length) = y.length := by simp; omega
    refine ⟨i, y.length, m, ?_, by omega, by omega, hm⟩
    have h4 := drop_spaces y.length (by omega)
    rw [List.drop_left' (by simp; omega)] at h4
    have h5 := take_spaces i (by omega)
    rw [List.append_assoc, List.take_left' hx] at h5
    rw [← h4, ← h5]

/-! ### Patterns -/

/-- The ranges that a pattern inserts for the characters `ps`. -/
def Inserts (s : List Char) (p : Pattern) (ps : List Nat) (rs : List Range) : Prop :=
  (∀ i ∈ ps, i < s.length) ∧
  ((p.isInverse = true ∧ ps = [] ∧ rs = []) ∨ (p.matchType = .fuzzy ∧ rs = ps.map (charRange s)) ∨
    (p.matchType ≠ .fuzzy ∧ ∃ x y, x < y ∧ y ≤ s.length ∧ ps = List.range' x (y - x) ∧ rs = [byteRange s x y]))

theorem finds_hit (hp : PatternOk U p) {ps : List Nat} {n : Int} (h : Finds U a st s p ps n) :
    ∃ rs, rawHit U (pureOf a) st s p = some (rs, n) ∧ Inserts s p ps rs := by
  by_cases hk : p.matchType = .fuzzy
  · have hx := (pureOf_finds (rel_eqOf st hp.upper) hp.1 hk).mpr h
    refine ⟨ps.map (charRange s), ?_, pos_lt a hp.1 hx, .inr (.inl ⟨hk, rfl⟩)⟩
    simp [rawHit, hk, hx]
  · unfold Finds at h
    simp only [hk, if_false] at h
    obtain ⟨i, h1, rfl, rfl⟩ := h
    have hs := (rawHit_isSome (st := st) (s := s) (accepts a) hp).mpr (blockAt_matches h1)
    obtain ⟨x, hx⟩ := Option.isSome_iff_exists.mp hs
    obtain ⟨j, h2, h3, rfl⟩ := rawHit_block hk hp hx
    obtain rfl := blockAt_unique hp h1 h2
    have := List.length_pos_iff.mpr hp.1
    refine ⟨_, hx, ?_, .inr (.inr ⟨hk, i, i + p.text.length, by omega, h3, by simp, rfl⟩)⟩
    intro k hk
    rw [List.mem_range'_1] at hk
    omega

theorem hit_finds (hp : PatternOk U p) {h : List Range × Int} (hh : rawHit U (pureOf a) st s p = some h) :
    ∃ ps, Finds U a st s p ps h.2 := by
  by_cases hk : p.matchType = .fuzzy
  · simp only [rawHit, hk, Option.map_eq_some_iff] at hh
    obtain ⟨x, hx, rfl⟩ := hh
    exact ⟨x.1, (pureOf_finds (rel_eqOf st hp.upper) hp.1 hk).mp hx⟩
  · obtain ⟨i, h1, _, rfl⟩ := rawHit_block hk hp hh
    unfold Finds
    simp only [hk, if_false]
    exact ⟨_, i, h1, rfl, rfl⟩

theorem contributes_hit (hp : PatternOk U p) {ps : List Nat} {n : Int} (h : Contributes U a st s p ps n) :
    ∃ rs, patHit U (pureOf a) st s p = some (rs, n) ∧ Inserts s p ps rs := by
  unfold Contributes at h
  unfold patHit
  cases hi : p.isInverse with
  | false =>
    simp only [hi, Bool.false_eq_true, if_false] at h ⊢
    exact finds_hit hp h
  | true =>
    simp only [hi, if_true] at h ⊢
    obtain ⟨h, rfl, rfl⟩ := h
    have := mt (rawHit_isSome (st := st) (s := s) (accepts a) hp).mp h
    cases hr : rawHit U (pureOf a) st s p with
    | none => exact ⟨[], rfl, by simp, .inl ⟨hi, rfl, rfl⟩⟩
    | some x => rw [hr] at this; simp at this

theorem hit_contributes (hp : PatternOk U p) {h : List Range × Int} (hh : patHit U (pureOf a) st s p = some h) :
    ∃ ps, Contributes U a st s p ps h.2 := by
  unfold Contributes
  unfold patHit at hh
  cases hi : p.isInverse with
  | false =>
    simp only [hi, Bool.false_eq_true, if_false] at hh ⊢
    exact hit_finds hp hh
  | true =>
    simp only [hi, if_true] at hh ⊢
    cases hr : rawHit U (pureOf a) st s p with
    | none =>
      rw [hr] at hh
      cases hh
      refine ⟨[], fun hm => ?_, rfl, rfl⟩
      have := (rawHit_isSome (st := st) (s := s) (accepts a) hp).mpr hm
      rw [hr] at this
      cases this
    | some x => rw [hr] at hh; cases hh

/-! ### Conditions -/

/-- What inserting the ranges of a pattern adds. -/
theorem insertAll_inserts {l rs : List Range} {ps : List Nat} {H : Nat → Prop} (hs : Sep l) (hl : ∀ r ∈ l, Slice s r)
    (hH : ∀ b, Covered l b ↔ Bytes s H b) (hi : Inserts s p ps rs) (b : Nat) :
    Covered (insertAll l rs) b ↔ Bytes s (fun i => H i ∨ (i ∈ ps ∧
      (p.matchType = .fuzzy ∨ ∀ b, ps.head? = some b → Kept H b i))) b := by
  obtain ⟨hlt, ⟨_, rfl, rfl⟩ | ⟨hk, rfl⟩ | ⟨hk, x, y, hxy, hy, rfl, rfl⟩⟩ := hi
  · simp only [insertAll_nil, List.not_mem_nil, false_and, or_false]
    exact hH b
  · rw [insertAll_chars hs hl hlt, hH]
    simp only [hk, true_or, and_true]
    constructor
    · rintro (⟨i, h1, h2⟩ | ⟨i, h1, h2⟩)
      · exact ⟨i, .inl h1, h2⟩
      · exact ⟨i, .inr h1, h2⟩
    · rintro ⟨i, h1 | h1, h2⟩
      · exact .inl ⟨i, h1, h2⟩
      · exact .inr ⟨i, h1, h2⟩
  · simp only [insertAll_cons, insertAll_nil, hk, false_or]
    have hhead : (List.range' x (y - x)).head? = some x := by
      obtain ⟨k, hk⟩ : ∃ k, y - x = k + 1 := ⟨y - x - 1, by omega⟩
      rw [hk, List.range'_succ]; rfl
    have hmem : ∀ i, i ∈ List.range' x (y - x) ↔ x ≤ i ∧ i < y := by
      intro i
      rw [List.mem_range'_1]
      omega
    constructor
    · intro h
      rcases pinsert_bound hs h with h | ⟨h1, h2, h3⟩
      · obtain ⟨i, h1, h2⟩ := (hH b).mp h
        exact ⟨i, .inl h1, h2⟩
      · obtain ⟨i, hi1, hi2, hi3⟩ := slice_bytes hy ⟨h1, h2⟩
        refine ⟨i, .inr ⟨(hmem i).mpr ⟨hi1, hi2⟩, ?_⟩, hi3⟩
        intro b' hb'
        rw [hhead] at hb'
        cases hb'
        exact (kept_iff hs hl hH (by omega) hi3).mp h3
    · rintro ⟨i, h1 | ⟨h1, h2⟩, h3⟩
      · exact pinsert_mono hs ((hH b).mpr ⟨i, h1, h3⟩)
      · obtain ⟨hi1, hi2⟩ := (hmem i).mp h1
        obtain ⟨h4, h5⟩ := (charRange_slice (x := x) (y := y) h3).mpr ⟨hi1, hi2⟩
        exact pinsert_kept hs h4 h5 ((kept_iff hs hl hH (by omega) h3).mpr (h2 x hhead))

theorem condsHit_snoc {cs : List Condition} {c : Condition} (hc : ∀ p ∈ c, PatternOk U p) {rs rs' : List Range}
    {n n' : Int} (h : condsHit U (pureOf a) st s cs = (rs, some n)) (hf : FirstMatch U st s c p)
    (hp : patHit U (pureOf a) st s p = some (rs', n')) :
    condsHit U (pureOf a) st s (cs ++ [c]) = (rs ++ rs', some (n + n')) := by
  have h1 : condHit U (pureOf a) st s c = some (rs', n') := by rw [condHit_first hc hf, hp]
  rw [condsHit_append (by rw [h]; rfl), h]
  simp [condsHit, h1]

theorem allMatch_hit {cs : List Condition} {H : Nat → Prop} {n : Int} (h : AllMatch U a st s cs H n) :
    (∀ c ∈ cs, ∀ p ∈ c, PatternOk U p) →
    ∃ rs, condsHit U (pureOf a) st s cs = (rs, some n) ∧ ∀ b, Covered (insertAll [] rs) b ↔ Bytes s H b := by
  induction h with
  | nil => intro _; exact ⟨[], rfl, by simp [Bytes]⟩
  | @snoc cs c H n p ps k _ hf hc ih =>
    intro hok
    obtain ⟨rs, h1, h2⟩ := ih (fun c hc => hok c (by simp [hc]))
    obtain ⟨rs', h3, h4⟩ := contributes_hit (hok c (by simp) p hf.mem) hc
    refine ⟨_, condsHit_snoc (hok c (by simp)) h1 hf h3, ?_⟩
    have hsl : ∀ r ∈ rs, Slice s r := by
      have := condsHit_slice (U := U) (a := a) (st := st) (s := s) (cs := cs)
        (fun c hc p hp => (hok c (by simp [hc]) p hp).1)
      rwa [h1] at this
    intro b
    rw [insertAll_append]
    exact insertAll_inserts (sep_insertAll sep_nil (fun r hr => (hsl r hr).lt))
      (insertAll_slice sep_nil (by simp) hsl) h2 h4 b

theorem hit_allMatch {cs : List Condition} (hok : ∀ c ∈ cs, ∀ p ∈ c, PatternOk U p)
    (hm : ∀ c ∈ cs, ∃ p ∈ c, PatternMatches U st p s) : ∃ H n, AllMatch U a st s cs H n := by
  induction cs using List.reverseRecOn with
  | nil => exact ⟨_, _, .nil⟩
  | append_singleton cs c ih =>
    obtain ⟨H, n, h⟩ := ih (fun c hc => hok c (by simp [hc])) (fun c hc => hm c (by simp [hc]))
    obtain ⟨p, hf⟩ := exists_firstMatch (hm c (by simp))
    obtain ⟨x, hx, _⟩ := firstMatch_hit (a := a) (hok c (by simp)) hf
    obtain ⟨ps, hps⟩ := hit_contributes (hok c (by simp) p hf.mem) hx
    exact ⟨_, _, .snoc h hf hps⟩

/-! ### Queries -/

theorem outcome_result (hq : QueryOk U q) {H : Nat → Prop} {d : Option FzfDistance} (h : Outcome U a st s q H d) :
    (result U a st s q).2.map FzfDistance.fromScore = d ∧
      ∀ b, Covered (insertAll [] (result U a st s q).1) b ↔ Bytes s H b := by
  have hok : ∀ {cs : List Condition}, QueryOk U (.extended cs) → ∀ c ∈ cs, ∀ p ∈ c, PatternOk U p :=
    fun h c hc => (h c hc).2
  cases h with
  | @empty p hp =>
    have : result U a st s (.notExtended p) = ([], some 0) := by
      simp [result, queryHit, FzfQuery.isEmpty, Pattern.isEmpty, hp]
    rw [this]
    exact ⟨rfl, by simp [Bytes]⟩
  | @fuzzy p ps n hp hf =>
    obtain ⟨hu, hk⟩ := queryOk_upper hq
    have hx := (pureOf_finds (rel_eqOf st hu) hp hk).mpr hf
    rw [result_notExtended hp, hx]
    refine ⟨rfl, fun b => ?_⟩
    rw [insertAll_chars sep_nil (by simp) (pos_lt a hp hx)]
    simp [Bytes]
  | @noFuzzy p hp hm =>
    obtain ⟨hu, hk⟩ := queryOk_upper hq
    rw [result_notExtended hp]
    unfold RawMatches at hm
    rw [hk, ← rel_eqOf st hu] at hm
    have := mt (accepts a _ _ _ _ (posBonus_nonneg U st.scheme s) hp).mp hm
    cases hx : pureOf a (posBonus U st.scheme s) (st.eqOf p) p.text s with
    | none => exact ⟨rfl, by simp [Bytes]⟩
    | some x => rw [hx] at this; simp at this
  | @extended cs H n h =>
    obtain ⟨rs, h1, h2⟩ := allMatch_hit h (hok hq)
    rw [result_extended, h1]
    exact ⟨rfl, h2⟩
  | @fails cs c cs' H n h hc =>
    obtain ⟨rs, h1, h2⟩ := allMatch_hit h (fun c hc => hok hq c (by simp [hc]))
    have h3 : condHit U (pureOf a) st s c = none := by
      cases hh : condHit U (pureOf a) st s c with
      | none => rfl
      | some x =>
        have := (condHit_isSome (st := st) (s := s) (accepts a) (hok hq c (by simp))).mp (by rw [hh]; rfl)
        obtain ⟨p, hp, hp'⟩ := this
        exact absurd hp' (hc p hp)
    have h4 : condsHit U (pureOf a) st s (cs ++ c :: cs') = (rs, none) := by
      rw [condsHit_append (by rw [h1]; rfl), h1]
      simp [condsHit, h3]
    rw [result_extended, h4]
    exact ⟨rfl, h2⟩

theorem outcome_exists (hq : QueryOk U q) : ∃ H d, Outcome U a st s q H d := by
  cases q with
  | notExtended p =>
    by_cases hp : p.text = []
    · exact ⟨_, _, .empty hp⟩
    · obtain ⟨hu, hk⟩ := queryOk_upper hq
      by_cases hm : RawMatches U st p s
      · have hm' := hm
        unfold RawMatches at hm'
        rw [hk, ← rel_eqOf st hu] at hm'
        have := (accepts a _ _ _ _ (posBonus_nonneg U st.scheme s) hp).mpr hm'
        obtain ⟨x, hx⟩ := Option.isSome_iff_exists.mp this
        exact ⟨_, _, .fuzzy hp ((pureOf_finds (rel_eqOf st hu) hp hk).mp hx)⟩
      · exact ⟨_, _, .noFuzzy hp hm⟩
  | extended cs =>
    by_cases hm : ∀ c ∈ cs, ∃ p ∈ c, PatternMatches U st p s
    · obtain ⟨H, n, h⟩ := hit_allMatch (a := a) (fun c hc => (hq c hc).2) hm
      exact ⟨_, _, .extended h⟩
    · have split : ∀ cs : List Condition, (¬ ∀ c ∈ cs, ∃ p ∈ c, PatternMatches U st p s) →
          ∃ l c l', cs = l ++ c :: l' ∧ (∀ c ∈ l, ∃ p ∈ c, PatternMatches U st p s) ∧
            ∀ p ∈ c, ¬ PatternMatches U st p s := by
        intro cs
        induction cs with
        | nil => intro h; simp at h
        | cons c cs ih =>
          intro h
          by_cases hc : ∃ p ∈ c, PatternMatches U st p s
          · obtain ⟨l, c', l', rfl, h1, h2⟩ := ih (fun h' => h (by
              intro x hx
              rcases List.mem_cons.mp hx with rfl | hx
              exacts [hc, h' x hx]))
            refine ⟨c :: l, c', l', rfl, ?_, h2⟩
            intro x hx
            rcases List.mem_cons.mp hx with rfl | hx
            exacts [hc, h1 x hx]
          · exact ⟨[], c, cs, rfl, by simp, fun p hp hm => hc ⟨p, hp, hm⟩⟩
      obtain ⟨l, c, l', rfl, h1, h2⟩ := split cs hm
      obtain ⟨H, n, h⟩ := hit_allMatch (a := a) (fun c hc => (hq c (by simp [hc])).2) h1
      exact ⟨_, _, .fails h h2⟩

end Norm
