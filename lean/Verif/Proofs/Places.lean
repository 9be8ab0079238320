import Verif.SpecPlaces
import Verif.Proofs.Schemes
import Verif.Proofs.V2Upper
import Verif.Proofs.Folding

/-!
# Helper lemmas: a match depends on where the query's characters match and on the bonuses there -/

namespace Norm
open Spec

variable {R : Char → Char → Prop} {p s s' : List Char} {ps : List Nat} {B B' : Nat → Int} {eq : CharEq} {a : Algo}

theorem Spec.SamePlaces.symm (h : SamePlaces R p s s') : SamePlaces R p s' s := fun q hq i => (h q hq i).symm

theorem spells_places (h : SamePlaces R p s s') (ha : List.Forall₂ (fun q i => ∃ c, s[i]? = some c ∧ R q c) p ps) :
    List.Forall₂ (fun q i => ∃ c, s'[i]? = some c ∧ R q c) p ps := by
  induction ha with
  | nil => exact .nil
  | cons h1 _ ih =>
    exact .cons ((h _ (by simp) _).mp h1) (ih fun q hq i => h q (by simp [hq]) i)

theorem alignment_places (h : SamePlaces R p s s') (ha : Alignment R p s ps) : Alignment R p s' ps :=
  ⟨ha.increasing, spells_places h ha.spells⟩

theorem v1Chooses_places (h : SamePlaces R p s s') (hc : V1Chooses R p s ps) : V1Chooses R p s' ps :=
  ⟨alignment_places h hc.alignment, fun l hl ps' ha => hc.ends l hl ps' (alignment_places h.symm ha),
    fun f l hf hl ps' ha => hc.starts f l hf hl ps' (alignment_places h.symm ha),
    fun f hf ps' ha => hc.leftmost f hf ps' (alignment_places h.symm ha)⟩

theorem gridOf_places {G : Grid} (h : SamePlaces R p s s') (hG : GridOf R B p s G) : GridOf R B p s' G := by
  have hmem : ∀ {r q}, p[r]? = some q → q ∈ p := fun h => List.mem_of_getElem? h
  refine ⟨fun r c => ?_, ⟨alignment_places h hG.first.1, fun ps ha => hG.first.2 ps (alignment_places h.symm ha)⟩, ?_, hG.bonus⟩
  · rw [hG.hit]
    constructor
    · rintro ⟨h1, h2, q, x, hq, hx⟩
      obtain ⟨y, hy⟩ := (h q (hmem hq) c).mp ⟨x, hx⟩
      exact ⟨h1, h2, q, y, hq, hy⟩
    · rintro ⟨h1, h2, q, x, hq, hx⟩
      obtain ⟨y, hy⟩ := (h q (hmem hq) c).mpr ⟨x, hx⟩
      exact ⟨h1, h2, q, y, hq, hy⟩
  · obtain ⟨q, x, hq, hx, hR, hmax⟩ := hG.last
    have hm : q ∈ p := List.mem_of_getLast? hq
    obtain ⟨y, hy, hR'⟩ := (h q hm _).mp ⟨x, hx, hR⟩
    refine ⟨q, y, hq, hy, hR', fun c z hc hz hRz => ?_⟩
    obtain ⟨w, hw, hRw⟩ := (h q hm c).mpr ⟨z, hz, hRz⟩
    exact hmax c w hc hw hRw

theorem v2Chooses_places {n : Int} (h : SamePlaces R p s s') (hc : V2Chooses R B p s ps n) : V2Chooses R B p s' ps n := by
  rcases hc with ⟨c, i, rfl, ⟨h1, h2⟩, rfl, rfl⟩ | ⟨h2, G, r, c, hG, hb, rfl, rfl⟩
  · refine .inl ⟨c, i, rfl, ⟨(h c (by simp) i).mp h1, fun j y hy hR => ?_⟩, rfl, rfl⟩
    obtain ⟨x, hx, hR'⟩ := (h c (by simp) j).mpr ⟨y, hy, hR⟩
    exact h2 j x hx hR'
  · exact .inr ⟨h2, G, r, c, gridOf_places h hG, hb, rfl, rfl⟩

/-- Both algorithms only look at where the query's characters match. -/
theorem pureOf_places (hB : ∀ i, 0 ≤ B i) (hp : p ≠ []) (h : SamePlaces (rel eq) p s s') :
    pureOf a B eq p s = pureOf a B eq p s' := by
  apply Option.ext
  rintro ⟨ps, n⟩
  cases a with
  | v1 =>
    simp only [pureOf, v1Result, Option.map_eq_some_iff, v1Align_chooses hp]
    exact ⟨fun ⟨g, h1, h2⟩ => ⟨g, v1Chooses_places h h1, h2⟩, fun ⟨g, h1, h2⟩ => ⟨g, v1Chooses_places h.symm h1, h2⟩⟩
  | v2 =>
    simp only [pureOf]
    rw [v2Result_chooses hB hp, v2Result_chooses hB hp]
    exact ⟨v2Chooses_places h, v2Chooses_places h.symm⟩

/-! ### Bonuses elsewhere -/

section bonuses

variable {G : Grid} {rows : Nat}

/-- A run starts at a match. -/
theorem run_start (G : Grid) : ∀ r c, (G.table r c).2 ≠ 0 → ∃ r', r' ≤ r ∧ G.hit r' (c + 1 - (G.table r c).2) = true
  | 0, c => by
    rw [table_zero_run]
    intro h
    split at h
    · rename_i hh
      rw [if_pos hh]
      exact ⟨0, Nat.le_refl _, by simpa using hh⟩
    · exact absurd rfl h
  | r + 1, 0 => by simp [Grid.table]
  | r + 1, c + 1 => by
    have ih := run_start G r c
    by_cases hf : c + 1 < G.first (r + 1)
    · simp [Grid.table, hf]
    by_cases hh : G.hit (r + 1) (c + 1) = true
    · have e : G.table (r + 1) (c + 1) = G.cell (c + 1) ((G.table (r + 1) c).1 - G.cost (r + 1) (c + 1)) (G.table r c) := by
        simp only [Grid.table]; rw [if_neg hf, if_pos hh]
      rw [e]
      unfold Grid.cell
      split
      · simp
      · simp only
        intro _
        unfold Grid.runBonus
        split
        · exact ⟨r + 1, Nat.le_refl _, by simpa using hh⟩
        · split
          · exact ⟨r + 1, Nat.le_refl _, by simpa using hh⟩
          · rename_i h0 _
            obtain ⟨r', h1, h2⟩ := ih h0
            exact ⟨r', by omega, by
              have : c + 1 + 1 - ((G.table r c).2 + 1) = c + 1 - (G.table r c).2 := by omega
              simp only
              rw [this]
              exact h2⟩
    · simp [Grid.table, hf, hh]

theorem runBonus_same {c run : Nat} (h1 : B' c = G.bonus c) (h2 : run ≠ 0 → B' (c - run) = G.bonus (c - run)) :
    ({ G with bonus := B' } : Grid).runBonus c run = G.runBonus c run := by
  unfold Grid.runBonus
  by_cases h : run = 0
  · simp only [h, if_true, h1]
  · simp only [h, if_false, h1, h2 h]

/-- The table depends on the bonuses of matches only. -/
theorem table_same (hb : ∀ r c, r < rows → G.hit r c = true → B' c = G.bonus c) (hs : G.hit 0 (G.first 0) = true)
    (hlt : ∀ r, r + 1 < rows → G.first r < G.first (r + 1)) :
    ∀ r c, r < rows → (r = 0 → G.first 0 ≤ c) → ({ G with bonus := B' } : Grid).table r c = G.table r c
  | 0, 0, hr, hc => by
    have h0 : G.first 0 = 0 := by have := hc rfl; omega
    rw [h0] at hs
    simp only [Grid.table, hb 0 0 hr hs]
  | 0, c + 1, hr, hc => by
    have hcost : ({ G with bonus := B' } : Grid).cost 0 (c + 1) = G.cost 0 (c + 1) := rfl
    simp only [Grid.table]
    rw [hcost]
    split
    · rename_i hh
      rw [hb 0 (c + 1) hr hh]
    · rename_i hh
      rw [table_same hb hs hlt 0 c hr (fun _ => by
        have := hc rfl
        by_contra hcon
        have : G.first 0 = c + 1 := by omega
        rw [this] at hs
        exact hh hs)]
  | r + 1, 0, _, _ => rfl
  | r + 1, c + 1, hr, _ => by
    have hcost : ({ G with bonus := B' } : Grid).cost (r + 1) (c + 1) = G.cost (r + 1) (c + 1) := rfl
    have hleft := table_same hb hs hlt (r + 1) c hr (by omega)
    simp only [Grid.table]
    rw [hcost, hleft]
    split
    · rfl
    · rename_i hf
      split
      · rename_i hh
        have hmono : ∀ k, k ≤ r → G.first 0 ≤ G.first k := by
          intro k
          induction k with
          | zero => intro _; exact Nat.le_refl _
          | succ k ih => intro hk; have := hlt k (by omega); have := ih (by omega); omega
        have h1 := hlt r hr
        have h2 := hmono r (Nat.le_refl _)
        rw [table_same hb hs hlt r c (by omega) (fun _ => by omega)]
        unfold Grid.cell
        rw [runBonus_same (hb _ _ hr hh) (fun hne => by
          obtain ⟨r', hr', hh'⟩ := run_start G r c hne
          exact hb r' _ (by omega) hh')]
        simp only [hb _ _ hr hh]
      · rfl

/-- So do the columns that are highlighted. -/
theorem trace_same (ht : ∀ r c, r < rows → (r = 0 → G.first 0 ≤ c) → ({ G with bonus := B' } : Grid).table r c = G.table r c) :
    ∀ c prefer r, r < rows → G.first 0 ≤ c → ({ G with bonus := B' } : Grid).trace rows prefer r c = G.trace rows prefer r c := by
  intro c
  induction c with
  | zero =>
    intro prefer r hr hc
    simp only [Grid.trace, ht r 0 hr (fun _ => hc)]
  | succ c ih =>
    intro prefer r hr hc
    have e1 := ht r (c + 1) hr (fun _ => hc)
    simp only [Grid.trace, e1]
    split
    · rfl
    · rename_i hne
      have hc' : G.first 0 ≤ c := by omega
      have e2 := ht r c hr (fun _ => hc')
      have e3 : r ≠ 0 → ({ G with bonus := B' } : Grid).table (r - 1) c = G.table (r - 1) c :=
        fun _ => ht (r - 1) c (by omega) (fun _ => hc')
      have hpre : ({ G with bonus := B' } : Grid).prefers rows r (c + 1) = G.prefers rows r (c + 1) := by
        unfold Grid.prefers
        rw [e1]
        by_cases hr1 : r + 1 < rows
        · rw [ht (r + 1) (c + 1 + 1) hr1 (by omega)]
        · simp [hr1]
      have htk : ({ G with bonus := B' } : Grid).takes prefer r c ↔ G.takes prefer r c := by
        unfold Grid.takes
        rw [e1, e2]
        by_cases h0 : r = 0
        · simp [h0]
        · rw [e3 h0]
      rw [hpre, ih _ r hr hc', ih _ (r - 1) (by omega) hc']
      by_cases hk : G.takes prefer r c
      · rw [if_pos hk, if_pos (htk.mpr hk)]
      · rw [if_neg hk, if_neg (fun h => hk (htk.mp h))]

end bonuses

/-- FzfV2 only uses the bonuses of characters that match. -/
theorem v2Chooses_bonuses {n : Int} (h0 : ∀ i, 0 ≤ B i) (h : ∀ i, Place R p s i → B' i = B i) (hc : V2Chooses R B p s ps n) :
    V2Chooses R B' p s ps n := by
  rcases hc with ⟨c, i, rfl, ⟨⟨x, hx, hR⟩, h2⟩, rfl, rfl⟩ | ⟨h2, G, r, c, hG, hb, rfl, rfl⟩
  · have hi := h i ⟨c, by simp, x, hx, hR⟩
    refine .inl ⟨c, i, rfl, ⟨⟨x, hx, hR⟩, fun j y hy hR' => ?_⟩, rfl, by rw [hi]⟩
    rw [h j ⟨c, by simp, y, hy, hR'⟩, hi]
    exact h2 j y hy hR'
  · have hok := GridOf.ok hG h0
    obtain rfl : G.bonus = B := hG.bonus
    have hbon : ∀ r c, r < p.length → G.hit r c = true → B' c = G.bonus c := by
      intro r c _ hh
      obtain ⟨_, _, q, x, hq, hx, hR⟩ := (hG.hit r c).mp hh
      exact h c ⟨q, List.mem_of_getElem? hq, x, hx, hR⟩
    have ht := table_same hbon (hok.start 0 (by omega)) hok.lt
    have hge : ∀ r c, r < p.length → G.hit r c = true → r = 0 → G.first 0 ≤ c := by
      rintro r c _ hh rfl
      exact (hok.hit 0 c hh).1
    have hfirst : G.first 0 ≤ c := by
      have h1 := (hok.hit r c hb.2.1).1
      have hmono : ∀ k, k ≤ r → G.first 0 ≤ G.first k := by
        intro k
        induction k with
        | zero => intro _; exact Nat.le_refl _
        | succ k ih => intro hk; have := hok.lt k (by have := hb.1; omega); have := ih (by omega); omega
      have := hmono r (Nat.le_refl _)
      omega
    refine .inr ⟨h2, { G with bonus := B' }, r, c, ⟨hG.hit, hG.first, hG.last, rfl⟩, ⟨hb.1, hb.2.1, fun r' c' hr' hh' => ?_⟩, ?_, ?_⟩
    · rw [ht r' c' hr' (hge r' c' hr' hh'), ht r c hb.1 (hge r c hb.1 hb.2.1)]
      exact hb.2.2 r' c' hr' hh'
    · exact (trace_same ht c true r hb.1 hfirst).symm
    · rw [ht r c hb.1 (hge r c hb.1 hb.2.1)]

theorem align_place (h : Alignment R p s ps) {i : Nat} (hi : i ∈ ps) : Place R p s i := by
  have hs := h.spells
  clear h
  induction hs with
  | nil => simp at hi
  | cons h1 _ ih =>
    rcases List.mem_cons.mp hi with rfl | hi
    · exact ⟨_, by simp, h1⟩
    · obtain ⟨q, hq, hx⟩ := ih hi
      exact ⟨q, by simp [hq], hx⟩

/-- Both algorithms only use the bonuses of characters that match. -/
theorem pureOf_bonuses (h0 : ∀ i, 0 ≤ B i) (h0' : ∀ i, 0 ≤ B' i) (hp : p ≠ []) (h : ∀ i, Place (rel eq) p s i → B' i = B i) :
    pureOf a B eq p s = pureOf a B' eq p s := by
  apply Option.ext
  rintro ⟨ps, n⟩
  cases a with
  | v1 =>
    simp only [pureOf, v1Result, Option.map_eq_some_iff]
    constructor
    · rintro ⟨g, h1, h2⟩
      refine ⟨g, h1, ?_⟩
      rw [alignScore_congr (fun i hi => h i (align_place ((v1Align_chooses hp).mp h1).alignment hi))]
      exact h2
    · rintro ⟨g, h1, h2⟩
      refine ⟨g, h1, ?_⟩
      rw [← alignScore_congr (fun i hi => h i (align_place ((v1Align_chooses hp).mp h1).alignment hi))]
      exact h2
  | v2 =>
    simp only [pureOf]
    rw [v2Result_chooses h0 hp, v2Result_chooses h0' hp]
    exact ⟨v2Chooses_bonuses h0 h, v2Chooses_bonuses h0' fun i hi => (h i hi).symm⟩

/-- With larger bonuses of the characters that match FzfV1 finds the same, and scores it higher; FzfV2 scores at most so much less. -/
theorem pureOf_above {K : Int} (h0 : ∀ i, 0 ≤ B i) (h0' : ∀ i, 0 ≤ B' i) (hp : p ≠ []) (h : ∀ i, Place (rel eq) p s i → B i ≤ B' i)
    (hK : ∀ i, B i ≤ K) (h4 : 4 ≤ K) {x y : List Nat × Int} (hx : pureOf a B eq p s = some x) (hy : pureOf a B' eq p s = some y) :
    (a = .v1 → x.1 = y.1) ∧ (a = .v1 ∨ p.length ≤ 2 → x.2 ≤ y.2) ∧ x.2 ≤ y.2 + (K - 1) * ((p.length - 2 : Nat) : Int) := by
  classical
  have hm : 0 ≤ (K - 1) * ((p.length - 2 : Nat) : Int) := Int.mul_nonneg (by omega) (by omega)
  -- the larger bonuses where something matches, and the same elsewhere
  have hB : ∀ i, B i ≤ (fun i => if Place (rel eq) p s i then B' i else B i) i := by
    intro i
    simp only
    split
    · exact h i (by assumption)
    · exact Int.le_refl _
  have hB0 : ∀ i, 0 ≤ (fun i => if Place (rel eq) p s i then B' i else B i) i := fun i => Int.le_trans (h0 i) (hB i)
  rw [pureOf_bonuses (B' := fun i => if Place (rel eq) p s i then B' i else B i) h0' hB0 hp (fun i hi => if_pos hi)] at hy
  generalize (fun i => if Place (rel eq) p s i then B' i else B i) = B'' at *
  cases a with
  | v1 =>
    simp only [pureOf, v1Result, Option.map_eq_some_iff] at hx hy
    obtain ⟨g, h1, rfl⟩ := hx
    obtain ⟨g', h2, rfl⟩ := hy
    rw [h1] at h2
    cases h2
    have := alignScore_mono hB g
    exact ⟨fun _ => rfl, fun _ => this, by simp only; omega⟩
  | v2 =>
    simp only [pureOf] at hx hy
    have hlen := List.length_pos_iff.mpr hp
    have hB' : ∀ i, B i ≤ B'' i + 0 := fun i => by have := hB i; omega
    have key : x.2 ≤ y.2 + (K - 1) * ((p.length - 2 : Nat) : Int) := by
      by_cases h1 : p.length = 1
      · have := v2Result_char hB' h1 hx hy
        omega
      · have := v2Result_above (e := 0) h0 hB0 hB' (by omega) hK h4 (by omega) (by omega) hx hy
        have e : ((p.length - 2 : Nat) : Int) = (p.length : Int) - 2 := by omega
        rw [e]
        omega
    refine ⟨(by intro h; cases h), ?_, key⟩
    rintro (h | h)
    · cases h
    · have e : p.length - 2 = 0 := by omega
      rw [e] at key
      simpa using key

/-! ### Slashes and spaces -/

/-- A slash and a space match only themselves. -/
theorem charMatches_plain {sens norm : Bool} {q x : Char} (hx : x = '/' ∨ x = ' ') : CharMatches sens norm q x ↔ q = x := by
  have hu : isAsciiUpper x = false := by rcases hx with rfl | rfl <;> decide
  have hl : isAsciiLower x = false := by rcases hx with rfl | rfl <;> decide
  have ha : isAscii x = true := by rcases hx with rfl | rfl <;> decide
  have hf : fold sens x = x := by rcases hx with rfl | rfl <;> cases sens <;> decide
  constructor
  · rintro (h | ⟨-, t, ht, -⟩)
    · rw [hf] at h
      cases sens with
      | true => exact h
      | false => exact (lower_eq_iff hu hl).mp h
    · have := ht.range
      rw [isNormalized_ascii ha] at this
      simp at this
  · rintro rfl
    exact .inl rfl

section

variable {U : Unicode} {st : Settings} {S : FzfScheme} {text : List Char}

theorem Spec.Opened.get (h : Opened s s') (i : Nat) :
    s[i]? = s'[i]? ∨ (s[i]? = some '/' ∧ s'[i]? = some ' ') := by
  have h2 := List.forall₂_iff_get.mp h
  by_cases hi : i < s.length
  · have hi' : i < s'.length := h2.1 ▸ hi
    rw [List.getElem?_eq_getElem hi, List.getElem?_eq_getElem hi']
    rcases h2.2 i hi hi' with h3 | ⟨h3, h4⟩
    · exact .inl (congrArg some h3)
    · exact .inr ⟨congrArg some h3, congrArg some h4⟩
  · rw [List.getElem?_eq_none (by omega), List.getElem?_eq_none (by have := h2.1; omega)]
    exact .inl rfl

/-- Where a query without slashes and spaces matches, both candidates have the same character. -/
theorem Spec.Opened.same (h : Opened s s') (h1 : '/' ∉ p) (h2 : ' ' ∉ p) {q : Char} (hq : q ∈ p) {i : Nat}
    {x : Char} (hx : s[i]? = some x ∨ s'[i]? = some x) (hR : Cmp U st text q x) : s[i]? = some x ∧ s'[i]? = some x := by
  rcases h.get i with he | ⟨h3, h4⟩
  · rw [he] at hx ⊢
    have hx := hx.elim id id
    exact ⟨hx, hx⟩
  · rcases hx with hx | hx
    · rw [h3] at hx
      cases hx
      exact absurd ((charMatches_plain (.inl rfl)).mp hR ▸ hq) h1
    · rw [h4] at hx
      cases hx
      exact absurd ((charMatches_plain (.inr rfl)).mp hR ▸ hq) h2

theorem Spec.Opened.places (h : Opened s s') (h1 : '/' ∉ p) (h2 : ' ' ∉ p) : SamePlaces (Cmp U st text) p s s' :=
  fun _ hq _ => ⟨fun ⟨x, hx, hR⟩ => ⟨x, (h.same h1 h2 hq (.inl hx) hR).2, hR⟩,
    fun ⟨x, hx, hR⟩ => ⟨x, (h.same h1 h2 hq (.inr hx) hR).1, hR⟩⟩

theorem classBefore_zero : classBefore U S s 0 = initialClass S := rfl

theorem classBefore_succ {i : Nat} {c : Char} (h : s[i]? = some c) : classBefore U S s (i + 1) = classOf U S c := by
  unfold classBefore
  rw [List.take_add_one, h]
  simp

theorem classBefore_opened (h : Opened s s') {i : Nat} {x : Char} (hx : s[i]? = some x) :
    classBefore U S s i = classBefore U S s' i ∨
      (classBefore U S s i = .delimiter ∧ classBefore U S s' i = .whiteSpace) := by
  cases i with
  | zero => exact .inl rfl
  | succ i =>
    have hi : i < s.length := by have := (List.getElem?_eq_some_iff.mp hx).1; omega
    have hc := List.getElem?_eq_getElem hi
    rcases h.get i with he | ⟨h1, h2⟩
    · rw [classBefore_succ hc, classBefore_succ (he ▸ hc)]
      exact .inl rfl
    · rw [classBefore_succ h1, classBefore_succ h2]
      refine .inr ⟨?_, ?_⟩
      · cases S <;> simp [classOf, delimiters]
        split <;> simp
      · simp [classOf]

/-- What a slash before a character does to its bonus, compared to a space. -/
theorem bonus_opened (c : CharClass) :
    bonus .default .delimiter c ≤ bonus .default .whiteSpace c ∧ bonus .path .whiteSpace c ≤ bonus .path .delimiter c ∧
      bonus .history .delimiter c = bonus .history .whiteSpace c := by
  cases c <;> decide

theorem posBonus_opened (h : Opened s s') {i : Nat} {x : Char} (hx : s[i]? = some x) (hx' : s'[i]? = some x) :
    (S = .default → posBonus U S s i ≤ posBonus U S s' i) ∧ (S = .path → posBonus U S s' i ≤ posBonus U S s i) ∧
      (S = .history → posBonus U S s i = posBonus U S s' i) := by
  unfold posBonus
  rw [hx, hx']
  rcases classBefore_opened (U := U) (S := S) h hx with he | ⟨h1, h2⟩
  · rw [he]
    exact ⟨fun _ => Int.le_refl _, fun _ => Int.le_refl _, fun _ => rfl⟩
  · rw [h1, h2]
    have := bonus_opened (classOf U S x)
    refine ⟨?_, ?_, ?_⟩ <;> rintro rfl
    · exact this.1
    · exact this.2.1
    · exact this.2.2

theorem Spec.Opened.byteLen (h : Opened s s') (i : Nat) : Spec.byteLen (s.take i) = Spec.byteLen (s'.take i) := by
  unfold Opened at h
  induction h generalizing i with
  | nil => simp
  | cons h1 _ ih =>
    cases i with
    | zero => simp
    | succ i =>
      have := ih i
      unfold Spec.byteLen at this ⊢
      simp only [List.take_succ_cons, List.map_cons, List.sum_cons, this]
      rcases h1 with rfl | ⟨rfl, rfl⟩
      · rfl
      · rfl

end

/-- A way to check `SamePlaces`. -/
theorem samePlaces_of (h : ∀ q ∈ p, ∀ i < max s.length s'.length, s[i]?.any (eq q) = s'[i]?.any (eq q)) : SamePlaces (rel eq) p s s' := by
  intro q hq i
  have key : ∀ o : Option Char, (∃ x, o = some x ∧ rel eq q x) ↔ o.any (eq q) = true := by
    intro o
    cases o <;> simp [rel]
  rw [key, key]
  by_cases hi : i < max s.length s'.length
  · rw [h q hq i hi]
  · rw [List.getElem?_eq_none (by omega), List.getElem?_eq_none (by omega)]

/-- A way to check a property of all matching positions. -/
theorem places_of {P : Nat → Prop} (h : ∀ i < s.length, (p.any fun q => s[i]?.any (eq q)) = true → P i) (i : Nat) (hi : Place (rel eq) p s i) : P i := by
  obtain ⟨q, hq, x, hx, hR⟩ := hi
  refine h i (List.getElem?_eq_some_iff.mp hx).1 (List.any_eq_true.mpr ⟨q, hq, ?_⟩)
  rw [hx]
  exact hR

end Norm
