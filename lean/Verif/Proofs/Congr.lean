import Verif.Proofs.Relations

/-!
# The result depends on the comparison only through the candidate's characters -/

namespace Norm

open Spec

/-- Two comparisons that agree on the characters of `s`. -/
def Agree (eq eq' : CharEq) (s : List Char) : Prop := ∀ q, ∀ c ∈ s, eq q c = eq' q c

variable {eq eq' : CharEq} {s : List Char}

theorem findIdx?_agree {P Q : Char → Bool} {l : List Char} (h : ∀ c ∈ l, P c = Q c) : l.findIdx? P = l.findIdx? Q := by
  have := findIdx?_map_congr (f := id) h
  rwa [List.map_id] at this

theorem findFrom_agree (h : Agree eq eq' s) (q : Char) (off : Nat) :
    findFrom (fun x => eq q x) s off = findFrom (fun x => eq' q x) s off := by
  unfold findFrom
  rw [findIdx?_agree (fun c hc => h q c (List.mem_of_mem_drop hc))]

theorem findLastIdx?_agree (h : Agree eq eq' s) (q : Char) :
    findLastIdx? (fun x => eq q x) s = findLastIdx? (fun x => eq' q x) s := by
  unfold findLastIdx?
  rw [findIdx?_agree (fun c hc => h q c (List.mem_reverse.mp hc))]

theorem Agree.take (h : Agree eq eq' s) (n : Nat) : Agree eq eq' (s.take n) :=
  fun q c hc => h q c (List.mem_of_mem_take hc)

theorem Agree.drop (h : Agree eq eq' s) (n : Nat) : Agree eq eq' (s.drop n) :=
  fun q c hc => h q c (List.mem_of_mem_drop hc)

theorem greedyFrom_agree (h : Agree eq eq' s) (p : List Char) (off : Nat) :
    greedyFrom eq s p off = greedyFrom eq' s p off := by
  induction p generalizing off with
  | nil => rfl
  | cons c p ih =>
    rw [greedyFrom, greedyFrom, findFrom_agree h]
    cases findFrom (fun x => eq' c x) s off with
    | none => rfl
    | some j => dsimp only; rw [ih]

theorem greedyBack_agree (h : Agree eq eq' s) (p : List Char) (e : Nat) :
    greedyBack eq s p e = greedyBack eq' s p e := by
  induction p generalizing e with
  | nil => rfl
  | cons c p ih =>
    rw [greedyBack, greedyBack, findLastIdx?_agree (h.take e)]
    cases findLastIdx? (fun x => eq' c x) (s.take e) with
    | none => rfl
    | some j => dsimp only; rw [ih]

theorem v1Align_agree (h : Agree eq eq' s) (p : List Char) : v1Align eq s p = v1Align eq' s p := by
  unfold v1Align
  simp only [greedyFrom_agree h, greedyBack_agree h]

theorem idxsFrom_agree (h : Agree eq eq' s) (q : Char) (off : Nat) :
    idxsFrom (fun x => eq q x) s off = idxsFrom (fun x => eq' q x) s off := by
  unfold idxsFrom
  have key : ∀ (l : List Char) (n : Nat), Agree eq eq' l →
      allIdxFrom (fun x => eq q x) l n = allIdxFrom (fun x => eq' q x) l n := by
    intro l
    induction l with
    | nil => intro n _; rfl
    | cons c l ih =>
      intro n hl
      rw [allIdxFrom, allIdxFrom, ih _ (fun q c hc => hl q c (by simp [hc])), hl q c (by simp)]
  exact key _ _ (h.drop off)

theorem dpM_agree {w : List Char} (h : Agree eq eq' w) (pat : Nat → Char) (fst : Nat → Nat) (r : Nat) :
    dpM eq w pat fst r = dpM eq' w pat fst r := by
  funext c
  unfold dpM matchAt
  cases hc : w[c]? with
  | none => rfl
  | some x => dsimp only; rw [h _ x (List.mem_of_getElem? hc)]

theorem dp_agree {w : List Char} (h : Agree eq eq' w) (pat : Nat → Char) (fst : Nat → Nat) (b : Nat → Int) (r : Nat) :
    dp eq w pat fst b r = dp eq' w pat fst b r := by
  induction r with
  | zero => rw [dp, dp, dpM_agree h]
  | succ r ih => rw [dp, dp, dpM_agree h, ih]

theorem dpBest_agree {w : List Char} (h : Agree eq eq' w) (pat : Nat → Char) (fst : Nat → Nat) (b : Nat → Int) (r : Nat) :
    dpBest eq w pat fst b r = dpBest eq' w pat fst b r := by
  induction r with
  | zero => rw [dpBest, dpBest, dp_agree h, idxsFrom_agree h]
  | succ r ih => rw [dpBest, dpBest, dp_agree h, idxsFrom_agree h, ih]

theorem v2Result_agree (h : Agree eq eq' s) (B : Nat → Int) (p : List Char) : v2Result B eq p s = v2Result B eq' p s := by
  have hw : ∀ g, v2Window eq p s g = v2Window eq' p s g := by
    intro g; unfold v2Window; rw [findLastIdx?_agree h]
  have hc : ∀ g, v2Chars eq p s g = v2Chars eq' p s g := by
    intro g; unfold v2Chars; rw [hw]
  have hf : ∀ g, v2Fst eq p s g = v2Fst eq' p s g := by
    intro g; funext r; unfold v2Fst; rw [hw]
  have ha : ∀ g, Agree eq eq' (v2Chars eq' p s g) := fun g => (h.take _).drop _
  have hd : ∀ g, v2Dp B eq p s g = v2Dp B eq' p s g := by
    intro g; funext r; unfold v2Dp; rw [hw, hc, hf, dp_agree (ha g)]
  have hb : ∀ g, v2Best B eq p s g = v2Best B eq' p s g := by
    intro g; funext r; unfold v2Best; rw [hw, hc, hf, dpBest_agree (ha g)]
  have ht : ∀ g, v2Trace B eq p s g = v2Trace B eq' p s g := by
    intro g; unfold v2Trace; rw [hw, hc, hd, hb]
  unfold v2Result singleResult
  simp only [idxsFrom_agree h, greedyFrom_agree h, ht, hb]

theorem pure_agree (a : Algo) (h : Agree eq eq' s) (B : Nat → Int) (p : List Char) :
    pureOf a B eq p s = pureOf a B eq' p s := by
  cases a
  · show v1Result B eq p s = v1Result B eq' p s
    unfold v1Result; rw [v1Align_agree h]
  · exact v2Result_agree h B p

theorem pmatch_agree {p l : List Char} (h : Agree eq eq' l) : pmatch eq p l = pmatch eq' p l := by
  induction p generalizing l with
  | nil => cases l <;> rfl
  | cons q p ih =>
    cases l with
    | nil => rfl
    | cons c l => rw [pmatch, pmatch, h q c (by simp), ih (fun q c hc => h q c (by simp [hc]))]

theorem exactInner_agree {U : Unicode} {p : Pattern} {sch : Scheme} {off : Nat} {l : List Char} (h : Agree eq eq' l)
    (n : Nat) (st : ExactState) : exactInner U p eq sch off l n st = exactInner U p eq' sch off l n st := by
  induction l generalizing n st with
  | nil => rfl
  | cons c l ih =>
    have ih := fun n st => ih (fun q c hc => h q c (by simp [hc])) n st
    have hc : ∀ q, eq q c = eq' q c := fun q => h q c (by simp)
    rw [exactInner, exactInner]
    simp only [hc, ih]

theorem exactOuter_agree {U : Unicode} {p : Pattern} {sch : Scheme} (h : Agree eq eq' s)
    (n : Nat) (st : ExactState) :
    exactOuter U p (.unicode s) eq sch n st = exactOuter U p (.unicode s) eq' sch n st := by
  induction n generalizing st with
  | zero => rfl
  | succ n ih =>
    rw [exactOuter, exactOuter]
    dsimp only
    rw [Candidate.charsFrom_eq]
    have h' : Agree eq eq' (Candidate.unicode s).toChars := h
    cases hs : sliceFromR (Candidate.unicode s).toChars st.startOffset with
    | panic => rfl
    | ok cs =>
      have hcs : cs = (Candidate.unicode s).toChars.drop st.startOffset := by
        unfold sliceFromR at hs
        split at hs
        · cases hs; rfl
        · cases hs
      have ha : Agree eq eq' cs := hcs ▸ h'.drop _
      simp only [Res.bind_ok, exactInner_agree ha, ih]

theorem exactPos_agree {U : Unicode} {p : Pattern} {sch : Scheme} (h : Agree eq eq' s) :
    exactPos U sch eq p s = exactPos U sch eq' p s := by
  unfold exactPos
  rw [exactOuter_agree h]

theorem prefixPos_agree {p : Pattern} (h : Agree eq eq' s) : prefixPos eq s p = prefixPos eq' s p := by
  unfold prefixPos; dsimp only; rw [pmatch_agree (h.drop _)]

theorem suffixPos_agree {p : Pattern} (h : Agree eq eq' s) : suffixPos eq s p = suffixPos eq' s p := by
  unfold suffixPos; dsimp only; rw [pmatch_agree ((h.take _).drop _)]

theorem equalPos_agree {p : Pattern} (h : Agree eq eq' s) : equalPos eq s p = equalPos eq' s p := by
  unfold equalPos; dsimp only; rw [pmatch_agree (h.drop _)]

/-- The result of a call depends on the settings through the scheme and the comparisons of the query's characters with
the candidate's. -/
theorem result_agree {U : Unicode} {a : Algo} {st st' : Settings} {q : FzfQuery} (hS : st.scheme = st'.scheme)
    (h : ∀ p ∈ patterns q, Agree (st.eqOf p) (st'.eqOf p) s) : result U a st s q = result U a st' s q := by
  unfold result queryHit
  split
  · rfl
  · cases q with
    | notExtended p =>
      dsimp only
      rw [pure_agree a (h p (by simp [patterns])), hS]
    | extended cs =>
      dsimp only
      refine condsHit_congr fun c hc p hp => ?_
      have ha := h p (by simp only [patterns, List.mem_flatten]; exact ⟨c, hc, hp⟩)
      unfold patHit rawHit
      dsimp only
      rw [hS, pure_agree a ha, exactPos_agree ha, prefixPos_agree ha, suffixPos_agree ha, equalPos_agree ha]

end Norm
