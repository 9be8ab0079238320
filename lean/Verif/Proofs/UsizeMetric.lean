import Verif.Proofs.UsizeV2
import Verif.Proofs.UsizeParser
import Verif.Props.State

/-! Parsers and metrics of a build compared with those of the main model, over whole histories. -/

namespace Norm.Usize

open Norm.Spec

variable {B : Build} {U : Unicode}

theorem half (hB : BuildOk B) : 2 * 2 ^ (B.bits - 1) = 2 ^ B.bits := by
  have h1 := hB.lo .char
  have h2 := hB.hi .char
  have h3 : B.bits ≠ 0 := by
    intro h
    rw [h] at h2
    simp at h2
    omega
  obtain ⟨n, hn⟩ := Nat.exists_eq_succ_of_ne_zero h3
  rw [hn, Nat.succ_eq_add_one, Nat.add_sub_cancel, Nat.pow_succ, Nat.mul_comm]

/-! ### Parsers -/

theorem new_invP (hB : BuildOk B) : InvP B FzfParser.new := by
  have h1 := hB.lo .char
  have h2 := hB.lo .pattern
  have h3 := hB.lo .condition
  refine ⟨?_, ?_, ?_⟩ <;> simp only [FzfParser.new, List.length_replicate] <;> omega

theorem Agree.cases {α : Type} {P : Prop} {Q : α → Prop} {x y : Res α} (h : Agree P Q x y) {r : α} (hy : y = .ok r) :
    (x = y ∧ Q r) ∨ (P ∧ x = .panic) := by
  rcases h r hy with ⟨h1, h2⟩ | h
  · exact Or.inl ⟨by rw [h1, hy], h2⟩
  · exact Or.inr h

theorem parse_step (hB : BuildOk B) {p : FzfParser} (hp : InvP B p) {t : List Char} {r : FzfParser × FzfQuery}
    (h : parse B U p t = .ok r) : p.parse U t = .ok r ∧ InvP B r.1 := by
  obtain ⟨p', q, h1⟩ := Props.C25_parse_total U p t
  rcases (parse_agree (P := True) (U := U) hB (half hB) hp (t := t) (Or.inl trivial)).cases h1 with ⟨h2, h3⟩ | ⟨_, h2⟩
  · rw [h2] at h
    rw [h] at h1
    obtain rfl := Res.ok.inj h1
    exact ⟨h, h3⟩
  · rw [h2] at h; cases h

theorem ensure_len {α : Type} {e : Elem} {l l' : List α} {n : Nat} {fill : α} (h : B.ensure e l n fill = .ok l')
    (hl : l.length ≤ B.limit e) : l.length ≤ l'.length ∧ l'.length ≤ B.limit e := by
  unfold Build.ensure at h
  split at h
  · rename_i hn
    rw [Res.bind_eq_ok] at h
    obtain ⟨_, h1, h2⟩ := h
    cases h2
    unfold Build.grow at h1
    split at h1
    · rw [resize_length (by omega)]; exact ⟨by omega, by omega⟩
    · cases h1
  · cases h
    exact ⟨Nat.le_refl _, hl⟩

theorem writeCharsLeaves_length (t : List Char) : ∀ (cs : List Char) (n : Nat), (writeCharsLeaves cs t n).length = cs.length := by
  induction t with
  | nil => intro cs n; rfl
  | cons c t ih =>
    intro cs n
    unfold writeCharsLeaves
    cases h : setR cs n c with
    | panic => rfl
    | ok l =>
      dsimp only
      rw [ih]
      unfold setR at h
      split at h
      · cases h; exact List.length_set ..
      · cases h

theorem parserIn (hB : BuildOk B) {p : FzfParser} (h : ReachableParserIn B U p) : ReachableParser U p ∧ InvP B p := by
  induction h with
  | new => exact ⟨.new, new_invP hB⟩
  | parse _ _ h ih =>
    obtain ⟨h1, h2⟩ := parse_step hB ih.2 h
    exact ⟨.parse ih.1 h1, h2⟩
  | parseNotExtended _ _ h ih =>
    rw [parseNotExtended_eq hB (half hB) ih.2] at h
    exact ⟨.parseNotExtended ih.1 h, parseNotExtended_inv ih.2 h⟩
  | parseUnwound _ _ _ hu hf ih => exact ⟨.unwound ih.1 hu, hf.chars, hf.patterns, hf.conditions⟩
  | parseNotExtendedUnwound _ _ _ hu hf ih => exact ⟨.unwound ih.1 hu, hf.chars, hf.patterns, hf.conditions⟩

theorem parsedIn (hB : BuildOk B) {t : List Char} {q : FzfQuery} (h : ParsedIn B U t q) : Parsed U t q := by
  obtain ⟨p, p', h1, _, h3⟩ := h
  obtain ⟨h4, h5⟩ := parserIn hB h1
  exact ⟨p, p', h4, (parse_step hB h5 h3).1⟩

theorem parsedRawIn (hB : BuildOk B) {t : List Char} {q : FzfQuery} (h : ParsedRawIn B U t q) : ParsedRaw U t q := by
  obtain ⟨p, p', h1, _, h3⟩ := h
  obtain ⟨h4, h5⟩ := parserIn hB h1
  rw [parseNotExtended_eq hB (half hB) h5] at h3
  exact ⟨p, p', h4, h3⟩

theorem queryIn (hB : BuildOk B) {q : FzfQuery} (h : QueryIn B U q) :
    QueryOk U q ∧ ∀ p ∈ Spec.patterns q, p.text.length < 2 ^ (B.bits - 1) := by
  obtain ⟨t, h | h⟩ := h
  · have hp := parsedIn hB h
    refine ⟨hp.ok, fun p hpq => ?_⟩
    obtain ⟨_, _, _, hm, _⟩ := h
    have h1 := (Checked.query_sizes U t).2
    rw [← hp.eq] at h1
    have := h1 p hpq
    have := length_le_strLen t
    have : strLen t < _ := hm
    omega
  · have hp := parsedRawIn hB h
    refine ⟨hp.ok, fun p hpq => ?_⟩
    obtain ⟨_, _, _, hm, _⟩ := h
    have : p.text = t := by
      rw [hp.eq] at hpq
      rw [List.mem_singleton.mp (show p ∈ [mkPattern U false .fuzzy t] from hpq)]
      rfl
    have := length_le_strLen t
    have : strLen t < _ := hm
    simp only [*]
    omega

/-! ### Metrics -/

/-- What holds of every metric in a build. -/
def InvM (B : Build) : Metric → Prop
  | .v1 m => InvV1 B m
  | .v2 m => InvV2 B m

/-! ### What there has to be room for -/

theorem width_window {eq : CharEq} {p s : List Char} {g : List Nat} (hp : p ≠ []) (hg : greedyFrom eq s p 0 = some g) (w : Nat) :
    Width (rel eq) p s w ↔ w = (v2Window eq p s g).2 - (v2Window eq p s g).1 := by
  obtain ⟨_, j, hj, hj'⟩ := windowOk hp hg
  obtain ⟨hl1, hl2⟩ : HitAt (rel eq) (p.getLastD 'a') s j ∧ ∀ k, j < k → ¬ HitAt (rel eq) (p.getLastD 'a') s k := by
    obtain ⟨_, h1, h2⟩ := findLastIdx?_some hj
    obtain ⟨c, hc, he⟩ := h1
    refine ⟨⟨c, hc, he⟩, ?_⟩
    rintro k hk ⟨c', hc', he'⟩
    have := h2 k c' hk hc'
    unfold rel at he'
    rw [he'] at this
    cases this
  have hlast : p.getLast? = some (p.getLastD 'a') := by
    rw [List.getLast?_eq_getLast_of_ne_nil hp, getLastD_of_ne _ hp]
  cases p with
  | nil => exact absurd rfl hp
  | cons x p =>
    unfold greedyFrom at hg
    cases hf : findFrom (fun y => eq x y) s 0 with
    | none => rw [hf] at hg; cases hg
    | some i =>
      rw [hf] at hg
      simp only [Option.map_eq_some_iff] at hg
      obtain ⟨g', _, rfl⟩ := hg
      obtain ⟨_, ⟨c, hc, he⟩, h2⟩ := findFrom_some hf
      have hi1 : HitAt (rel eq) x s i := ⟨c, hc, he⟩
      have hi2 : ∀ k, k < i → ¬ HitAt (rel eq) x s k := by
        rintro k hk ⟨c', hc', he'⟩
        have := h2 k c' (Nat.zero_le _) hk hc'
        unfold rel at he'
        rw [he'] at this
        cases this
      have e1 : (v2Window eq (x :: p) s (i :: g')).1 = i := rfl
      rw [hj', e1]
      constructor
      · rintro ⟨x', y', i', j', h1, h2, h3, h4, h5, h6, rfl⟩
        obtain rfl : x = x' := by simpa using h1
        rw [hlast] at h2
        obtain rfl := Option.some.inj h2
        have : i' = i := by
          rcases Nat.lt_trichotomy i' i with h | h | h
          · exact absurd h3 (hi2 _ h)
          · exact h
          · exact absurd hi1 (h4 _ h)
        have : j' = j := by
          rcases Nat.lt_trichotomy j' j with h | h | h
          · exact absurd hl1 (h6 _ h)
          · exact h
          · exact absurd h5 (hl2 _ h)
        omega
      · rintro rfl
        exact ⟨x, _, i, j, rfl, hlast, hi1, hi2, hl1, hl2, rfl⟩

theorem fitsV2_iff {st : Settings} {p : Pattern} (hp : p.text ≠ []) (hu : p.hasUppercase = p.text.any U.isUppercase)
    (hk : p.matchType = .fuzzy) (s : List Char) : fitsV2 B (st.eqOf p) p s ↔ MatrixFits B U st p s := by
  have hr := rel_eqOf (U := U) st hu
  have hpl : p.charLen = p.text.length := rfl
  unfold fitsV2 MatrixFits RawMatches
  rw [hk, ← hr, hpl]
  simp only [TextMatches]
  refine imp_congr_right fun _ => and_congr_right fun _ => ?_
  constructor
  · intro h hs w hw
    obtain ⟨g, hg⟩ := Option.isSome_iff_exists.mp (greedyFrom_isSome.mpr hs)
    rw [(width_window hp hg w).mp hw]
    exact h g hg
  · intro h g hg
    exact h (greedyFrom_isSome.mp (by rw [hg]; rfl)) _ ((width_window hp hg _).mpr rfl)

theorem tried_iff {pf : PureFuzzy} (hpf : Accepts pf) {st : Settings} {s : List Char} {q : FzfQuery} (hok : QueryOk U q)
    (p : Pattern) : QueryTried (fun p => (patHit U pf st s p).isSome = true) q p ↔ Tried U st s q p := by
  cases q with
  | notExtended p' => exact Iff.rfl
  | extended cs =>
    have key : ∀ d ∈ cs, ∀ x ∈ d, (patHit U pf st s x).isSome = true ↔ PatternMatches U st x s := fun d hd x hx =>
      patHit_isSome hpf ((hok d hd).2 x hx)
    constructor
    · rintro ⟨ds, d, ds', rfl, h1, l, l', rfl, h2⟩
      refine ⟨ds, _, ds', l, l', rfl, rfl, fun e he => ?_, fun x hx hm => ?_⟩
      · obtain ⟨x, hx, hm⟩ := h1 e he
        exact ⟨x, hx, (key e (by simp [he]) x hx).mp hm⟩
      · exact h2 x hx ((key (l ++ p :: l') (by simp) x (by simp [hx])).mpr hm)
    · rintro ⟨ds, d, ds', l, l', rfl, rfl, h1, h2⟩
      refine ⟨ds, _, ds', rfl, fun e he => ?_, l, l', rfl, fun x hx hm => ?_⟩
      · obtain ⟨x, hx, hm⟩ := h1 e he
        exact ⟨x, hx, (key e (by simp [he]) x hx).mpr hm⟩
      · exact h2 x hx ((key (l ++ p :: l') (by simp) x (by simp [hx])).mp hm)

theorem tried_mem {st : Settings} {s : List Char} {q : FzfQuery} {p : Pattern} (h : Tried U st s q p) :
    p ∈ Spec.patterns q := by
  cases q with
  | notExtended p' => rw [show p = p' from h]; simp [Spec.patterns]
  | extended cs =>
    obtain ⟨ds, d, ds', l, l', rfl, rfl, _⟩ := h
    exact List.mem_flatten.mpr ⟨l ++ p :: l', by simp, by simp⟩

theorem isEmpty_iff {q : FzfQuery} (hok : QueryOk U q) : q.isEmpty = false ↔ ∃ p ∈ Spec.patterns q, p.text ≠ [] := by
  cases q with
  | notExtended p => simp [FzfQuery.isEmpty, Pattern.isEmpty, Spec.patterns]
  | extended cs =>
    cases cs with
    | nil => simp [FzfQuery.isEmpty, Spec.patterns]
    | cons d cs =>
      obtain ⟨h1, h2⟩ := hok d (by simp)
      cases d with
      | nil => exact absurd rfl h1
      | cons p d =>
        refine ⟨fun _ => ⟨p, by simp [Spec.patterns], (h2 p (by simp)).1⟩, fun _ => rfl⟩

theorem tried_ok {st : Settings} {s : List Char} {q : FzfQuery} (hok : QueryOk U q) (he : q.isEmpty = false) {p : Pattern}
    (h : Tried U st s q p) : p.text ≠ [] ∧ p.hasUppercase = p.text.any U.isUppercase := by
  cases q with
  | notExtended p' =>
    obtain rfl : p = p' := h
    refine ⟨by simpa [FzfQuery.isEmpty, Pattern.isEmpty] using he, ?_⟩
    have h : p = mkPattern U p.isInverse .fuzzy p.text := hok
    rw [h]
    rfl
  | extended cs =>
    obtain ⟨ds, d, ds', l, l', rfl, rfl, _⟩ := h
    have := (hok (l ++ p :: l') (by simp)).2 p (by simp)
    exact ⟨this.1, this.upper⟩

/-- The part of `CallFits` about matrices, for queries that are not empty. -/
def MatricesFit (B : Build) (U : Unicode) (a : Algo) (st : Settings) (q : FzfQuery) (s : List Char) : Prop :=
  q.isEmpty = false → a = .v2 → ∀ p, Tried U st s q p → p.matchType = .fuzzy → MatrixFits B U st p s

theorem distanceV1_agree (hB : BuildOk B) {P : Prop} {m : FzfV1} (hi : InvV1 B m) {st : Settings} (hm : m.Has st) {q : FzfQuery}
    (hlen : ∀ p ∈ Spec.patterns q, p.text.length < 2 ^ (B.bits - 1)) (hok : QueryOk U q) {s : List Char} (hs : InMemory B s)
    (hgc : strIsAscii s = false → P ∨ strLen s ≤ B.limit .char) (R : Bool) {buf : List Range} (hb : RBd B P R buf (strLen s)) :
    Agree P (fun x => InvV1 B x.1 ∧ x.2.1.length ≤ B.limit .range) (distance B U (implV1 B U) R m q s buf) ((FzfV1.impl U).distance U R m q s buf) :=
  (distance_agree (U := U) (implV1_agree (P := P) (U := U) hB (half hB)) (half hB) (FzfV1.refines U) R hi hm hok hlen
    (fun _ _ _ _ => Or.inr trivial) hs hgc hb).mono fun _ _ h => h.1

theorem distanceV2_agree (hB : BuildOk B) {P : Prop} {m : FzfV2} (hi : InvV2 B m) {st : Settings} (hm : m.Has st) {q : FzfQuery}
    (hlen : ∀ p ∈ Spec.patterns q, p.text.length < 2 ^ (B.bits - 1)) (hok : QueryOk U q) {s : List Char} (hs : InMemory B s)
    (hf : P ∨ MatricesFit B U .v2 st q s)
    (hgc : strIsAscii s = false → P ∨ strLen s ≤ B.limit .char) (R : Bool) {buf : List Range} (hb : RBd B P R buf (strLen s)) :
    Agree P (fun x => (InvV2 B x.1 ∧ x.2.1.length ≤ B.limit .range) ∧ MatricesFit B U .v2 st q s) (distance B U (implV2 B U) R m q s buf)
      ((FzfV2.impl U).distance U R m q s buf) := by
  have key : ∀ p, q.isEmpty = false → QueryTried (fun p => (patHit U v2Result st s p).isSome = true) q p →
      p.matchType = .fuzzy → (fitsV2 B (st.eqOf p) p s ↔ MatrixFits B U st p s) := fun p he hp hk => by
    obtain ⟨h1, h2⟩ := tried_ok hok he ((tried_iff accepts_v2 hok p).mp hp)
    exact fitsV2_iff h1 h2 hk s
  refine (distance_agree (U := U) (implV2_agree (P := P) (U := U) hB (half hB)) (half hB) (FzfV2.refines U) R hi hm hok hlen
    (fun he p hp hk => hf.imp_right fun hf => (key p he hp hk).mpr (hf he rfl p ((tried_iff accepts_v2 hok p).mp hp) hk))
    hs hgc hb).mono fun _ _ h => ⟨h.1, fun he _ p hp hk => ?_⟩
  have hp' := (tried_iff accepts_v2 hok p).mpr hp
  exact (key p he hp' hk).mp (h.2 he p hp' hk)

theorem metricDistance_agree (hB : BuildOk B) {P : Prop} {m : Metric} (hi : InvM B m) {st : Settings} (hm : m.Has st)
    {q : FzfQuery} {s : List Char} (hlen : ∀ p ∈ Spec.patterns q, p.text.length < 2 ^ (B.bits - 1)) (hok : QueryOk U q)
    (hf : P ∨ MatricesFit B U m.algo st q s) (hs : InMemory B s)
    (hgc : strIsAscii s = false → P ∨ strLen s ≤ B.limit .char) :
    Agree P (fun x => InvM B x.1 ∧ MatricesFit B U m.algo st q s) (metricDistance B U q s m) (m.distance U q s) := by
  have hM := half hB
  have hs' : strLen s < 2 ^ (B.bits - 1) := hs
  have hb : RBd B P false [] (strLen s) := ⟨by simp only [List.length_nil]; omega, Nat.zero_le _, nofun⟩
  have hmap : ∀ {σ β : Type} (f : σ → β) (y : Res (σ × List Range × Option FzfDistance)),
      (y >>= fun x => pure (x.1, x.2.2)).mapR (fun x => (f x.1, x.2)) = y.mapR fun x => (f x.1, x.2.2) := by
    intro σ β f y; cases y <;> rfl
  cases m with
  | v1 m =>
    have h := distanceV1_agree (U := U) hB hi (st := st) ⟨hm.1, hm.2, hm.3⟩ hlen hok hs hgc false hb
    have h2 := Agree.mapR (f := fun x => (Metric.v1 x.1, x.2.2)) h
    have e : Metric.distance U q s (.v1 m) =
        ((FzfV1.impl U).distance U false m q s []).mapR fun x => (Metric.v1 x.1, x.2.2) := hmap _ _
    rw [e]
    refine h2.mono fun x _ hx => ?_
    obtain ⟨y, hy, rfl⟩ := hx
    exact ⟨hy.1, nofun⟩
  | v2 m =>
    have h := distanceV2_agree (U := U) hB hi (st := st) ⟨hm.1, hm.2, hm.3⟩ hlen hok hs hf hgc false hb
    have h2 := Agree.mapR (f := fun x => (Metric.v2 x.1, x.2.2)) h
    have e : Metric.distance U q s (.v2 m) =
        ((FzfV2.impl U).distance U false m q s []).mapR fun x => (Metric.v2 x.1, x.2.2) := hmap _ _
    rw [e]
    refine h2.mono fun x _ hx => ?_
    obtain ⟨y, hy, rfl⟩ := hx
    exact ⟨hy.1.1, hy.2⟩

theorem metricDistanceAndRanges_agree (hB : BuildOk B) {P : Prop} {m : Metric} (hi : InvM B m) {st : Settings} (hm : m.Has st)
    {q : FzfQuery} {s : List Char} {buf : List Range} (hbuf : buf.length ≤ B.limit .range)
    (hlen : ∀ p ∈ Spec.patterns q, p.text.length < 2 ^ (B.bits - 1)) (hok : QueryOk U q)
    (hf : P ∨ MatricesFit B U m.algo st q s) (hs : InMemory B s)
    (hgc : strIsAscii s = false → P ∨ strLen s ≤ B.limit .char) (hgr : P ∨ buf.length + (strLen s + 1) / 2 ≤ B.limit .range) :
    Agree P (fun x => (InvM B x.1 ∧ x.2.1.length ≤ B.limit .range) ∧ MatricesFit B U m.algo st q s) (metricDistanceAndRanges B U q s buf m)
      (m.distanceAndRanges U q s buf) := by
  have hM := half hB
  have hs' : strLen s < 2 ^ (B.bits - 1) := hs
  have hl := hB.hi .range
  have hb : RBd B P true buf (strLen s) := ⟨by omega, hbuf, fun _ => hgr⟩
  cases m with
  | v1 m =>
    have h := distanceV1_agree (U := U) hB hi (st := st) ⟨hm.1, hm.2, hm.3⟩ hlen hok hs hgc true hb
    refine (Agree.mapR (f := fun x => (Metric.v1 x.1, x.2)) h).mono fun x _ hx => ?_
    obtain ⟨y, hy, rfl⟩ := hx
    exact ⟨hy, nofun⟩
  | v2 m =>
    have h := distanceV2_agree (U := U) hB hi (st := st) ⟨hm.1, hm.2, hm.3⟩ hlen hok hs hf hgc true hb
    refine (Agree.mapR (f := fun x => (Metric.v2 x.1, x.2)) h).mono fun x _ hx => ?_
    obtain ⟨y, hy, rfl⟩ := hx
    exact hy

theorem new_invM (hB : BuildOk B) (a : Algo) : InvM B (Metric.new a) := by
  have h1 := hB.lo .char
  have h2 := hB.lo .bonus
  have h3 := hB.lo .index
  have h4 := hB.lo .score
  cases a with
  | v1 => exact ⟨by simp only [FzfV1.new, List.length_replicate]; omega, .default, rfl⟩
  | v2 =>
    refine ⟨?_, ?_, ?_, ?_, ?_, .default, rfl⟩ <;>
      simp only [FzfV2.new, V2Slab.default, List.length_replicate] <;> omega

theorem unwound_inv {m m' : Metric} (hi : InvM B m) (hu : Unwound m m') (hf : MetricFits B m') : InvM B m' := by
  cases hu with
  | v1 _ _ _ h => exact ⟨hf, hi.2.imp fun _ hS => h.trans hS⟩
  | v2 _ _ _ _ _ _ _ h =>
    obtain ⟨h1, h2, h3, h4, h5⟩ := hf
    exact ⟨h1, h2, h3, h4, h5, hi.scheme.imp fun _ hS => h.trans hS⟩

theorem reachableIn (hB : BuildOk B) {a : Algo} {m : Metric} {st : Settings} (h : ReachableIn B U a m st) :
    Reachable U a m st ∧ InvM B m := by
  induction h with
  | new => exact ⟨.new, new_invM hB a⟩
  | @setCandidateNormalization m st n _ ih =>
    refine ⟨.setCandidateNormalization n ih.1, ?_⟩
    have hi := ih.2
    cases m with
    | v1 m => exact hi
    | v2 m => exact ⟨hi.chars, hi.bonus, hi.consecutive, hi.indices, hi.scores, hi.scheme⟩
  | @setCaseSensitivity m st cs _ ih =>
    refine ⟨.setCaseSensitivity cs ih.1, ?_⟩
    have hi := ih.2
    cases m with
    | v1 m => exact hi
    | v2 m => exact ⟨hi.chars, hi.bonus, hi.consecutive, hi.indices, hi.scores, hi.scheme⟩
  | @setScoringScheme m st S _ ih =>
    refine ⟨.setScoringScheme S ih.1, ?_⟩
    have hi := ih.2
    cases m with
    | v1 m => exact ⟨hi.1, S, rfl⟩
    | v2 m => exact ⟨hi.chars, hi.bonus, hi.consecutive, hi.indices, hi.scores, S, rfl⟩
  | @distance m m' st q s d _ hq hs hd ih =>
    obtain ⟨hok, hlen⟩ := queryIn hB hq
    obtain ⟨m'', hr, h1⟩ := call ih.1 hok s
    have h2 := metricDistance_agree (P := True) hB ih.2 (reachable_has ih.1).2 hlen hok (s := s) (Or.inl trivial) hs
      (fun _ => Or.inl trivial)
    rcases h2.cases h1 with ⟨h3, h4⟩ | ⟨_, h3⟩
    · rw [h3, h1] at hd
      obtain ⟨rfl, _⟩ := Prod.mk.inj (Res.ok.inj hd)
      exact ⟨hr, h4.1⟩
    · rw [h3] at hd; cases hd
  | @distanceAndRanges m m' st q s buf buf' d _ hq hs hbuf hd ih =>
    obtain ⟨hok, hlen⟩ := queryIn hB hq
    obtain ⟨m'', hr, h1⟩ := callR ih.1 hok s buf
    have h2 := metricDistanceAndRanges_agree (P := True) hB ih.2 (reachable_has ih.1).2 hbuf hlen hok (s := s) (Or.inl trivial) hs
      (fun _ => Or.inl trivial) (Or.inl trivial)
    rcases h2.cases h1 with ⟨h3, h4⟩ | ⟨_, h3⟩
    · rw [h3, h1] at hd
      obtain ⟨rfl, _⟩ := Prod.mk.inj (Res.ok.inj hd)
      exact ⟨hr, h4.1.1⟩
    · rw [h3] at hd; cases hd
  | distanceUnwound _ _ _ _ hu hf ih => exact ⟨.unwound ih.1 hu, unwound_inv ih.2 hu hf⟩
  | distanceAndRangesUnwound _ _ _ _ _ hu hf ih => exact ⟨.unwound ih.1 hu, unwound_inv ih.2 hu hf⟩

/-! ### For the property theorems -/

theorem roomy_ok {bits : Nat} (h : bits = 32 ∨ bits = 64) (debug : Bool) : BuildOk (roomyBuild bits debug) := by
  rcases h with rfl | rfl <;> refine ⟨fun e => ?_, fun e => ?_⟩ <;> cases e <;> simp [roomyBuild, elemSize]

theorem ensure_panic {α : Type} {e : Elem} {l : List α} {len : Nat} {fill : α} (hl : l.length ≤ B.limit e)
    (h : B.limit e < len) : B.ensure e l len fill = .panic := by
  unfold Build.ensure Build.grow
  rw [if_pos (by omega), if_neg (by omega)]
  rfl

theorem ensure_ne {α : Type} {e : Elem} {l r : List α} {len : Nat} {fill : α} (hl : l.length ≤ B.limit e)
    (h : B.ensure e l len fill = .ok r) : len ≤ B.limit e := by
  by_contra hc
  rw [ensure_panic hl (by omega)] at h
  cases h

theorem parse_fits {p : FzfParser} (hB : BuildOk B) (hp : InvP B p) {t : List Char} (hmem : InMemory B t)
    {r : FzfParser × FzfQuery} (h : parse B U p t = .ok r) : ParseFits B t := by
  have hM := half hB
  have hm : strLen t < 2 ^ (B.bits - 1) := hmem
  unfold parse at h
  obtain ⟨chars, h1, h⟩ := Res.bind_eq_ok.mp h
  obtain ⟨mc, h2, h⟩ := Res.bind_eq_ok.mp h
  obtain ⟨cs, h3, h⟩ := Res.bind_eq_ok.mp h
  obtain ⟨ps, h4, h⟩ := Res.bind_eq_ok.mp h
  unfold Build.usize at h2
  rw [if_pos (by omega)] at h2
  obtain rfl := Res.ok.inj h2
  exact ⟨ensure_ne hp.chars h1, ensure_ne hp.patterns h4, ensure_ne hp.conditions h3⟩

theorem alloc_panic {s chars : List Char} (hl : chars.length ≤ B.limit .char) (h : B.limit .char < strLen s) :
    candidateAlloc B chars s = .panic := by
  unfold candidateAlloc
  rw [ensure_panic hl h]
  rfl

theorem distance_unicode {σ : Type} {I : FzfImpl σ} {R : Bool} {self : σ} {q : FzfQuery} {s : List Char} {buf : List Range}
    (hq : q.isEmpty = false) (hs : strIsAscii s = false) (h : I.allocChars self s = .panic) :
    distance B U I R self q s buf = .panic := by
  unfold distance
  simp only [hq, hs, h, Bool.false_eq_true, if_false]
  rfl

theorem metric_empty {m : Metric} {q : FzfQuery} {s : List Char} (hq : q.isEmpty = true) :
    metricDistance B U q s m = m.distance U q s := by
  cases m with
  | v1 m =>
    unfold metricDistance Metric.distance FzfV1.distance distance FzfImpl.distance
    simp only [hq, if_true]
    rfl
  | v2 m =>
    unfold metricDistance Metric.distance FzfV2.distance distance FzfImpl.distance
    simp only [hq, if_true]
    rfl

theorem metric_empty_ranges {m : Metric} {q : FzfQuery} {s : List Char} {buf : List Range} (hq : q.isEmpty = true) :
    metricDistanceAndRanges B U q s buf m = m.distanceAndRanges U q s buf := by
  cases m with
  | v1 m =>
    unfold metricDistanceAndRanges Metric.distanceAndRanges FzfV1.distanceAndRanges distance FzfImpl.distance
    simp only [hq, if_true]
  | v2 m =>
    unfold metricDistanceAndRanges Metric.distanceAndRanges FzfV2.distanceAndRanges distance FzfImpl.distance
    simp only [hq, if_true]

theorem metric_unicode {m : Metric} (hm : InvM B m) {q : FzfQuery} {s : List Char} {buf : List Range}
    (hq : q.isEmpty = false) (hs : strIsAscii s = false) (h : B.limit .char < strLen s) :
    metricDistance B U q s m = .panic ∧ metricDistanceAndRanges B U q s buf m = .panic := by
  cases m with
  | v1 m =>
    have h1 : (implV1 B U).allocChars m s = .panic := by
      show allocCharsV1 B m s = .panic
      unfold allocCharsV1
      rw [alloc_panic hm.1 h]
      rfl
    unfold metricDistance metricDistanceAndRanges
    simp only [distance_unicode hq hs h1]
    exact ⟨rfl, rfl⟩
  | v2 m =>
    have h1 : (implV2 B U).allocChars m s = .panic := by
      show allocCharsV2 B m s = .panic
      unfold allocCharsV2
      rw [alloc_panic hm.chars h]
      rfl
    unfold metricDistance metricDistanceAndRanges
    simp only [distance_unicode hq hs h1]
    exact ⟨rfl, rfl⟩

end Norm.Usize
