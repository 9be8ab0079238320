import Verif.Proofs.Sizes
import Verif.Props.Concrete

/-!
# The buffers are as large as the largest call asks for

Property C65: the vectors that a metric and a parser keep between calls never shrink, and never grow beyond what the largest
candidate, the longest pattern and the longest query string given so far ask for. -/

namespace Norm.Props
open Spec

variable {U : Unicode} {a : Algo} {m m' : Metric} {q : FzfQuery} {s : List Char} {n b k : Nat}

/-- **C65**, one call of `distance`: every vector is at least as long as before, and at most as long as before or as the call
asks for. -/
theorem C65_distance {d : Option FzfDistance} (hq : Within n q) (h : m.distance U q s = .ok (m', d)) :
    (sizes m).Le (sizes m') ∧ (sizes m').Le ((sizes m).sup (need m.algo n (strLen s) s.length)) :=
  have h := metric_distance_sizes U hq (Nat.le_refl _) (Nat.le_refl _) h
  ⟨h.2.lo, h.2.hi⟩

/-- **C65**, one call of `distance_and_ranges`. -/
theorem C65_ranges {buf buf' : List Range} {d : Option FzfDistance} (hq : Within n q)
    (h : m.distanceAndRanges U q s buf = .ok (m', buf', d)) :
    (sizes m).Le (sizes m') ∧ (sizes m').Le ((sizes m).sup (need m.algo n (strLen s) s.length)) :=
  have h := metric_ranges_sizes U hq (Nat.le_refl _) (Nat.le_refl _) h
  ⟨h.2.lo, h.2.hi⟩

theorem sizes_setCandidateNormalization (x : Bool) : sizes (m.setCandidateNormalization x) = sizes m := by cases m <;> rfl
theorem sizes_setCaseSensitivity (x : CaseSensitivity) : sizes (m.setCaseSensitivity x) = sizes m := by cases m <;> rfl
theorem sizes_setScoringScheme (x : FzfScheme) : sizes (m.setScoringScheme x) = sizes m := by cases m <;> rfl

/-- **C65**, for all sequences of calls: what a metric keeps is bounded by what it had when new and by the largest inputs. The
number of calls does not matter. -/
theorem C65 (hm : ReachableWithin U a n b k m) :
    (sizes (Metric.new a)).Le (sizes m) ∧ (sizes m).Le ((sizes (Metric.new a)).sup (need a n b k)) := by
  have : m.algo = a ∧ Between (need a n b k) (sizes (Metric.new a)) (sizes m) := by
    induction hm with
    | new => exact ⟨by cases a <;> rfl, .refl _ _⟩
    | @setCandidateNormalization m x _ ih =>
      rw [sizes_setCandidateNormalization]
      exact ⟨by cases m <;> exact ih.1, ih.2⟩
    | @setCaseSensitivity m x _ ih =>
      rw [sizes_setCaseSensitivity]
      exact ⟨by cases m <;> exact ih.1, ih.2⟩
    | @setScoringScheme m x _ ih =>
      rw [sizes_setScoringScheme]
      exact ⟨by cases m <;> exact ih.1, ih.2⟩
    | distance _ hq hb hk h ih =>
      have h := metric_distance_sizes U hq hb hk h
      rw [ih.1] at h
      exact ⟨h.1, ih.2.trans h.2⟩
    | distanceAndRanges _ hq hb hk h ih =>
      have h := metric_ranges_sizes U hq hb hk h
      rw [ih.1] at h
      exact ⟨h.1, ih.2.trans h.2⟩
  exact ⟨this.2.lo, this.2.hi⟩

/-- The sizes of a new `FzfV1` and of a new `FzfV2`. -/
theorem C65_new : sizes (Metric.new .v1) = ⟨128, 0, 0, 0, 0⟩ ∧ sizes (Metric.new .v2) = ⟨128, 128, 128, 256, 256⟩ := by
  decide +kernel

/-- **C65**: with candidates of at most 128 bytes, patterns of at most 128 characters, and no product of the two lengths above
256, no call ever makes any vector grow. -/
theorem C65_small (hm : ReachableWithin U a n b b m) (hn : n ≤ 128) (hb : b ≤ 128) (hnb : n * b ≤ 256) :
    sizes m = sizes (Metric.new a) := by
  obtain ⟨lo, hi⟩ := C65 hm
  obtain ⟨l1, l2, l3, l4, l5⟩ := lo
  obtain ⟨u1, u2, u3, u4, u5⟩ := hi
  cases a with
  | v1 =>
    rw [C65_new.1] at *
    simp only [BufLens.sup, need] at l1 l2 l3 l4 l5 u1 u2 u3 u4 u5
    generalize sizes m = z at *
    obtain ⟨z1, z2, z3, z4, z5⟩ := z
    simp only [BufLens.mk.injEq] at *
    omega
  | v2 =>
    rw [C65_new.2] at *
    simp only [BufLens.sup, need] at l1 l2 l3 l4 l5 u1 u2 u3 u4 u5
    generalize sizes m = z at *
    obtain ⟨z1, z2, z3, z4, z5⟩ := z
    simp only [BufLens.mk.injEq] at *
    omega

/-- **C65**, the parser: its three vectors are bounded by what they were when new and by the longest string parsed. -/
theorem C65_parser {P : FzfParser} (hP : ReachableParserWithin U b P) :
    64 ≤ P.chars.length ∧ P.chars.length ≤ max 64 b ∧ 64 ≤ P.patterns.length ∧ P.patterns.length ≤ max 64 (b / 2 + 1) ∧
      64 ≤ P.conditions.length ∧ P.conditions.length ≤ max 64 (b / 2 + 1) := by
  induction hP with
  | new => simp only [FzfParser.new, List.length_replicate]; omega
  | parse _ hb h ih =>
    have h := parse_len U _ _ _ h
    dsimp only at h
    omega
  | parseNotExtended _ hb h ih =>
    have h := parseNotExtended_len U _ _ _ h
    dsimp only at h
    rw [h.2.1, h.2.2, h.1]
    exact ih

/-! ### A concrete case

A pattern of 17 letters and a candidate of 17 letters need 289 cells, which is 33 more than a new metric has; a candidate of 65
letters `é` has 130 bytes, two more than a new candidate slab has characters. The bounds are attained. -/

/-- The sizes after a call, or none if it panics. -/
def sizesAfter (m : Metric) (q : FzfQuery) (s : String) : Option BufLens :=
  match m.distance Concrete.U q s.toList with
  | .ok x => some (sizes x.1)
  | .panic => none

theorem sizesAfter_some {m : Metric} {q : FzfQuery} {s : String} {z : BufLens} (h : sizesAfter m q s = some z) :
    ∃ m' d, m.distance Concrete.U q s.toList = .ok (m', d) ∧ sizes m' = z := by
  unfold sizesAfter at h
  cases e : m.distance Concrete.U q s.toList with
  | panic => rw [e] at h; cases h
  | ok x => rw [e] at h; cases h; exact ⟨x.1, x.2, rfl, rfl⟩

example : ∃ m d, (Metric.new .v2).distance Concrete.U (Concrete.parse "aaaaaaaaaaaaaaaaa") "aaaaaaaaaaaaaaaaa".toList = .ok (m, d) ∧
    sizes m = ⟨128, 128, 128, 289, 289⟩ ∧
    sizes m = (sizes (Metric.new .v2)).sup (need .v2 17 17 17) ∧
    (sizes m).Le ((sizes (Metric.new .v2)).sup (need .v2 17 17 17)) := by
  obtain ⟨m, d, h, hz⟩ := sizesAfter_some (m := Metric.new .v2) (q := Concrete.parse "aaaaaaaaaaaaaaaaa")
    (s := "aaaaaaaaaaaaaaaaa") (z := ⟨128, 128, 128, 289, 289⟩) (by decide +kernel)
  refine ⟨m, d, h, hz, hz.trans (by decide +kernel), ?_⟩
  have hw : Within 17 (Concrete.parse "aaaaaaaaaaaaaaaaa") := by
    have : ∀ p ∈ patterns (Concrete.parse "aaaaaaaaaaaaaaaaa"), p.text.length ≤ 17 := by decide +kernel
    exact this
  exact (C65 (b := 17) (k := 17) (.distance .new hw (by decide) (by decide) h)).2

example : sizesAfter (Metric.new .v1) (Concrete.parse "e") (String.ofList (List.replicate 65 'é')) = some ⟨130, 0, 0, 0, 0⟩ := by
  decide +kernel

/-- A call that stays within the new buffers. -/
example : ∃ m d, (Metric.new .v2).distance Concrete.U (Concrete.parse "fo br") "foobar".toList = .ok (m, d) ∧
    sizes m = sizes (Metric.new .v2) := by
  obtain ⟨m, d, h, _⟩ := sizesAfter_some (m := Metric.new .v2) (q := Concrete.parse "fo br") (s := "foobar")
    (z := ⟨128, 128, 128, 256, 256⟩) (by decide +kernel)
  have hw : Within 2 (Concrete.parse "fo br") := by
    have : ∀ p ∈ patterns (Concrete.parse "fo br"), p.text.length ≤ 2 := by decide +kernel
    exact this
  refine ⟨m, d, h, ?_⟩
  exact C65_small (n := 2) (b := 6) (.distance .new hw (by decide) (by decide) h) (by decide) (by decide) (by decide)

/-- A string of 130 bytes makes the parser's vectors grow to 130 characters and 66 patterns and conditions. -/
example : (FzfParser.new.parse Concrete.U (List.replicate 130 'a')).mapR
      (fun x => (x.1.chars.length, x.1.patterns.length, x.1.conditions.length)) = .ok (130, 66, 66) := by
  decide +kernel

end Norm.Props
