import Verif.Proofs.Score
import Verif.Model.V2

/-! The dynamic program of `FzfV2` as pure functions, and the loops that fill the matrices. -/

set_option linter.unusedSimpArgs false

namespace Norm
open Spec

/-! ### Rows and matrices as functions -/

/-- A row of width `n` with contents `f`. -/
def rowOf {α : Type} (n : Nat) (f : Nat → α) : List α := (List.range n).map f

/-- A matrix with contents `F`. -/
def matOf {α : Type} (h w : Nat) (F : Nat → Nat → α) : Matrix α :=
  ⟨(List.range (h * w)).map (fun k => F (k / w) (k % w)), h, w⟩

section rows
variable {α : Type} {n : Nat} {f g : Nat → α}

@[simp] theorem rowOf_length : (rowOf n f).length = n := by simp [rowOf]

theorem rowOf_congr (h : ∀ c < n, f c = g c) : rowOf n f = rowOf n g := by
  unfold rowOf
  exact List.map_congr_left (fun c hc => h c (List.mem_range.mp hc))

theorem rowOf_get {c : Nat} (h : c < n) : getR (rowOf n f) c = .ok (f c) := by
  rw [getR_eq_ok]; simp [rowOf, h]

theorem rowOf_set {c : Nat} (h : c < n) (v : α) :
    setR (rowOf n f) c v = .ok (rowOf n (fun i => if i = c then v else f i)) := by
  rw [setR_of_lt (by simpa using h)]
  congr 1
  apply List.ext_getElem
  · simp [rowOf]
  · intro i h1 h2
    simp only [rowOf, List.getElem_set, List.getElem_map, List.getElem_range]
    by_cases hi : c = i
    · subst hi; simp
    · rw [if_neg hi, if_neg (fun h => hi h.symm)]

theorem matOf_congr {h w : Nat} {F G : Nat → Nat → α} (hFG : ∀ r < h, ∀ c < w, F r c = G r c) :
    matOf h w F = matOf h w G := by
  unfold matOf
  congr 1
  apply List.map_congr_left
  intro k hk
  rw [List.mem_range] at hk
  have hw : 0 < w := by
    rcases Nat.eq_zero_or_pos w with rfl | h
    · simp at hk
    · exact h
  exact hFG _ (Nat.div_lt_of_lt_mul (by rw [Nat.mul_comm]; exact hk)) _ (Nat.mod_lt _ hw)

theorem cell_lt {h w r c : Nat} (hr : r < h) (hc : c < w) : r * w + c < h * w := by
  calc r * w + c < r * w + w := by omega
    _ = (r + 1) * w := by rw [Nat.add_mul, Nat.one_mul]
    _ ≤ h * w := Nat.mul_le_mul_right w hr

theorem cell_div {w r c : Nat} (hc : c < w) : (r * w + c) / w = r := by
  rw [Nat.mul_comm, Nat.mul_add_div (by omega), Nat.div_eq_of_lt hc, Nat.add_zero]

theorem cell_mod {w r c : Nat} (hc : c < w) : (r * w + c) % w = c := by
  rw [Nat.mul_comm, Nat.mul_add_mod, Nat.mod_eq_of_lt hc]

theorem matOf_getValue {h w : Nat} {F : Nat → Nat → α} {r c : Nat} (hr : r < h) (hc : c < w) :
    (matOf h w F).getValue (r * w + c) = some (F r c) := by
  simp only [Matrix.getValue, matOf]
  rw [List.getElem?_map, List.getElem?_range (cell_lt hr hc)]
  simp [cell_div hc, cell_mod hc]

theorem matOf_get {h w : Nat} {F : Nat → Nat → α} {r c : Nat} (hr : r < h) (hc : c < w) :
    (matOf h w F).get (r * w + c) = .ok (F r c) := by
  simp only [Matrix.get, getR_eq_ok]
  exact matOf_getValue hr hc

theorem matOf_getValue_none {h w : Nat} {F : Nat → Nat → α} {k : Nat} (hk : h * w ≤ k) :
    (matOf h w F).getValue k = none := by
  simp [Matrix.getValue, matOf, hk]

/-- A block of `w` cells of the underlying slice. -/
theorem block_eq {h w : Nat} {F : Nat → Nat → α} {r : Nat} (hr : r < h) :
    (((matOf h w F).slice).take (r * w + w)).drop (r * w) = rowOf w (F r) := by
  have hle : r * w + w ≤ h * w := by
    calc r * w + w = (r + 1) * w := by rw [Nat.add_mul, Nat.one_mul]
      _ ≤ h * w := Nat.mul_le_mul_right w hr
  apply List.ext_getElem
  · simp [matOf]; omega
  · intro i h1 h2
    have hi : i < w := by simpa using h2
    simp only [matOf, rowOf, List.getElem_drop, List.getElem_take, List.getElem_map, List.getElem_range]
    rw [cell_div hi, cell_mod hi]

theorem matOf_row {h w : Nat} {F : Nat → Nat → α} {r : Nat} (hr : r < h) :
    (matOf h w F).row r = .ok (rowOf w (F r)) := by
  have hle : r * w + w ≤ h * w := by
    calc r * w + w = (r + 1) * w := by rw [Nat.add_mul, Nat.one_mul]
      _ ≤ h * w := Nat.mul_le_mul_right w hr
  unfold Matrix.row
  have : (matOf h w F).width = w := rfl
  rw [this, sliceR_of_le (by omega) (by simp [matOf]; omega), block_eq hr]

theorem matOf_twoRows {h w : Nat} {F : Nat → Nat → α} {r : Nat} (hr : r + 1 < h) :
    (matOf h w F).twoRows r (r + 1) = .ok (rowOf w (F r), rowOf w (F (r + 1))) := by
  have hle : (r + 1) * w + w ≤ h * w := by
    calc (r + 1) * w + w = (r + 1 + 1) * w := by rw [Nat.add_mul (r + 1), Nat.one_mul]
      _ ≤ h * w := Nat.mul_le_mul_right w hr
  have hs : (r + 1) * w = r * w + w := by rw [Nat.add_mul, Nat.one_mul]
  have hlen : (matOf h w F).slice.length = h * w := by simp [matOf]
  unfold Matrix.twoRows
  have hw : (matOf h w F).width = w := rfl
  rw [hw]
  simp only [show r < r + 1 by omega, decide_true, Res.assert_true, Res.bind_ok]
  rw [sliceToR_of_le (by omega), sliceFromR_of_le (by omega)]
  simp only [Res.bind_ok]
  rw [sliceR_of_le (by omega) (by simp only [List.length_take, List.length_append, List.length_map, List.length_range, rowOf_length, List.length_drop, hlen]; omega), sliceToR_of_le (by simp only [List.length_take, List.length_append, List.length_map, List.length_range, rowOf_length, List.length_drop, hlen]; omega)]
  simp only [Res.bind_ok, Res.pure_def]
  rw [List.take_take, Nat.min_eq_left (by omega), block_eq (by omega), ← block_eq (F := F) hr]
  congr 2
  rw [List.take_drop]

theorem matOf_setRow {h w : Nat} {F : Nat → Nat → α} {r : Nat} (hr : r < h) (f : Nat → α) :
    (matOf h w F).setRow r (rowOf w f) = matOf h w (fun i => if i = r then f else F i) := by
  have hle : r * w + w ≤ h * w := by
    calc r * w + w = (r + 1) * w := by rw [Nat.add_mul, Nat.one_mul]
      _ ≤ h * w := Nat.mul_le_mul_right w hr
  have hs : (matOf h w F).slice = (List.range (h * w)).map (fun k => F (k / w) (k % w)) := rfl
  unfold Matrix.setRow
  have hw : (matOf h w F).width = w := rfl
  have hh : (matOf h w F).height = h := rfl
  rw [hw, hs]
  conv_rhs => unfold matOf
  simp only [hh, Matrix.mk.injEq, and_true]
  apply List.ext_getElem
  · simp only [List.length_take, List.length_append, List.length_map, List.length_range, rowOf_length, List.length_drop]; omega
  · intro i h1 h2
    simp at h2
    have hwpos : 0 < w := by
      rcases Nat.eq_zero_or_pos w with rfl | h
      · simp at h2
      · exact h
    simp only [List.getElem_map, List.getElem_range]
    by_cases hi1 : i < r * w
    · rw [List.getElem_append_left (by simp only [List.length_take, List.length_append, List.length_map, List.length_range, rowOf_length, List.length_drop]; omega), List.getElem_append_left (by simp only [List.length_take, List.length_append, List.length_map, List.length_range, rowOf_length, List.length_drop]; omega)]
      simp only [List.getElem_take, List.getElem_map, List.getElem_range]
      have : i / w ≠ r := by
        have := Nat.div_lt_of_lt_mul (by rw [Nat.mul_comm]; exact hi1 : i < w * r); omega
      rw [if_neg this]
    · by_cases hi2 : i < r * w + w
      · rw [List.getElem_append_left (by simp only [List.length_take, List.length_append, List.length_map, List.length_range, rowOf_length, List.length_drop]; omega), List.getElem_append_right (by simp only [List.length_take, List.length_append, List.length_map, List.length_range, rowOf_length, List.length_drop]; omega)]
        obtain ⟨c, hc, rfl⟩ : ∃ c, c < w ∧ i = r * w + c := ⟨i - r * w, by omega, by omega⟩
        rw [cell_div hc, cell_mod hc, if_pos rfl]
        simp only [rowOf, List.getElem_map, List.getElem_range, List.length_take, List.length_map,
          List.length_range]
        congr 1; omega
      · rw [List.getElem_append_right (by simp only [List.length_take, List.length_append, List.length_map, List.length_range, rowOf_length, List.length_drop]; omega)]
        simp only [List.getElem_drop, List.getElem_map, List.getElem_range, List.length_append,
          List.length_take, List.length_map, List.length_range, rowOf_length]
        have hidx : r * w + w + (i - (min (r * w) (h * w) + w)) = i := by omega
        rw [hidx]
        have : i / w ≠ r := by
          have : r + 1 ≤ i / w := by
            rw [Nat.le_div_iff_mul_le hwpos, Nat.add_mul, Nat.one_mul]; omega
          omega
        rw [if_neg this]

theorem matrixAlloc_eq (fill : α) (vec : List α) {h w : Nat} (hh : 0 < h) (hw : 0 < w) :
    ∃ vec', matrixAlloc fill vec w h = .ok (vec', matOf h w (fun _ _ => fill)) := by
  have hpos : 0 < h * w := Nat.mul_pos hh hw
  unfold matrixAlloc
  simp only [gt_iff_lt, hpos, decide_true, Res.assert_true, Res.bind_ok]
  rw [sliceToR_of_le (length_ite_resize vec (h * w) fill)]
  simp only [Res.bind_ok, Res.pure_def]
  refine ⟨if h * w > vec.length then resize vec (h * w) fill else vec, ?_⟩
  congr 2
  unfold matOf
  congr 1
  rw [List.map_const', List.map_const', List.length_range, List.length_take]
  congr 1
  have := length_ite_resize vec (h * w) fill
  omega

end rows

/-! ### The bonus cache -/

section cache
variable (U : Unicode) (sch : Scheme) (base : Candidate) (init : CharClass) (opts : CandidateOpts)
  (b : Nat → Int)

/-- `b` gives the positional bonus of every position of the window. -/
structure Bonuses : Prop where
  val : ∀ i x, base.toChars[i]? = some x →
    b i = computeBonus (match i with
      | 0 => init
      | j + 1 => match base.toChars[j]? with
        | some y => charClass U y sch
        | none => init) (charClass U x sch) sch
  lo : ∀ i, 0 ≤ b i
  hi : ∀ i, b i ≤ 10

/-- The part of `CandidateV2` that never changes is as given, and every cached bonus is right. -/
structure CvOk (cv : CandidateV2) : Prop where
  base_eq : cv.base = base
  init_eq : cv.initialCharClass = init
  opts_eq : cv.opts = opts
  len : cv.bonuses.length = base.toChars.length
  cache : ∀ (i : Nat) (cell : BonusCell), cv.bonuses[i]? = some cell → cell.isSet = true → cell.get = b i

variable {U sch base init opts b}

theorem bonusAt_eq (hb : Bonuses U sch base init b) {cv : CandidateV2} (h : CvOk base init opts b cv) {i : Nat}
    (hi : i < base.toChars.length) :
    ∃ cv', cv.bonusAt U i sch = .ok (cv', b i) ∧ CvOk base init opts b cv' := by
  obtain rfl := h.init_eq
  unfold CandidateV2.bonusAt
  have hlen := h.len
  rw [getR_of_lt (by omega)]
  simp only [Res.bind_ok]
  cases hs : cv.bonuses[i].isSet with
  | true =>
    simp only [if_true, Res.pure_def]
    exact ⟨cv, by rw [h.cache i _ (List.getElem?_eq_getElem (by omega)) hs], h⟩
  | false =>
    have hval := hb.val i _ (List.getElem?_eq_getElem hi)
    have hcell : (BonusCell.set (b i)).get = b i := by
      have h1 := hb.lo i
      have h2 := hb.hi i
      show (((b i % 256).toNat : Nat) : Int) = b i
      omega
    have hthis : cv.base.char i = .ok base.toChars[i] := by
      rw [h.base_eq, Candidate.char_eq, getR_of_lt hi]
    have key : ∀ cell : BonusCell, cell = BonusCell.set (b i) → ∃ cv',
        (do let bs ← setR cv.bonuses i cell; pure ({ cv with bonuses := bs }, cell.get) :
          Res (CandidateV2 × Score)) = .ok (cv', b i) ∧ CvOk base cv.initialCharClass opts b cv' := by
      rintro cell rfl
      rw [setR_of_lt (by omega)]
      simp only [Res.bind_ok, Res.pure_def]
      refine ⟨{ cv with bonuses := cv.bonuses.set i (BonusCell.set (b i)) }, by rw [hcell], ?_⟩
      refine ⟨h.base_eq, rfl, h.opts_eq, by simp [hlen], ?_⟩
      intro j cell hj hset
      simp only [List.getElem?_set] at hj
      split at hj
      · rename_i hij
        subst hij
        rw [if_pos (by omega)] at hj
        rw [← Option.some.inj hj, hcell]
      · exact h.cache j cell hj hset
    simp only [Bool.false_eq_true, if_false, hthis, Res.bind_ok, Res.pure_def]
    cases i with
    | zero =>
      simp only [beq_self_eq_true, if_true, Res.bind_ok]
      apply key
      rw [hval]
    | succ j =>
      have hprev : cv.base.char j = .ok base.toChars[j] := by
        rw [h.base_eq, Candidate.char_eq, getR_of_lt (by omega)]
      simp only [Nat.add_one_sub_one, hprev, Res.bind_ok, show ((j + 1) == 0) = false from rfl,
        Bool.false_eq_true, if_false]
      apply key
      rw [hval]
      simp only [List.getElem?_eq_getElem (show j < base.toChars.length by omega)]

end cache

end Norm
