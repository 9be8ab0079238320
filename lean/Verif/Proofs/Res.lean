import Verif.Model.Res
import Mathlib.Data.List.Basic
import Mathlib.Tactic.Common

/-! Simplification lemmas for `Res` and the checked list operations. -/

namespace Norm

namespace Res

@[simp] theorem pure_def {α : Type u} (a : α) : (pure a : Res α) = .ok a := rfl
@[simp] theorem bind_ok {α β : Type u} (a : α) (f : α → Res β) : ((Res.ok a) >>= f) = f a := rfl
@[simp] theorem bind_panic {α β : Type u} (f : α → Res β) : ((Res.panic : Res α) >>= f) = .panic := rfl
@[simp] theorem bind'_ok {α : Type u} {β : Type v} (a : α) (f : α → Res β) : Res.bind (.ok a) f = f a := rfl
@[simp] theorem bind'_panic {α : Type u} {β : Type v} (f : α → Res β) :
    Res.bind (.panic : Res α) f = .panic := rfl
@[simp] theorem mapR_ok {α : Type u} {β : Type v} (f : α → β) (a : α) : Res.mapR f (.ok a) = .ok (f a) := rfl
@[simp] theorem mapR_panic {α : Type u} {β : Type v} (f : α → β) :
    Res.mapR f (.panic : Res α) = .panic := rfl
@[simp] theorem unwrap_some {α : Type u} (a : α) : Res.unwrap (some a) = .ok a := rfl
@[simp] theorem unwrap_none {α : Type u} : Res.unwrap (none : Option α) = .panic := rfl
@[simp] theorem assert_true : Res.assert true = .ok () := rfl
@[simp] theorem map_ok {α β : Type u} (a : α) (f : α → β) : (f <$> (Res.ok a)) = .ok (f a) := rfl

theorem bind_eq_ok {α β : Type u} {x : Res α} {f : α → Res β} {b : β} :
    (x >>= f) = .ok b ↔ ∃ a, x = .ok a ∧ f a = .ok b := by
  cases x <;> simp

theorem bind_assoc {α β γ : Type u} (x : Res α) (f : α → Res β) (g : β → Res γ) :
    ((x >>= f) >>= g) = (x >>= fun a => f a >>= g) := by
  cases x <;> rfl

end Res

@[simp] theorem getR_eq_ok {α : Type u} {l : List α} {i : Nat} {a : α} :
    getR l i = .ok a ↔ l[i]? = some a := by
  unfold getR; cases h : l[i]? <;> simp

theorem getR_of_lt {α : Type u} {l : List α} {i : Nat} (h : i < l.length) : getR l i = .ok l[i] := by
  simp [h]

theorem getR_append_right {α : Type u} {l r : List α} {i : Nat} (h : l.length ≤ i) :
    getR (l ++ r) i = getR r (i - l.length) := by
  simp [getR, List.getElem?_append_right h]

@[simp] theorem setR_of_lt {α : Type u} {l : List α} {i : Nat} {a : α} (h : i < l.length) :
    setR l i a = .ok (l.set i a) := by simp [setR, h]

@[simp] theorem sliceR_of_le {α : Type u} {l : List α} {a b : Nat} (h : a ≤ b) (h' : b ≤ l.length) :
    sliceR l a b = .ok ((l.take b).drop a) := by simp [sliceR, h, h']

@[simp] theorem sliceFromR_of_le {α : Type u} {l : List α} {a : Nat} (h : a ≤ l.length) :
    sliceFromR l a = .ok (l.drop a) := by simp [sliceFromR, h]

@[simp] theorem sliceToR_of_le {α : Type u} {l : List α} {b : Nat} (h : b ≤ l.length) :
    sliceToR l b = .ok (l.take b) := by simp [sliceToR, h]

@[simp] theorem subR_of_le {a b : Nat} (h : b ≤ a) : subR a b = .ok (a - b) := by simp [subR, h]

theorem resize_length {α : Type u} {l : List α} {n : Nat} {a : α} (h : l.length ≤ n) :
    (resize l n a).length = n := by
  simp [resize]; omega

theorem length_ite_resize {α : Type u} (l : List α) (n : Nat) (a : α) :
    n ≤ (if n > l.length then resize l n a else l).length := by
  split
  · rw [resize_length (by omega)]; exact Nat.le_refl _
  · omega

end Norm
