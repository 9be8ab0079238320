/-!
# Results with explicit panics, and checked slice operations

Rust's panicking operations (`v[i]`, `&v[a..b]`, `usize` subtraction, `unwrap`, `expect`,
`debug_assert!`) are modelled by functions into `Res`, where `Res.panic` is the panic.
These helpers model the Rust core language, not a particular file of `/repo`.
-/

namespace Norm

/-- The outcome of running Rust code: a value, or a panic. Source: all functions of `/repo/src/lib.rs:1-105` and its modules. -/
inductive Res (α : Type u) where
  | ok (a : α)
  | panic
deriving Repr, DecidableEq

namespace Res

/-- Sequencing: a panic aborts everything after it. Source: all functions of `/repo/src/lib.rs:1-105` and its modules. -/
@[inline] def bind {α : Type u} {β : Type v} : Res α → (α → Res β) → Res β
  | .ok a, f => f a
  | .panic, _ => .panic

instance : Monad Res where
  pure := Res.ok
  bind := Res.bind

/-- Functorial action, used to project the interesting part of a result.
Source: all functions of `/repo/src/lib.rs:1-105` and its modules. -/
def mapR {α : Type u} {β : Type v} (f : α → β) : Res α → Res β
  | .ok a => .ok (f a)
  | .panic => .panic

/-- `Option::unwrap` / `Option::expect`.
Source: `/repo/src/metrics/fzf/fzf.rs:520`, `/repo/src/metrics/fzf/fzf_v1.rs:322,334`, `/repo/src/metrics/fzf/fzf_v2.rs:376`, `/repo/src/metrics/fzf/query.rs:58`, `/repo/src/matched_ranges.rs:122`. -/
def unwrap {α : Type u} : Option α → Res α
  | some a => .ok a
  | none => .panic

/-- `debug_assert!(b)`.
Source: `/repo/src/metrics/fzf/slab.rs:191,385`, `/repo/src/metrics/fzf/query.rs:221`, `/repo/src/utils.rs:12`. -/
def assert (b : Bool) : Res Unit := if b then .ok () else .panic

end Res

/-- `v[i]`.
Source: `/repo/src/metrics/fzf/fzf_v2.rs:289,504,516,524,526,530,596,601,606,611`, `/repo/src/metrics/fzf/query.rs:173`, `/repo/src/candidate.rs:32-33`. -/
def getR {α : Type u} (l : List α) (i : Nat) : Res α := Res.unwrap l[i]?

/-- `v[i] = a`.
Source: `/repo/src/metrics/fzf/fzf_v2.rs:359,448,455,461,473,518,556,558,564`, `/repo/src/metrics/fzf/slab.rs:101`, `/repo/src/metrics/fzf/parser.rs:130,176,204,327`. -/
def setR {α : Type u} (l : List α) (i : Nat) (a : α) : Res (List α) :=
  if i < l.length then .ok (l.set i a) else .panic

/-- `&v[a..b]`.
Source: `/repo/src/metrics/fzf/slab.rs:360,393`, `/repo/src/candidate.rs:207-211`, `/repo/src/metrics/fzf/parser.rs:389-394`. -/
def sliceR {α : Type u} (l : List α) (a b : Nat) : Res (List α) :=
  if a ≤ b ∧ b ≤ l.length then .ok ((l.take b).drop a) else .panic

/-- `&v[a..]`. Source: `/repo/src/candidate.rs:48,51,80,87,187,197,431`, `/repo/src/metrics/fzf/query.rs:230,242,250`. -/
def sliceFromR {α : Type u} (l : List α) (a : Nat) : Res (List α) :=
  if a ≤ l.length then .ok (l.drop a) else .panic

/-- `&v[..b]`.
Source: `/repo/src/metrics/fzf/slab.rs:68,105,130,197,393`, `/repo/src/candidate.rs:129,137,221,233`, `/repo/src/metrics/fzf/parser.rs:135,180`. -/
def sliceToR {α : Type u} (l : List α) (b : Nat) : Res (List α) :=
  if b ≤ l.length then .ok (l.take b) else .panic

/-- `a - b` on `usize` (a debug build panics on underflow; a release build would wrap, which the
model also rejects).
Source: `/repo/src/metrics/fzf/fzf_v2.rs:297,309,516,524,526,530,533,627,636`, `/repo/src/metrics/fzf/slab.rs:346,398`, `/repo/src/metrics/fzf/fzf.rs:463,478`. -/
def subR (a b : Nat) : Res Nat := if b ≤ a then .ok (a - b) else .panic

/-- `Vec::resize(len, fill)` when growing (all call sites guard with `len > self.len()`).
Source: `/repo/src/metrics/fzf/slab.rs:65,95,127,194`, `/repo/src/metrics/fzf/parser.rs:91,103,107`. -/
def resize {α : Type u} (l : List α) (len : Nat) (fill : α) : List α :=
  l.take len ++ List.replicate (len - l.length) fill

/-- `Vec::insert(i, a)`; panics if `i > len`. Source: `/repo/src/matched_ranges.rs:186`. -/
def insertAtR {α : Type u} (l : List α) (i : Nat) (a : α) : Res (List α) :=
  if i ≤ l.length then .ok (l.take i ++ a :: l.drop i) else .panic

/-- `Vec::remove(i)`; panics if `i >= len`. Source: `/repo/src/matched_ranges.rs:210`. -/
def removeR {α : Type u} (l : List α) (i : Nat) : Res (List α) :=
  if i < l.length then .ok (l.take i ++ l.drop (i + 1)) else .panic

/-- `core::ops::Range<usize>`. Source: `/repo/src/metric.rs:128`, `/repo/src/matched_ranges.rs:6`. -/
structure Range where
  start : Nat
  stop : Nat
deriving Repr, DecidableEq

/-- `Range::len` (`ExactSizeIterator`): `0` when `start >= end`. Source: `/repo/src/matched_ranges.rs:32,41`. -/
def Range.len (r : Range) : Nat := r.stop - r.start

end Norm
