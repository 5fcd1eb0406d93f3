import Mathlib.Order.Bounds.Basic

/-!
# Specification: edit steps

Independent of the model.  `EditStep sw s t` says that `t` arises from `s` by one edit of a
single symbol at some position; swaps of two adjacent symbols are allowed iff `sw`.
-/
namespace Verif.Spec

/-- One edit: insertion, deletion, substitution, or (only if `sw`) swapping two adjacent
symbols, at the front or (by `cons`) further inside. -/
inductive EditStep {α : Type} (sw : Prop) : List α → List α → Prop
  | ins (c : α) (s : List α) : EditStep sw s (c :: s)
  | del (c : α) (s : List α) : EditStep sw (c :: s) s
  | sub (c d : α) (s : List α) : EditStep sw (c :: s) (d :: s)
  | swap (h : sw) (c d : α) (s : List α) : EditStep sw (c :: d :: s) (d :: c :: s)
  | cons (c : α) {s t : List α} (h : EditStep sw s t) : EditStep sw (c :: s) (c :: t)

/-- `Edits sw n s t`: `t` arises from `s` by exactly `n` edits. -/
inductive Edits {α : Type} (sw : Prop) : Nat → List α → List α → Prop
  | refl (s : List α) : Edits sw 0 s s
  | tail {n : Nat} {s u t : List α} (h : Edits sw n s u) (h' : EditStep sw u t) :
      Edits sw (n + 1) s t

/-- `d` is the Levenshtein distance: the least number of insertions, deletions and
substitutions leading from `s` to `t`. -/
def IsLevenshtein {α : Type} (s t : List α) (d : Nat) : Prop :=
  IsLeast {n | Edits False n s t} d

/-- `d` is the (unrestricted) Damerau-Levenshtein distance: as above, where swapping two
adjacent symbols is one further kind of edit. -/
def IsDamerau {α : Type} (s t : List α) (d : Nat) : Prop :=
  IsLeast {n | Edits True n s t} d

end Verif.Spec
