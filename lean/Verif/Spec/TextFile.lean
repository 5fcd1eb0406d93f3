import Verif.Model.TextFile

/-!
# What the lines of a text are
-/
namespace Verif.Spec
open Verif.Model

/-- A text is written as these lines: each ends with a newline, or with a carriage return and a newline, or it is the
last one, has no end, and is not empty.  No line has a newline in it; one that ends with a newline only does not end
in a carriage return (which would belong to the end). -/
inductive Written : List RawText → RawText → Prop
  | nil : Written [] []
  | last (l : RawText) : l ≠ [] → some '\n' ∉ l → Written [l] l
  | lf (l : RawText) (ls : List RawText) (t : RawText) : some '\n' ∉ l → l.getLast? ≠ some (some '\r') →
      Written ls t → Written (l :: ls) (l ++ some '\n' :: t)
  | crlf (l : RawText) (ls : List RawText) (t : RawText) : some '\n' ∉ l →
      Written ls t → Written (l :: ls) (l ++ some '\r' :: some '\n' :: t)

/-- The line as it is read: nothing if it is not UTF-8. -/
def LineOf (l : RawText) (r : Option (List Char)) : Prop :=
  (∃ s, r = some s ∧ l = s.map some) ∨ (r = none ∧ none ∈ l)

/-- Two texts have the same lines but possibly different ends of lines. -/
def AlikeLines (t u : RawText) : Prop := ∃ ls, Written ls t ∧ Written ls u

/-- Two file systems have the same files but for the ends of lines. -/
def AlikeFiles (f g : List Char → Option RawText) : Prop :=
  ∀ name, (f name = none ∧ g name = none) ∨ ∃ t u, f name = some t ∧ g name = some u ∧ AlikeLines t u

end Verif.Spec
