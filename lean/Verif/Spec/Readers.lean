import Verif.Model.Readers

/-!
# What it means that reading ends
-/
namespace Verif.Spec
open Verif.Model

/-- The reader reports its end at request `n` and not before. -/
def EndsAt (r : Reader) (n : Nat) : Prop := r n = .eof ∧ ∀ i < n, r i ≠ .eof

/-- From request `n` on the reader reports an error at every request, as it does for a directory that was
opened as if it were a file; before, it does not report its end. -/
def KeepsFailing (r : Reader) (n : Nat) : Prop := (∀ i < n, r i ≠ .eof) ∧ ∀ i, n ≤ i → r i = .failed

/-- Request `n` is the first that does not give a line. -/
def FirstFailure (r : Reader) (n : Nat) : Prop := (∀ i < n, ∃ l, r i = .line l) ∧ ∀ l, r n ≠ .line l

/-- The first `n` requests as lines of a file: what is not a line cannot be read. -/
def given (r : Reader) (n : Nat) : List (Option (List Char)) :=
  (List.range n).map fun i => match r i with | .line l => some l | _ => none

/-- The requests up to the first that does not give a line; an error counts as a line that cannot be
read. -/
def upTo (r : Reader) (n : Nat) : List (Option (List Char)) :=
  given r n ++ if r n = .failed then [none] else []

/-- A loop with bounded fuel ends. -/
def Ends {α : Type} (loop : Nat → Option α) : Prop := ∃ fuel a, loop fuel = some a

/-- A loop gives a result, and gives it with any more fuel. -/
def EndsWith {α : Type} (loop : Nat → Option α) (n : Nat) (a : α) : Prop := ∀ fuel, n < fuel → loop fuel = some a

end Verif.Spec
