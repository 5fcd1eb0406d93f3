import Verif.Model.Anahash
import Mathlib.Algebra.BigOperators.Group.List.Basic

/-!
# Specification: bags of symbols

A bag of symbols is a list of symbol indices up to permutation (`List.Perm`), inclusion is
`List.Subperm`.  `bagValue` is the number that represents the bag; it depends on the model only
through the table of primes.
-/
namespace Verif.Spec

/-- The prime standing for symbol `i`. -/
def symPrime (i : Nat) : Nat := Verif.Model.PRIMES.getD i 1

/-- The number representing a bag of symbols. -/
def bagValue (l : List Nat) : Nat := (l.map symPrime).prod

/-- All symbols are among the first `n`. -/
def Within (n : Nat) (l : List Nat) : Prop := ∀ i ∈ l, i < n

instance (n : Nat) (l : List Nat) : Decidable (Within n l) :=
  inferInstanceAs (Decidable (∀ i ∈ l, i < n))

end Verif.Spec
