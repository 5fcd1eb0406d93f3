import Verif.Model.Vocab
import Verif.Spec.History

/-!
# Specification: the vocabulary in a release build
-/
namespace Verif.Spec

open Verif.Model

/-- The frequencies given for a text, in order. -/
def givenFor (t : List Char) (as : List (List Char × Option Nat × VocabParams)) : List Nat :=
  (as.filter fun a => a.1 = t).map fun a => a.2.1.getD 1

/-- What a frequency handling makes of the frequencies given if sums are taken modulo `2 ^ 32`. -/
def CombinedWrapping : FrequencyHandling → List Nat → Nat → Prop
  | .sum, fs, f => f = fs.sum % 2 ^ 32
  | .max, fs, f => f ∈ fs ∧ ∀ x ∈ fs, x ≤ f
  | .min, fs, f => f ∈ fs ∧ ∀ x ∈ fs, f ≤ x
  | .replace, fs, f => fs.getLast? = some f

end Verif.Spec
