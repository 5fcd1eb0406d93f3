import Verif.Spec.Resources
import Verif.Spec.SimilarRuns

/-!
# Specification: texts for which the lists give corrections
-/
namespace Verif.Spec

open Verif.Model

/-- Every word of which the text is given as a variant or error is there, with at least the score that is given
(rounded). -/
def Corrected (r : Rounding) (ks : List (List Char × List Char × Rat)) (text : List Char)
    (found : List (List Char × Rat)) : Prop :=
  ∀ k ∈ ks, k.2.1 = text → k.1 ≠ text → ∃ u ∈ found, u.1 = k.1 ∧ r.rnd k.2.2 ≤ u.2

/-- The text is given as an error of another word, and as nothing else. -/
structure OnlyError (as : List (List (List Char × Option Nat × VocabParams)))
    (ks : List (List Char × List Char × Rat)) (text : List Char) : Prop where
  error : ∃ k ∈ ks, k.2.1 = text ∧ k.1 ≠ text
  only : ∀ a ∈ as.flatten, a.1 = text → a.2.2.vocabType.transparent = true
  noReference : ∀ k ∈ ks, k.1 ≠ text

end Verif.Spec
