import Verif.Spec.Similar
import Verif.Spec.Spelling

/-!
# Specification: correct words
-/
namespace Verif.Spec

open Verif.Model

/-- The sum of the weights. -/
def weightSum (w : Weights) : Rat := w.ld + w.lcs + w.pre + w.suf + w.case

/-- The weight is not negligible: at least the 2⁻³⁷th part of all weights. -/
def Counts (w : Weights) (part : Rat) : Prop := weightSum w ≤ 2 ^ 37 * part

/-- No other word of the lexicons is written with the same symbols and, if case counts, with the same case of
the first letter. -/
def Alone (isLower : Char → Bool) (alphabet : Alphabet) (as : List (List (List Char × Option Nat × VocabParams)))
    (w : Weights) (text : List Char) : Prop :=
  ∀ a ∈ as.flatten, SameSpelling alphabet text a.1 → (Counts w w.case → SameCase isLower text a.1) → a.1 = text

/-- The text itself comes first, with score 1; what follows has lower scores. -/
def ItselfFirst (text : List Char) (found : List (List Char × Rat)) : Prop :=
  ∃ rest, found = (text, 1) :: rest ∧ ∀ u ∈ rest, u.2 < 1

end Verif.Spec
