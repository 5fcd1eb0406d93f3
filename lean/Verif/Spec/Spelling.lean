import Verif.Spec.Modes

/-!
# Specification: spellings that an alphabet does not distinguish
-/
namespace Verif.Spec

/-- The two texts are written with the same symbols of the alphabet, in the same order: they differ only by
strings on the same line of the alphabet, and by characters that are not in it. -/
def SameSpelling (alphabet : List (List (List Char))) (s t : List Char) : Prop :=
  ∃ codes, Encodes alphabet alphabet.length s codes ∧ Encodes alphabet alphabet.length t codes

/-- Both begin with a lowercase letter, or neither does. -/
def SameCase (isLower : Char → Bool) (s t : List Char) : Prop :=
  ∀ c ∈ s.head?, ∀ d ∈ t.head?, isLower c = isLower d

end Verif.Spec
