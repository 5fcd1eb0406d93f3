import Verif.Spec.Similar
import Verif.Spec.Load

/-!
# Specification: which lines can be searched for
-/
namespace Verif.Spec

open Verif.Model

/-- A word that is looked up: some source has it, it is not a reserved one, and the first source that has it
has it looked up. -/
def Sought (as : List (List (List Char × Option Nat × VocabParams))) (t : List Char) : Prop :=
  ¬ Reserved t ∧ ∃ b bs, addsOf t as.flatten = b :: bs ∧ b.2.vocabType.check .INDEXED = true

/-- The symbols of the text and the allowed anagram distance together are fewer than 65536. -/
def FitsCounter (f32 : Rounding) (alphabet : Alphabet) (p : Params) (text : List Char) : Prop :=
  ∃ qs n, Encodes alphabet (alphabet.length + 1) text qs ∧ Allowed f32 qs.length p.maxAnagramDistance n ∧
    qs.length + n < 65536

/-- Two texts are anagrams of one another. -/
def Anagrams (alphabet : Alphabet) (s t : List Char) : Prop :=
  ∃ a c, Encodes alphabet alphabet.length s a ∧ Encodes alphabet alphabet.length t c ∧ a.Perm c

/-- A line can be searched for among words: there are none; or it is not empty, and not too long unless the
search stops at the anagrams of it and there are any. -/
def Searchable (f32 : Rounding) (alphabet : Alphabet) (p : Params) (sought : List Char → Prop)
    (text : List Char) : Prop :=
  (∀ t, ¬ sought t) ∨ text ≠ [] ∧ (FitsCounter f32 alphabet p text ∨
    p.stopCriterion = .stopAtExactMatch ∧ ∃ t, sought t ∧ Anagrams alphabet text t)

end Verif.Spec
