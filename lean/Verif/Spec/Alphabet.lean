import Mathlib.Data.List.Basic
import Mathlib.Data.List.Infix

/-!
# Specification: encoding a text by an alphabet

Independent of the model.  An alphabet is a list of entries, an entry a list of strings.
-/
namespace Verif.Spec

/-- `e` is the first string of the alphabet, in file order, that `text` starts with, and it stands
on line `i`. -/
structure FirstMatch (alphabet : List (List (List Char))) (text : List Char) (i : Nat)
    (e : List Char) : Prop where
  hit : ∃ pre post, alphabet[i]? = some (pre ++ e :: post) ∧ ∀ x ∈ pre, ¬ x <+: text
  isPrefix : e <+: text
  earlier : ∀ j < i, ∀ entry, alphabet[j]? = some entry → ∀ x ∈ entry, ¬ x <+: text

/-- The greedy encoding of a text: at each point the first matching string is consumed and its line
recorded, or, if none matches, one character is consumed and `unk` recorded. -/
inductive Encodes (alphabet : List (List (List Char))) (unk : Nat) : List Char → List Nat → Prop
  | nil : Encodes alphabet unk [] []
  | hit {i : Nat} {e rest : List Char} {codes : List Nat} (h : FirstMatch alphabet (e ++ rest) i e)
      (hne : e ≠ []) (hrest : Encodes alphabet unk rest codes) :
      Encodes alphabet unk (e ++ rest) (i :: codes)
  | miss {c : Char} {rest : List Char} {codes : List Nat}
      (h : ∀ entry ∈ alphabet, ∀ x ∈ entry, ¬ x <+: c :: rest)
      (hrest : Encodes alphabet unk rest codes) :
      Encodes alphabet unk (c :: rest) (unk :: codes)

/-- No alphabet entry contains the empty string. -/
def NoEmpty (alphabet : List (List (List Char))) : Prop :=
  ∀ entry ∈ alphabet, [] ∉ entry

instance (alphabet : List (List (List Char))) : Decidable (NoEmpty alphabet) :=
  inferInstanceAs (Decidable (∀ entry ∈ alphabet, [] ∉ entry))

end Verif.Spec
