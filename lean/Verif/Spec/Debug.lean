import Verif.Spec.Alphabet
import Verif.Model.Nearest

/-!
# Specification of what the level of debugging adds
-/
namespace Verif.Spec
open Verif.Model

/-- The line with this index begins with this string. -/
def LineBegins (alphabet : List (List (List Char))) (i : Nat) (s : List Char) : Prop :=
  ∃ more, alphabet[i]? = some (s :: more)

/-- A bag of symbols is shown as these strings: the first of each symbol's line, the last line first. -/
def ShownAs (alphabet : List (List (List Char))) (a : List Nat) (ss : List (List Char)) : Prop :=
  ∃ d : List Nat, d.Perm a ∧ d.Pairwise (· ≥ ·) ∧ List.Forall₂ (LineBegins alphabet) d ss

/-- Some entry that can be found has the symbols of the bag. -/
def AnagramKnown (alphabet : List (List (List Char))) (m : Vm) (a : List Nat) : Prop :=
  ∃ v ∈ m.decoder, v.vocabtype.check .INDEXED = true ∧
    ∃ c, Encodes alphabet alphabet.length v.text c ∧ c.Perm a

/-- The search for a text with the symbols `a`, with distance `k`, looks at a part of the text (of at least
one symbol, without at least one) in which there is a symbol that is in no line of the alphabet. -/
structure MeetsUnknown (alphabet : List (List (List Char))) (m : Vm) (stop : StopCriterion) (k : Nat)
    (a : List Nat) : Prop where
  some : ∃ v ∈ m.decoder, v.vocabtype.check .INDEXED = true
  unknown : alphabet.length ∈ a
  two : 2 ≤ a.length
  distance : 1 ≤ k
  goesOn : ¬ (stop = .stopAtExactMatch ∧ AnagramKnown alphabet m a)

end Verif.Spec
