import Verif.Spec.Learned

/-!
# Specification: what the index of files is
-/
namespace Verif.Spec

open Verif.Model

/-- The words of sources, each as it is first mentioned, without the reserved ones. -/
def wordsOf (as : List (List (List Char × Option Nat × VocabParams))) : List (List Char) :=
  firsts id ((as.flatten.map Prod.fst).filter fun t => ¬ Reserved t)

/-- The index of words: lines with a number and words, separated by tabs.  The number is the anagram value of
all words on the line (the product of the primes of the symbols), no two lines have the same number, and each
word is on a line.  The words of a line are in the order of the sources. -/
def IndexOf (alphabet : List (List (List Char))) (words : List (List Char)) (lines : List (Nat × List (List Char)))
    (s : List Char) : Prop :=
  s = (lines.flatMap fun l => Nat.toDigits 10 l.1 ++ (l.2.flatMap fun t => '\t' :: t) ++ ['\n']) ∧
    (lines.map Prod.fst).Nodup ∧ (∀ t ∈ words, ∃ l ∈ lines, t ∈ l.2) ∧
    ∀ l ∈ lines, l.2 ≠ [] ∧ l.2.Sublist words ∧ ∀ t, t ∈ l.2 ↔ t ∈ words ∧
      ∃ codes, Encodes alphabet alphabet.length t codes ∧ bagValue codes = l.1

end Verif.Spec
