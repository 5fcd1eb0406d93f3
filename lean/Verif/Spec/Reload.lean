import Verif.Spec.Learned

/-!
# Specification: what was learned, as a variant list
-/
namespace Verif.Spec

open Verif.Model

/-- A line without the carriage return at its end. -/
def withoutReturn (l : List Char) : List Char := if l.getLast? = some '\r' then l.dropLast else l

/-- The lines of a file with this text: each ends with a newline, and a carriage return before it does not
count. -/
def HasLines (text : List Char) (lines : List (Option (List Char))) : Prop :=
  ∃ ls : List (List Char), (∀ l ∈ ls, '\n' ∉ l) ∧ text = (ls.map (· ++ ['\n'])).flatten ∧
    lines = ls.map fun l => some (withoutReturn l)

/-- What was learned about words, as entries of a variant list without frequencies. -/
def learnedEntries (ks : List (List Char × List Char × Rat)) (words : List (List Char)) : List VariantEntry :=
  (words.filter fun w => variantsIn ks w ≠ []).map fun w =>
    ⟨w, none, (variantsIn ks w).map fun v => (v.1, v.2, none)⟩

/-- No variant is taken for a frequency: there are entries with 2, 5, 8 and so on variants of which the first
is not written as a number, and after these an entry with another number of variants, or none. -/
inductive NotCounts : List VariantEntry → Prop
  | nil : NotCounts []
  | other {e es} : e.variants.length % 3 ≠ 2 → NotCounts (e :: es)
  | next {e es} : e.variants.length % 3 = 2 →
      (∀ v ∈ e.variants.head?, ∀ n, ¬ NumberText (2 ^ 32 - 1) v.1 n) → NotCounts es → NotCounts (e :: es)

/-- What was learned can be written in a list: texts have no tabs and newlines, and scores are read as they
are written. -/
structure Readable (showF : Rat → List Char) (parseF64 : List Char → Option Rat)
    (ks : List (List Char × List Char × Rat)) (words : List (List Char)) : Prop where
  words : ∀ w ∈ words, '\t' ∉ w ∧ '\n' ∉ w
  variants : ∀ k ∈ ks, '\t' ∉ k.2.1 ∧ '\n' ∉ k.2.1
  scores : ∀ k ∈ ks, parseF64 (showF k.2.2) = some k.2.2
  shown : ∀ k ∈ ks, '\t' ∉ showF k.2.2 ∧ '\n' ∉ showF k.2.2 ∧ (showF k.2.2).getLast? ≠ some '\r'

/-- The links that entries of a list give. -/
def linksOf (es : List VariantEntry) : List (List Char × List Char × Rat) :=
  es.flatMap fun e => e.variants.map fun v => (e.reference, v.1, v.2.1)

end Verif.Spec
