import Verif.Spec.Similar
import Verif.Spec.Tool

/-!
# Specification: the words of a text and the words that are similar to them
-/
namespace Verif.Spec

open Verif.Model

/-- At byte `b` of the text is the word `t`: letters, with no letter before or after them. -/
def WordAt (isAlpha : Char → Bool) (text : List Char) (b : Nat) (t : List Char) : Prop :=
  ∃ pre post, text = pre ++ t ++ post ∧ b = byteLen pre ∧ t ≠ [] ∧ (∀ c ∈ t, isAlpha c = true) ∧
    (∀ c ∈ pre.getLast?, isAlpha c = false) ∧ (∀ c ∈ post.head?, isAlpha c = false)

/-- All words of the text, in order. -/
structure WordsOf (isAlpha : Char → Bool) (text : List Char) (ws : List (Nat × List Char)) : Prop where
  order : ws.Pairwise fun u v => u.1 < v.1
  mem : ∀ b t, (b, t) ∈ ws ↔ WordAt isAlpha text b t

/-- The row for a word of a text: the word, its offsets in bytes, and the columns for it. -/
def WordRow (columns : List Char → List (List Char) → Prop) (u : Nat × List Char) (row : List Char) : Prop :=
  ∃ cols, columns u.2 cols ∧
    row = u.2 ++ '\t' :: Nat.toDigits 10 u.1 ++ ':' :: Nat.toDigits 10 (u.1 + byteLen u.2) ++
      cols.flatten ++ ['\n']

/-- What is printed for an input: the lines are joined in groups, and the rows for the words of each group
are printed, with an empty line between groups that have words. -/
def WordsText (x : ToolExt) (c : CommandLine) (columns : List Char → List (List Char) → Prop)
    (lines : List (Option (List Char))) (text : List Char) : Prop :=
  ∃ perLine sep gs words rows, (perLine = true ↔ Given c .perLine) ∧
    ((Given c .retainLinebreaks ∧ sep = '\n') ∨ (¬ Given c .retainLinebreaks ∧ sep = ' ')) ∧
    Groups perLine (untilError lines) gs ∧
    List.Forall₂ (fun g ws => WordsOf x.text.isAlpha ([sep].intercalate g) ws) gs words ∧
    List.Forall₂ (List.Forall₂ (WordRow columns)) words rows ∧
    text = ['\n'].intercalate ((rows.filter fun r => r ≠ []).map List.flatten)

/-- What is printed for an input, where words of the lexicons (`as`, with names `names`) are shown. -/
def SimilarText (x : ToolExt) (c : CommandLine) (alphabet : Alphabet) (names : List (List Char))
    (as : List (List (List Char × Option Nat × VocabParams))) (w : Weights) (p : Params) :
    List (Option (List Char)) → List Char → Prop :=
  WordsText x c (SimilarColumns x c alphabet names as w p)

end Verif.Spec
