import Verif.Spec.SimilarRuns
import Verif.Spec.SimilarText
import Verif.Spec.RunTotal

/-!
# Specification: searches for single words with lexicons
-/
namespace Verif.Spec

open Verif.Model

/-- The words of an input, by groups of lines. -/
def TextWords (isAlpha : Char → Bool) (c : CommandLine) (lines : List (Option (List Char)))
    (words : List (List (Nat × List Char))) : Prop :=
  ∃ perLine sep gs, (perLine = true ↔ Given c .perLine) ∧
    ((Given c .retainLinebreaks ∧ sep = '\n') ∨ (¬ Given c .retainLinebreaks ∧ sep = ' ')) ∧
    Groups perLine (untilError lines) gs ∧
    List.Forall₂ (fun g ws => WordsOf isAlpha ([sep].intercalate g) ws) gs words

/-- The row for a word of a text: the word, its offsets in bytes, and the words found for it with their
scores. -/
def wordPrinted (x : ToolExt) (u : Nat × List Char) (found : List (List Char × Rat)) : List Char :=
  u.2 ++ '\t' :: Nat.toDigits 10 u.1 ++ ':' :: Nat.toDigits 10 (u.1 + byteLen u.2) ++
    (found.flatMap fun v => '\t' :: v.1 ++ '\t' :: x.showF v.2 ++ ['\t']) ++ ['\n']

/-- What is printed for an input: the rows for its words, with an empty line between groups that have
words. -/
def textPrinted (x : ToolExt) (gs : List (List ((Nat × List Char) × List (List Char × Rat)))) : List Char :=
  ['\n'].intercalate ((gs.filter fun g => !g.isEmpty).map fun g => g.flatMap fun u => wordPrinted x u.1 u.2)

/-- The run of the tool is a search for single words in `inputs` with this alphabet and words from lexicons,
and with these weights and parameters; everything that is needed is there, and no word is too long. -/
structure PlainSearch (x : ToolExt) (c : CommandLine) (files : List (List Char)) (alphabet : Alphabet)
    (as : List (List (List Char × Option Nat × VocabParams))) (w : Weights) (p : Params)
    (inputs : List (List (Option (List Char)))) : Prop where
  semicolon : ∀ s, ';' ∈ s → x.parseF32 s = none
  positions : StrictMono x.pos
  marks : MarksOk x.load.isSpace
  space : x.load.isSpace '\\' = false
  blank : x.text.isAlpha ' ' = false
  accepted : Accepted c
  search : c.sub = .search
  options : ∀ o ∈ [OptName.json, .outputLexmatch, .variants, .errors, .confusables, .lm, .contextrules,
    .stopExact], ¬ Given c o
  words : UsableFiles x c as
  some : as.flatten ≠ []
  unreserved : ∀ a ∈ as.flatten, ¬ Reserved a.1
  letters : ∃ afile alines, (.alphabet, afile) ∈ c.given ∧ x.load.file afile = .some alines ∧
    List.Forall₂ (AlphabetLine x.load.isSpace) (nonEmpty alines) alphabet
  numbers : ∃ q, UsableNumbers x c w q ∧ q.variant = p ∧ q.maxNgram = 1
  texts : InputsOf x files inputs
  weight : 0 ≤ p.freqWeight
  short : ∀ lines ∈ inputs, ∀ text, SearchedIn c lines text → ∀ b t, WordAt x.text.isAlpha text b t →
    ShortEnough x.text alphabet p t

end Verif.Spec
