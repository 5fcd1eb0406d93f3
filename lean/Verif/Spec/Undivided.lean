import Verif.Spec.Correct
import Verif.Spec.Divided
import Verif.Spec.SimilarSearch

/-!
# Specification: searches for stretches of words in correct texts
-/
namespace Verif.Spec

open Verif.Model

/-- Every word of the text is a word of the lexicons, and other words of the lexicons get a score for it that is
lower than 1 by at least `m`. -/
def CorrectText (x : TextExt) (alphabet : Alphabet) (as : List (List (List Char × Option Nat × VocabParams)))
    (w : Weights) (p : Params) (m : Rat) (text : List Char) : Prop :=
  ∀ b t, WordAt x.isAlpha text b t → (∃ a ∈ as.flatten, a.1 = t) ∧
    ∀ a ∈ as.flatten, ∀ s, Near x alphabet w p t a.1 s → a.1 = t ∨ s ≤ 1 - m

/-- The words of the text come in batches that are small enough for a difference of `m` to show in the sum of their
costs, which is off by a fraction `e n` for `n` words. -/
def SmallBatches (isAlpha : Char → Bool) (e : Nat → Rat) (m : Rat) (text : List Char) : Prop :=
  ∀ segs, Segmented isAlpha text segs → ∀ g ∈ batches [] segs, 0 ≤ e g.length ∧ 4 * e g.length * (g.length + 99) < m

/-- The run of the tool is a search for stretches of several words in `inputs` with this alphabet and words from
lexicons, and with these weights and parameters; everything that is needed is there, and no stretch is too long. -/
structure StretchSearch (x : ToolExt) (c : CommandLine) (files : List (List Char)) (alphabet : Alphabet)
    (as : List (List (List Char × Option Nat × VocabParams))) (w : Weights) (p : TextParams)
    (inputs : List (List (Option (List Char)))) : Prop where
  semicolon : ∀ s, ';' ∈ s → x.parseF32 s = none
  positions : StrictMono x.pos
  marks : MarksOk x.load.isSpace
  space : x.load.isSpace '\\' = false
  blank : x.text.isAlpha ' ' = false
  accepted : Accepted c
  search : c.sub = .search
  options : ∀ o ∈ [OptName.json, .outputLexmatch, .variants, .errors, .confusables, .lm, .contextrules,
    .stopExact], ¬ Given c o
  words : UsableFiles x c as
  some : as.flatten ≠ []
  unreserved : ∀ a ∈ as.flatten, ¬ Reserved a.1
  letters : ∃ afile alines, (.alphabet, afile) ∈ c.given ∧ x.load.file afile = .some alines ∧
    List.Forall₂ (AlphabetLine x.load.isSpace) (nonEmpty alines) alphabet
  numbers : UsableNumbers x c w p
  several : 2 ≤ p.maxNgram
  sequences : 1 ≤ p.maxSeq
  texts : InputsOf x files inputs
  short : ∀ lines ∈ inputs, ∀ text, SearchedIn c lines text → ShortRuns x.text alphabet p.variant p.maxNgram text

end Verif.Spec
