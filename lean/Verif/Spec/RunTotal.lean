import Verif.Spec.LoadTotal
import Verif.Spec.Tool
import Verif.Spec.Lm
import Verif.Spec.Tokens

/-!
# Specification: command lines and inputs with which the tool succeeds
-/
namespace Verif.Spec

open Verif.Model

/-- The options name these resources: the alphabet, then lexicons, variant lists and error lists in the
order given, then language models, confusables and context rules. -/
structure Names (c : CommandLine) (args : LoadArgs) : Prop where
  alphabet : (.alphabet, args.alphabet) ∈ c.given
  resources : args.resources = c.given.filterMap resourceOf
  lm : args.lm = c.given.filterMap (fun g => if g.1 = .lm then some g.2 else none)
  confusables : args.confusables =
    c.given.filterMap (fun g => if g.1 = .confusables then some g.2 else none)
  rules : args.contextrules =
    c.given.filterMap (fun g => if g.1 = .contextrules then some g.2 else none)

/-- The command line names resources that can be loaded, with the words `as`, of fewer than 65536
characters each. -/
structure UsableFiles (x : ToolExt) (c : CommandLine)
    (as : List (List (List Char × Option Nat × VocabParams))) : Prop where
  files : ∃ args, Names c args ∧ Loadable x.load args as
  short : ∀ a ∈ as.flatten, a.1.length < 65536

/-- The numbers on the command line can be read, are finite, and the weights do not sum to zero; the level of
debugging is at most 1. -/
structure UsableNumbers (x : ToolExt) (c : CommandLine) (w : Weights) (p : TextParams) : Prop where
  weights : WeightRequest x.parseF64 c (.fin w.ld) (.fin w.lcs) (.fin w.pre) (.fin w.suf) (.fin w.case)
  nonzero : w.sum x.text.f64 ≠ 0
  params : ∃ q, Request x.parseF32 x.parseF64 c q ∧ q.unicodeoffsets = false ∧ Numbers q p
  cutoff : p.variant.cutoffThreshold = 0 ∨ 1 ≤ p.variant.cutoffThreshold
  debug : c.debug = none ∨ ∃ v n, c.debug = some v ∧ NumberText 255 v n ∧ n ≤ 1

/-- A text that is searched when a file with these lines is searched in. -/
def SearchedIn (c : CommandLine) (lines : List (Option (List Char))) (text : List Char) : Prop :=
  ∃ perLine sep gs g, (perLine = true ↔ Given c .perLine) ∧
    ((Given c .retainLinebreaks ∧ sep = '\n') ∨ (¬ Given c .retainLinebreaks ∧ sep = ' ')) ∧
    Groups perLine (untilError lines) gs ∧ g ∈ gs ∧ text = [sep].intercalate g

/-- All stretches of at most `n` words of the text have at most 65280 characters. -/
def ShortStretches (isAlpha : Char → Bool) (n : Nat) (text : List Char) : Prop :=
  ∀ segs a r b, Segmented isAlpha text segs → segs = a ++ r ++ b → r.length ≤ n →
    (stretch r).length ≤ 65280

/-- A line that can be learned from: it has fewer than 255 spaces, and with `--strict` 1 to 65280 characters,
otherwise fewer than 65536 characters in short stretches. -/
structure LearnLine (x : ToolExt) (c : CommandLine) (n : Nat) (l : List Char) : Prop where
  spaces : l.countP (· == ' ') < 255
  strict : Given c .strict → l ≠ [] ∧ l.length ≤ 65280
  lenient : ¬ Given c .strict → ShortStretches x.text.isAlpha n l ∧ l.length < 65536

/-- The number of bytes in the lines of an input, up to one that cannot be read. -/
def bytesOf (lines : List (Option (List Char))) : Nat := ((untilError lines).map byteLen).sum

end Verif.Spec
