import Verif.Spec.Tool
import Verif.Spec.Python
import Verif.Spec.Document

/-!
# Specification: a Python program for a command line
-/
namespace Verif.Spec

open Verif.Model

/-- The call for an option that names a lexicon or a list of variants or errors. -/
def wordsCall : OptName × List Char → Option PyCall
  | (.lexicon, f) => some (.readLexicon f)
  | (.variants, f) => some (.readVariants f false)
  | (.errors, f) => some (.readVariants f true)
  | _ => none

/-- The call for an option that names a language model. -/
def lmCall : OptName × List Char → Option PyCall
  | (.lm, f) => some (.readLm f)
  | _ => none

/-- The call for an option that names a list of confusables. -/
def confusablesCall : OptName × List Char → Option PyCall
  | (.confusables, f) => some (.readConfusablelist f)
  | _ => none

/-- The call for an option that names a file of context rules. -/
def rulesCall : OptName × List Char → Option PyCall
  | (.contextrules, f) => some (.readContextrules f)
  | _ => none

/-- A program that loads what a command line names: first lexicons and lists of variants and errors, then
language models, confusables and context rules, each in the order of the options. -/
def programFor (c : CommandLine) (o : Orders) : List PyCall :=
  c.given.filterMap wordsCall ++ c.given.filterMap lmCall ++ c.given.filterMap confusablesCall ++
    c.given.filterMap rulesCall ++ [.build o]

/-- The calls are made one after the other without an exception. -/
inductive Runs (x : LoadExt) : Loaded → List PyCall → Loaded → Prop
  | nil {L} : Runs x L [] L
  | cons {L L' L'' c cs} : L.call x c = .ok (L', true) → Runs x L' cs L'' → Runs x L (c :: cs) L''

/-- A Python program with the alphabet of the command line loads what the command line names. -/
def PyLoads (x : ToolExt) (c : CommandLine) (L : Loaded) : Prop :=
  ∃ f L0, (.alphabet, f) ∈ c.given ∧ x.load.pyNew f = .ok L0 ∧ Runs x.load L0 (programFor c x.orders) L

/-- A threshold as an argument. -/
def thresholdArgument : ParsedThreshold → PyVal
  | .absolute n => .int n
  | .ratio q => .float q
  | .ratioWithLimit q n => .pair (.float q) (.int n)

/-- All parameters as keyword arguments; there is none for the order of language models. -/
def keywords (p : SearchParameters) : List (PyKey × PyVal) :=
  [(.maxAnagramDistance, thresholdArgument p.maxAnagramDistance),
   (.maxEditDistance, thresholdArgument p.maxEditDistance),
   (.maxMatches, .int p.maxMatches), (.scoreThreshold, .float p.scoreThreshold),
   (.cutoffThreshold, .float p.cutoffThreshold), (.maxNgram, .int p.maxNgram), (.maxSeq, .int p.maxSeq),
   (.stopAtExactMatch, .bool (p.stopCriterion = .stopAtExactMatch)), (.singleThread, .bool p.singleThread),
   (.unicodeoffsets, .bool p.unicodeoffsets), (.freqWeight, .float p.freqWeight),
   (.lmWeight, .float p.lmWeight), (.contextrulesWeight, .float p.contextrulesWeight),
   (.variantmodelWeight, .float p.variantmodelWeight), (.contextWeight, .float p.contextWeight),
   (.consolidateMatches, .bool p.consolidateMatches)]

/-- The conversions of a Python program in the surroundings of a run. -/
def conversions (x : ToolExt) : PyExt := ⟨x.text.f32, x.text.f64, x.parseF32⟩

/-- The columns for a variant, from the dictionary for it. -/
def dictColumns (showF : Rat → List Char) (lex : Bool) (d : PyVariant) : List Char :=
  '\t' :: d.text ++ '\t' :: showF d.score ++ '\t' ::
    if lex then '\t' :: '"' :: [';'].intercalate d.lexicons ++ ['"'] else []

/-- The row for an input of a query, from the dictionaries for the variants. -/
def dictsRow (showF : Rat → List Char) (lex : Bool) (input : List Char) (ds : List PyVariant) : List Char :=
  input ++ ds.flatMap (dictColumns showF lex) ++ ['\n']

/-- The row for a match of a search, from the dictionary for it. -/
def matchDictRow (showF : Rat → List Char) (lex : Bool) (d : PyMatch) : List Char :=
  d.input ++ '\t' :: Nat.toDigits 10 d.first ++ ':' :: Nat.toDigits 10 d.last ++
    d.variants.flatMap (dictColumns showF lex) ++ ['\n']

/-- The object for a variant, from the dictionary for it. -/
def dictObject (showF : Rat → List Char) (lex : Bool) (d : PyVariant) : Json :=
  .obj ([("text".toList, .str d.text), ("score".toList, .num (showF d.score)),
    ("dist_score".toList, .num (showF d.distScore)), ("freq_score".toList, .num (showF d.freqScore))] ++
    (d.via.map fun t => ("via".toList, Json.str t)).toList ++
    if lex then [("lexicons".toList, .arr (d.lexicons.map .str))] else [])

/-- The text a search prints for an input, from the dictionaries for the matches in each group of lines. -/
def DictText (showF : Rat → List Char) (lex : Bool) (c : CommandLine)
    (find : List Char → Res (List PyMatch)) (lines : List (Option (List Char))) (text : List Char) : Prop :=
  ∃ perLine sep gs found, (perLine = true ↔ Given c .perLine) ∧
    ((Given c .retainLinebreaks ∧ sep = '\n') ∨ (¬ Given c .retainLinebreaks ∧ sep = ' ')) ∧
    Groups perLine (untilError lines) gs ∧
    List.Forall₂ (fun g ds => find ([sep].intercalate g) = .ok ds) gs found ∧
    text = ['\n'].intercalate ((found.filter fun ds => ds ≠ []).map
      (List.flatMap (matchDictRow showF lex)))

/-- The options for parameters of the search. -/
def parameterOptions : List OptName :=
  [.maxAnagramDistance, .maxEditDistance, .maxMatches, .scoreThreshold, .cutoffThreshold, .freqRanking,
   .stopExact, .singleThread, .interactive, .allowOverlap, .maxNgramOrder, .maxSeq, .lmOrder, .weightLm,
   .weightVariantModel, .weightContextrules, .weightContext]

end Verif.Spec
