import Verif.Spec.Tool

/-!
# Specification: which options make a difference
-/
namespace Verif.Spec

open Verif.Model

/-- The options that make a difference to what a query prints. -/
def queryRelevant : List OptName :=
  [.alphabet, .lexicon, .variants, .errors, .confusables, .earlyConfusables, .outputLexmatch, .json, .stopExact,
   .scoreThreshold, .cutoffThreshold, .freqRanking, .singleThread, .interactive, .weightLd, .weightLcs,
   .weightPrefix, .weightSuffix, .weightCase, .maxAnagramDistance, .maxEditDistance, .maxMatches]

/-- Those that make a difference to a search in texts besides. -/
def textRelevant : List OptName :=
  [.contextrules, .maxNgramOrder, .maxSeq, .lm, .weightLm, .weightVariantModel, .weightContextrules]

/-- The options that make a difference to what is printed or written. -/
def relevantTo : Subcommand → List OptName
  | .testinput => [.alphabet]
  | .index => [.alphabet, .lexicon, .variants, .errors]
  | .query => queryRelevant
  | .search => queryRelevant ++ textRelevant ++ [.perLine, .retainLinebreaks]
  | .learn => queryRelevant ++ textRelevant ++ [.iterations, .multiOutput, .strict]

/-- The options that are accepted but never make a difference. -/
def idleOptions : List OptName := [.lmOrder, .weightContext, .allowOverlap, .unicodeOffsets, .progress]

/-- The given options, with their values, that are in the list. -/
def givenIn (os : List OptName) (c : CommandLine) : List (OptName × List Char) :=
  c.given.filter fun g => g.1 ∈ os

/-- The given options, with their values, that are not in the list. -/
def givenOutside (os : List OptName) (c : CommandLine) : List (OptName × List Char) :=
  c.given.filter fun g => g.1 ∉ os

/-- Numbers that are never used, but must be numbers: the order of the language model, the weight of the
context and the level of debugging (at most 1).  `zero` is about the reading of the default value of the weight. -/
structure IdleNumbers (x : ToolExt) (c : CommandLine) : Prop where
  order : ∀ v, (.lmOrder, v) ∈ c.given → ∃ n, NumberText 255 v n
  context : ∀ v, (.weightContext, v) ∈ c.given → ∃ y, x.parseF32 v = some y
  zero : ∃ y, x.parseF32 "0.0".toList = some y
  debug : c.debug = none ∨ ∃ v n, c.debug = some v ∧ NumberText 255 v n ∧ n ≤ 1

end Verif.Spec
