import Verif.Model.Options
import Verif.Spec.Files

/-!
# Specification: what a command line asks for
-/
namespace Verif.Spec

open Verif.Model

/-- `s` is written as a threshold: a number up to 255, a ratio between 0 and 1, or a ratio and a limit. -/
inductive ThresholdText (parseF32 : List Char → Option EFloat) : List Char → ParsedThreshold → Prop
  | absolute {s n} : NumberText 255 s n → ThresholdText parseF32 s (.absolute n)
  | ratio {s q} : (∀ n, ¬ NumberText 255 s n) → parseF32 s = some (.fin q) → 0 ≤ q → q ≤ 1 →
      ThresholdText parseF32 s (.ratio (.fin q))
  | limit {a b x n} : parseF32 a = some x → NumberText 255 b n →
      ThresholdText parseF32 (a ++ ';' :: b) (.ratioWithLimit x n)

/-- The option is on the command line. -/
def Given (c : CommandLine) (o : OptName) : Prop := ∃ v, (o, v) ∈ c.given

/-- The value of an option: what is given, or else the default. -/
def InForce (c : CommandLine) (o : OptName) (default v : List Char) : Prop :=
  (o, v) ∈ c.given ∨ (¬ Given c o ∧ v = default)

/-- The options that may be repeated. -/
def repeatable : List OptName := [.lexicon, .variants, .errors, .confusables, .contextrules, .lm]

/-- The options of all subcommands but `testinput`, in their long form. -/
def commonOptions : List OptName :=
  [.lexicon, .variants, .errors, .alphabet, .confusables, .earlyConfusables, .contextrules,
   .outputLexmatch, .json, .progress, .stopExact, .scoreThreshold, .cutoffThreshold, .freqRanking,
   .singleThread, .interactive, .weightLd, .weightLcs, .weightPrefix, .weightSuffix, .weightCase,
   .maxAnagramDistance, .maxEditDistance, .maxMatches, .unicodeOffsets]

/-- The further options for texts. -/
def textOptions : List OptName :=
  [.perLine, .retainLinebreaks, .maxNgramOrder, .maxSeq, .lm, .lmOrder, .weightLm, .weightVariantModel,
   .weightContextrules, .weightContext, .allowOverlap]

/-- The options of a subcommand. -/
def optionsOf : Subcommand → List OptName
  | .search => commonOptions ++ textOptions
  | .learn => commonOptions ++ textOptions ++ [.iterations, .multiOutput, .strict]
  | _ => commonOptions

/-- A command line that clap accepts: only options of the subcommand, and each only once unless it may
be repeated. -/
def Accepted (c : CommandLine) : Prop :=
  (∀ g ∈ c.given, g.1 ∈ optionsOf c.sub) ∧
    ∀ o ∉ repeatable, ∀ v w, (o, v) ∈ c.given → (o, w) ∈ c.given → v = w

/-- The parameters for texts that a command line asks for. -/
structure TextRequest (parseF32 : List Char → Option EFloat) (c : CommandLine) (p : SearchParameters) :
    Prop where
  ngram : ∃ v, InForce c .maxNgramOrder "3".toList v ∧ NumberText 255 v p.maxNgram
  seq : ∃ v, InForce c .maxSeq "250".toList v ∧ NumberText (2 ^ 64 - 1) v p.maxSeq
  order : ∃ v, InForce c .lmOrder "3".toList v ∧ NumberText 255 v p.lmOrder
  lm : ∃ v, InForce c .weightLm "1.0".toList v ∧ parseF32 v = some p.lmWeight
  variant : ∃ v, InForce c .weightVariantModel "3.0".toList v ∧ parseF32 v = some p.variantmodelWeight
  rules : ∃ v, InForce c .weightContextrules "1.0".toList v ∧ parseF32 v = some p.contextrulesWeight
  context : ∃ v, InForce c .weightContext "0.0".toList v ∧ parseF32 v = some p.contextWeight

/-- The parameters that a command line asks for, but for the offsets. -/
structure Request (parseF32 parseF64 : List Char → Option EFloat) (c : CommandLine)
    (p : SearchParameters) : Prop where
  anagram : ∃ v, InForce c .maxAnagramDistance "3".toList v ∧ ThresholdText parseF32 v p.maxAnagramDistance
  edit : ∃ v, InForce c .maxEditDistance "2".toList v ∧ ThresholdText parseF32 v p.maxEditDistance
  matches' : ∃ v, InForce c .maxMatches "10".toList v ∧ NumberText (2 ^ 64 - 1) v p.maxMatches
  score : ∃ v, InForce c .scoreThreshold "0.25".toList v ∧ parseF64 v = some p.scoreThreshold
  cutoff : ∃ v, InForce c .cutoffThreshold "2.0".toList v ∧ parseF64 v = some p.cutoffThreshold
  freq : (∃ v, (.freqRanking, v) ∈ c.given ∧ parseF32 v = some p.freqWeight) ∨
    (¬ Given c .freqRanking ∧ p.freqWeight = .fin 0)
  stop : p.stopCriterion = .stopAtExactMatch ↔ Given c .stopExact
  single : p.singleThread = true ↔ Given c .singleThread ∨ Given c .interactive
  overlap : p.consolidateMatches = false ↔ Given c .allowOverlap
  text : c.sub = .search ∨ c.sub = .learn → TextRequest parseF32 c p
  noText : ¬ (c.sub = .search ∨ c.sub = .learn) → p.maxNgram = 1 ∧ p.maxSeq = 250 ∧ p.lmOrder = 1 ∧
    p.lmWeight = .fin 1 ∧ p.variantmodelWeight = .fin 1 ∧ p.contextrulesWeight = .fin 1 ∧
    p.contextWeight = .fin 1

/-- The weights that a command line asks for. -/
structure WeightRequest (parseF64 : List Char → Option EFloat) (c : CommandLine)
    (ld lcs pre suf case : EFloat) : Prop where
  ld : ∃ v, InForce c .weightLd "0.5".toList v ∧ parseF64 v = some ld
  lcs : ∃ v, InForce c .weightLcs "0.125".toList v ∧ parseF64 v = some lcs
  pre : ∃ v, InForce c .weightPrefix "0.125".toList v ∧ parseF64 v = some pre
  suf : ∃ v, InForce c .weightSuffix "0.125".toList v ∧ parseF64 v = some suf
  case : ∃ v, InForce c .weightCase "0.125".toList v ∧ parseF64 v = some case

/-- The resource an option names. -/
def resourceOf : OptName × List Char → Option Resource
  | (.lexicon, f) => some (.lexicon f)
  | (.variants, f) => some (.variantList f)
  | (.errors, f) => some (.errorList f)
  | _ => none

end Verif.Spec
