import Verif.Model.Load

/-!
# The options of the command line tool (`src/bin/analiticcl.rs`)

Parsing the command line is the work of clap, of which this much is modelled: an option is given on the
command line in its long form, and asked for by the name it is declared with; if it is not given, it has
its default value, if there is one; a name that is not declared is never present.  (Short forms stand for
long forms.  Missing or surplus options and values make clap end the program.)
-/
namespace Verif.Model

/-- The strings that occur as names or long forms of arguments in src/bin/analiticcl.rs:656-966 and
1113-1245. -/
inductive OptName where
  | lexicon | variants | errors | alphabet | confusables | earlyConfusables | contextrules
  | outputLexmatch | json | progress | stopExact | scoreThreshold | cutoffThreshold | freqRanking
  | singleThread | interactive | weightLd | weightLcs | weightPrefix | weightSuffix | weightCase
  | maxAnagramDistance | maxEditDistance | maxMatches
  /-- `unicodeoffsets` -/
  | unicodeoffsets
  /-- `unicode-offsets` -/
  | unicodeOffsets
  | perLine | retainLinebreaks | maxNgramOrder | maxSeq | lm | lmOrder | weightLm | weightVariantModel
  | weightContextrules | weightContext | allowOverlap | iterations | multiOutput | strict | debug
  deriving DecidableEq

/-- A declared argument: the name, the long form, and the default value. -/
structure ArgDecl where
  name : OptName
  long : OptName
  default : Option (List Char) := none

/-- `common_arguments` (the input files are not modelled here).  Models
src/bin/analiticcl.rs:656-832. -/
def commonArguments : List ArgDecl :=
  [⟨.lexicon, .lexicon, none⟩, ⟨.variants, .variants, none⟩, ⟨.errors, .errors, none⟩,
   ⟨.alphabet, .alphabet, none⟩, ⟨.confusables, .confusables, none⟩,
   ⟨.earlyConfusables, .earlyConfusables, none⟩, ⟨.contextrules, .contextrules, none⟩,
   ⟨.outputLexmatch, .outputLexmatch, none⟩, ⟨.json, .json, none⟩, ⟨.progress, .progress, none⟩,
   ⟨.stopExact, .stopExact, none⟩, ⟨.scoreThreshold, .scoreThreshold, some "0.25".toList⟩,
   ⟨.cutoffThreshold, .cutoffThreshold, some "2.0".toList⟩, ⟨.freqRanking, .freqRanking, none⟩,
   ⟨.singleThread, .singleThread, none⟩, ⟨.interactive, .interactive, none⟩,
   ⟨.weightLd, .weightLd, some "0.5".toList⟩, ⟨.weightLcs, .weightLcs, some "0.125".toList⟩,
   ⟨.weightPrefix, .weightPrefix, some "0.125".toList⟩,
   ⟨.weightSuffix, .weightSuffix, some "0.125".toList⟩,
   ⟨.weightCase, .weightCase, some "0.125".toList⟩,
   ⟨.maxAnagramDistance, .maxAnagramDistance, some "3".toList⟩,
   ⟨.maxEditDistance, .maxEditDistance, some "2".toList⟩, ⟨.maxMatches, .maxMatches, some "10".toList⟩,
   ⟨.unicodeoffsets, .unicodeOffsets, none⟩]

/-- `search_arguments`.  Models src/bin/analiticcl.rs:834-895. -/
def searchArguments : List ArgDecl :=
  [⟨.perLine, .perLine, none⟩, ⟨.retainLinebreaks, .retainLinebreaks, none⟩,
   ⟨.maxNgramOrder, .maxNgramOrder, some "3".toList⟩, ⟨.maxSeq, .maxSeq, some "250".toList⟩,
   ⟨.lm, .lm, none⟩, ⟨.lmOrder, .lmOrder, some "3".toList⟩, ⟨.weightLm, .weightLm, some "1.0".toList⟩,
   ⟨.weightVariantModel, .weightVariantModel, some "3.0".toList⟩,
   ⟨.weightContextrules, .weightContextrules, some "1.0".toList⟩,
   ⟨.weightContext, .weightContext, some "0.0".toList⟩, ⟨.allowOverlap, .allowOverlap, none⟩]

/-- The subcommands.  Models src/bin/analiticcl.rs:904-952. -/
inductive Subcommand where
  | query | index | testinput | search | learn
  deriving DecidableEq

/-- The arguments declared for a subcommand.  Models src/bin/analiticcl.rs:904-952. -/
def Subcommand.declared : Subcommand → List ArgDecl
  | .search => commonArguments ++ searchArguments
  | .learn => commonArguments ++ [⟨.iterations, .iterations, some "1".toList⟩,
      ⟨.multiOutput, .multiOutput, none⟩, ⟨.strict, .strict, none⟩] ++ searchArguments
  | _ => commonArguments

/-- A command line: the subcommand, the options after it in their long form with their values (empty
for a flag), and the value of `--debug` before it. -/
structure CommandLine where
  sub : Subcommand
  given : List (OptName × List Char)
  debug : Option (List Char)

/-- The values given for a long form. -/
def CommandLine.values (c : CommandLine) (long : OptName) : List (List Char) :=
  (c.given.filter fun g => g.1 = long).map Prod.snd

/-- clap's `values_of`, with no values if there are none. -/
def CommandLine.valuesOf (c : CommandLine) (name : OptName) : List (List Char) :=
  match c.sub.declared.find? fun d => d.name = name with
  | none => []
  | some d => if c.values d.long = [] then d.default.toList else c.values d.long

/-- clap's `value_of`. -/
def CommandLine.valueOf (c : CommandLine) (name : OptName) : Option (List Char) := (c.valuesOf name).head?

/-- clap's `is_present`, which also holds for default values. -/
def CommandLine.isPresent (c : CommandLine) (name : OptName) : Bool := (c.valueOf name).isSome

/-- `.value_of(..).unwrap().parse().expect(..)` -/
def CommandLine.parsed {α : Type} (c : CommandLine) (name : OptName) (parse : List Char → Option α) :
    Res α :=
  match c.valueOf name with
  | none => .error .expect
  | some v =>
    match parse v with
    | none => .error .expect
    | some a => .ok a

/-- `if let Some(value) = .. { .. } else { .. }` and `if args.is_present(..) { .. } else { .. }` -/
def CommandLine.parsedOr {α : Type} (c : CommandLine) (name : OptName) (parse : List Char → Option α)
    (d : α) : Res α :=
  if c.isPresent name then c.parsed name parse else .ok d

/-- `SearchParameters`.  Models src/types.rs:111-168. -/
structure SearchParameters where
  maxAnagramDistance : ParsedThreshold
  maxEditDistance : ParsedThreshold
  maxMatches : Nat
  scoreThreshold : EFloat
  cutoffThreshold : EFloat
  stopCriterion : StopCriterion
  maxNgram : Nat
  lmOrder : Nat
  maxSeq : Nat
  singleThread : Bool
  contextWeight : EFloat
  variantmodelWeight : EFloat
  lmWeight : EFloat
  contextrulesWeight : EFloat
  freqWeight : EFloat
  consolidateMatches : Bool
  unicodeoffsets : Bool

/-- `default`.  Models src/types.rs:171-191. -/
def SearchParameters.default : SearchParameters :=
  { maxAnagramDistance := .absolute 3, maxEditDistance := .absolute 3, maxMatches := 20
    scoreThreshold := .fin (1 / 4), cutoffThreshold := .fin 2, stopCriterion := .exhaustive
    maxNgram := 3, lmOrder := 3, singleThread := false, maxSeq := 250, contextWeight := .fin 0
    freqWeight := .fin 0, variantmodelWeight := .fin 3, lmWeight := .fin 1
    contextrulesWeight := .fin 1, consolidateMatches := true, unicodeoffsets := false }

/-- The search parameters of a command line; `debug` is asked for among the arguments of the subcommand.
Models src/bin/analiticcl.rs:1122-1176. -/
def CommandLine.searchParameters (parseF32 parseF64 : List Char → Option EFloat) (c : CommandLine) :
    Res SearchParameters := do
  let maxAnagramDistance ← c.parsed .maxAnagramDistance (parseThreshold parseF32)
  let maxEditDistance ← c.parsed .maxEditDistance (parseThreshold parseF32)
  let maxMatches ← c.parsed .maxMatches (parseUnsigned (2 ^ 64 - 1))
  let scoreThreshold ← c.parsed .scoreThreshold parseF64
  let cutoffThreshold ← c.parsed .cutoffThreshold parseF64
  let maxNgram ← c.parsedOr .maxNgramOrder (parseUnsigned 255) 1
  let freqWeight ← c.parsedOr .freqRanking parseF32 (.fin 0)
  let lmOrder ← c.parsedOr .lmOrder (parseUnsigned 255) 1
  let lmWeight ← c.parsedOr .weightLm parseF32 (.fin 1)
  let variantmodelWeight ← c.parsedOr .weightVariantModel parseF32 (.fin 1)
  let contextWeight ← c.parsedOr .weightContext parseF32 (.fin 1)
  let contextrulesWeight ← c.parsedOr .weightContextrules parseF32 (.fin 1)
  let maxSeq ← c.parsedOr .maxSeq (parseUnsigned (2 ^ 64 - 1)) 250
  return { maxAnagramDistance, maxEditDistance, maxMatches, scoreThreshold, cutoffThreshold
           stopCriterion := if c.isPresent .stopExact then .stopAtExactMatch else .exhaustive
           singleThread := c.isPresent .singleThread || c.isPresent .debug || c.isPresent .interactive
           consolidateMatches := !c.isPresent .allowOverlap
           maxNgram, freqWeight, lmOrder, lmWeight, variantmodelWeight, contextWeight
           contextrulesWeight, maxSeq, unicodeoffsets := c.isPresent .unicodeOffsets }

/-- The weights of the components of a score, in the order of `Weights`.  Models
src/bin/analiticcl.rs:968-995. -/
def CommandLine.weights (parseF64 : List Char → Option EFloat) (c : CommandLine) : Res (List EFloat) := do
  let ld ← c.parsed .weightLd parseF64
  let lcs ← c.parsed .weightLcs parseF64
  let prefix' ← c.parsed .weightPrefix parseF64
  let suffix ← c.parsed .weightSuffix parseF64
  let case ← c.parsed .weightCase parseF64
  return [ld, lcs, prefix', suffix, case]

/-- The values given for a long form with their positions, which clap counts by a function `pos` of the
index of the option. -/
def CommandLine.indexed (pos : Nat → Nat) (c : CommandLine) (long : OptName) : List (List Char × Nat) :=
  (c.given.zipIdx.filter fun g => g.1.1 = long).map fun g => (g.1.2, pos g.2)

/-- The arguments that say what to load.  Models src/bin/analiticcl.rs:998, 1030-1050, 1070-1075,
1084-1090, 1097-1103. -/
def CommandLine.loadArgs (pos : Nat → Nat) (c : CommandLine) : Res LoadArgs :=
  match c.valueOf .alphabet with
  | none => .error .expect
  | some alphabet =>
    .ok { alphabet, lexicons := c.indexed pos .lexicon, variants := c.indexed pos .variants
          errors := c.indexed pos .errors, lm := c.valuesOf .lm, confusables := c.valuesOf .confusables
          contextrules := c.valuesOf .contextrules }

end Verif.Model
