import Verif.Model.Options
import Verif.Model.Cli

/-!
# A whole run of the command line tool (`main` of `src/bin/analiticcl.rs`)

The parts of the tool put together: options, loading, searching or learning, and output.  Not modelled
are messages on standard error and a run with parameters or weights that are infinite or not numbers
(the outcome `unmodelled`).  A panic discards the output (the tool would have printed a part of it).
-/
namespace Verif.Model

/-! ## Learning with several output files -/

/-- What is written to the file of a lexicon, by number. -/
abbrev FileWrite := Nat × List Char

/-- The lines written for a variant, in TSV.  Files are told apart by the number of the lexicon (two
lexicons with one name would share a file).  Models src/bin/analiticcl.rs:199-229. -/
def Printer.writesTsv (o : Printer) (v : VocabValue) (score : Rat) : Res (List FileWrite) := do
  let ls ← lexiconsTsv v.lexindex 0 o.vm.lexicons.length
  return ls.map fun i => (i % 256, o.variantLineTsv v.text score v.frequency)

/-- The objects written for a variant, in JSON.  Models src/bin/analiticcl.rs:280-318. -/
def Printer.writesJson (o : Printer) (v : VocabValue) (score : Rat) : Res (List FileWrite) := do
  let ls ← lexiconsJson v.lexindex 0 o.vm.lexicons.length
  return ls.map fun i => (i % 256, o.variantLineJson v.text score v.frequency)

/-- What is written for the variants of a word.  Models src/bin/analiticcl.rs:242-262, 338-360. -/
def Printer.writesAll (w : VocabValue → Rat → Res (List FileWrite)) :
    List (VocabValue × Rat) → Res (List FileWrite)
  | [] => .ok []
  | v :: vs => do
    let l ← w v.1 v.2
    let rest ← Printer.writesAll w vs
    return l ++ rest

/-- `output_weighted_variants_as_tsv` with multiple output: what is printed and what is written to files,
from a part of the decoder on.  Models src/bin/analiticcl.rs:236-268. -/
def Printer.multiTsv (o : Printer) : List VocabValue → Res (List Char × List FileWrite)
  | [] => .ok ([], [])
  | item :: items => do
    let vs ← o.variantsOf (item.variants.getD [])
    let ws ← Printer.writesAll o.writesTsv vs
    let (s, rest) ← o.multiTsv items
    return ((if vs.isEmpty then [] else item.text ++ "\n".toList) ++ s, ws ++ rest)

/-- The loop of `output_weighted_variants_as_json` with multiple output.  Models
src/bin/analiticcl.rs:334-365. -/
def Printer.multiJsonLoop (o : Printer) : List VocabValue → Res (List Char × List FileWrite)
  | [] => .ok ([], [])
  | item :: items => do
    let vs ← o.variantsOf (item.variants.getD [])
    let ws ← Printer.writesAll o.writesJson vs
    let (s, rest) ← o.multiJsonLoop items
    return ((if vs.isEmpty then []
      else "    \"".toList ++ escapeQuotes item.text ++ "\": [ \n".toList ++ "    ]\n".toList) ++ s,
      ws ++ rest)

/-- `output_weighted_variants_as_json` with multiple output.  Models
src/bin/analiticcl.rs:330-367. -/
def Printer.multiJson (o : Printer) : Res (List Char × List FileWrite) := do
  let (s, ws) ← o.multiJsonLoop o.vm.decoder
  return ("{\n".toList ++ s ++ "}\n".toList, ws)

/-- The output of learning.  Models src/bin/analiticcl.rs:551-555. -/
def Printer.learned (o : Printer) (json multi : Bool) : Res (List Char × List FileWrite) :=
  match json, multi with
  | true, true => o.multiJson
  | false, true => o.multiTsv o.vm.decoder
  | true, false => do
    let s ← o.weightedJson
    return (s, [])
  | false, false => do
    let s ← o.weightedTsv o.vm.decoder
    return (s, [])

/-! ## The input test -/

/-- A list of numbers as printed with `{:?}`. -/
def showList (l : List Nat) : List Char := "[".toList ++ ", ".toList.intercalate (l.map showN) ++ "]".toList

/-- The line that the subcommand `testinput` prints, empty for an input with unknown characters (which
is reported on standard error).  Models src/bin/analiticcl.rs:1013-1020. -/
def Vm.testinputLine (m : Vm) (input : List Char) : Res (List Char) := do
  let av ← anahash m.alphabet input
  let norm ← normalizeToAlphabet m.alphabet input
  let unknown ← m.testinput input
  return if unknown then [] else "OK: ".toList ++ input ++ "\t".toList ++ showN av ++ "\t".toList
    ++ showList norm ++ "\n".toList

/-- The output of the subcommand `testinput`.  Models src/bin/analiticcl.rs:1007-1024. -/
def Vm.testinputLines (m : Vm) : List (Option (List Char)) → Res (List Char)
  | [] => .ok []
  | none :: lines => m.testinputLines lines
  | some input :: lines => do
    let s ← m.testinputLine input
    let rest ← m.testinputLines lines
    return s ++ rest

/-! ## Parameters that are numbers -/

/-- The number, if it is finite. -/
def EFloat.finite : EFloat → Option Rat
  | .fin x => some x
  | _ => none

/-- A threshold with a finite ratio. -/
def ParsedThreshold.finite : ParsedThreshold → Option DistanceThreshold
  | .ratio x => x.finite.map .ratio
  | .ratioWithLimit x n => x.finite.map (.ratioWithLimit · n)
  | .absolute n => some (.absolute n)

/-- The parameters as the search uses them, if they are finite. -/
def SearchParameters.finite (p : SearchParameters) : Option TextParams := do
  let maxAnagramDistance ← p.maxAnagramDistance.finite
  let maxEditDistance ← p.maxEditDistance.finite
  let scoreThreshold ← p.scoreThreshold.finite
  let cutoffThreshold ← p.cutoffThreshold.finite
  let freqWeight ← p.freqWeight.finite
  let variantmodelWeight ← p.variantmodelWeight.finite
  let lmWeight ← p.lmWeight.finite
  let contextrulesWeight ← p.contextrulesWeight.finite
  return { variant := { maxAnagramDistance, maxEditDistance, maxMatches := p.maxMatches, scoreThreshold
                        cutoffThreshold, stopCriterion := p.stopCriterion, freqWeight }
           maxNgram := p.maxNgram, maxSeq := p.maxSeq, singleThread := p.singleThread
           variantmodelWeight, lmWeight, contextrulesWeight, unicodeoffsets := p.unicodeoffsets }

/-- The weights, if they are finite. -/
def finiteWeights : List EFloat → Option Weights
  | [.fin ld, .fin lcs, .fin pre, .fin suf, .fin case] => some ⟨ld, lcs, pre, suf, case⟩
  | _ => none

/-! ## The run -/

/-- What a run depends on outside the modelled code: files, tables, parsing and printing of numbers, the
positions that clap counts, the iteration orders of maps, scheduling, `shortest_edit_script`, and the
lines of standard input. -/
structure ToolExt where
  load : LoadExt
  text : TextExt
  parseF32 : List Char → Option EFloat
  parseF64 : List Char → Option EFloat
  pos : Nat → Nat
  orders : Orders
  showF : Rat → List Char
  editScript : List Char → List Char → List EditInstr
  stdin : List (Option (List Char))

/-- How a run ends: by `exit`, or at its end, with what was printed and, for each input, what was written
to the files of the lexicons (which are created anew for each input). -/
inductive Outcome where
  | exit (code : Nat)
  | output (stdout : List Char) (files : List (List FileWrite))
  | unmodelled
  deriving DecidableEq

/-- src/bin/analiticcl.rs:1227 -/
def isStdin (filename : List Char) : Bool :=
  filename = "-".toList || filename = "STDIN".toList || filename = "stdin".toList

/-- The lines of the input files; standard input is at its end once it was read.  (A search that meets a
line that cannot be read leaves the rest of standard input, which is not modelled.)  Models
src/bin/analiticcl.rs:1225-1228, 1277-1280. -/
def ToolExt.inputs (x : ToolExt) : Bool → List (List Char) → Res (List (List (Option (List Char))))
  | _, [] => .ok []
  | used, f :: fs =>
    if isStdin f then do
      let rest ← x.inputs true fs
      return (if used then [] else x.stdin) :: rest
    else do
      let lines ← x.load.open f
      let rest ← x.inputs used fs
      return lines :: rest

/-- The level of debugging.  Up to level 1 it affects messages only; runs at higher levels are not
modelled here.  From level 2 the code computes the primes of all lines of the alphabet and measures
time, from level 3 it writes files with the transducers of searches, and from level 4 it decomposes
anagram values; all of this can panic (Model/Debug has the parts on primes and decomposition).  Models
src/bin/analiticcl.rs:1000-1004. -/
def CommandLine.debugLevel (c : CommandLine) : Res Nat :=
  match parseUnsigned 255 (c.debug.getD "0".toList) with
  | none => .error .expect
  | some n => if n ≤ 1 then .ok n else .error .unmodelled

/-- The configuration of the loaded model.  Models src/bin/analiticcl.rs:997-999, 1186-1188. -/
def ToolExt.config (x : ToolExt) (c : CommandLine) (L : Loaded) (w : Weights) : TextConfig :=
  { weights := w, confusables := L.confusables
    confusablesBeforePruning := c.isPresent .earlyConfusables, editScript := x.editScript
    contextRules := L.book.rules }

/-- What output functions are called with.  Models src/bin/analiticcl.rs:1114-1116, 1244-1275. -/
def ToolExt.printer (x : ToolExt) (c : CommandLine) (L : Loaded) (p : TextParams) : Printer :=
  { vm := L.vm, tags := L.book.tags, f64 := x.text.f64, showF := x.showF
    lexmatch := c.isPresent .outputLexmatch, freqWeight := p.variant.freqWeight }

/-- `process_learn` for one input.  Models src/bin/analiticcl.rs:484-557. -/
def ToolExt.processLearn (x : ToolExt) (cfg : TextConfig) (p : TextParams) (o : Printer)
    (iterations : Nat) (json multi strict : Bool) (m : Vm) (lines : List (Option (List Char))) :
    Res (Vm × List Char × List FileWrite) := do
  let (m, _) ← learnRounds
    (fun m => m.learnFrom x.text cfg p (linesUntilError lines) strict true x.orders) iterations m
  let (s, ws) ← ({ o with vm := m } : Printer).learned json multi
  return (m, s, ws)

/-- Learning from all inputs.  Models src/bin/analiticcl.rs:1225-1322. -/
def ToolExt.learnInputs (x : ToolExt) (cfg : TextConfig) (p : TextParams) (o : Printer)
    (iterations : Nat) (json multi strict : Bool) :
    Vm → List (List (Option (List Char))) → Res (List Char × List (List FileWrite))
  | _, [] => .ok ([], [])
  | m, lines :: inputs => do
    let (m, s, ws) ← x.processLearn cfg p o iterations json multi strict m lines
    let (s', ws') ← x.learnInputs cfg p o iterations json multi strict m inputs
    return (s ++ s', ws :: ws')

/-- The brackets around all output.  Models src/bin/analiticcl.rs:1216-1218, 1325-1327. -/
def bracketed (json : Bool) (s : List Char) : List Char :=
  (if json then "[\n".toList else []) ++ s ++ (if json then "]\n".toList else [])

/-- The learn mode.  Models src/bin/analiticcl.rs:1216-1247. -/
def ToolExt.learn (x : ToolExt) (c : CommandLine) (L : Loaded) (cfg : TextConfig) (p : TextParams)
    (inputs : List (List (Option (List Char)))) : Res Outcome := do
  let iterations ← c.parsed .iterations (parseUnsigned 255)
  let (s, ws) ← x.learnInputs cfg p (x.printer c L p) iterations (c.isPresent .json)
    (c.isPresent .multiOutput) (c.isPresent .strict) L.vm inputs
  return .output (bracketed (c.isPresent .json) s) ws

/-- The search mode.  Models src/bin/analiticcl.rs:1248-1259, 1298-1308. -/
def ToolExt.search (x : ToolExt) (c : CommandLine) (L : Loaded) (cfg : TextConfig) (p : TextParams)
    (inputs : List (List (Option (List Char)))) : Res Outcome := do
  let s ← runFiles (c.isPresent .json) ((x.printer c L p).processSearch
    (L.vm.findAllMatches x.text cfg p) (c.isPresent .json) (!c.isPresent .retainLinebreaks)
    (c.isPresent .perLine)) inputs
  return .output s []

/-- The query mode.  Models src/bin/analiticcl.rs:1260-1281, 1309-1321. -/
def ToolExt.query (x : ToolExt) (c : CommandLine) (L : Loaded) (cfg : TextConfig) (p : TextParams)
    (inputs : List (List (Option (List Char)))) : Res Outcome := do
  let find := L.vm.findVariants x.text.toExt cfg.toConfig p.variant
  let s ← runFiles (c.isPresent .json)
    (if p.singleThread then (x.printer c L p).process find (c.isPresent .json) 0
     else (x.printer c L p).processPar find x.text.sched (c.isPresent .json)) inputs
  return .output s []

/-- From the output of `[` on.  Models src/bin/analiticcl.rs:1207-1328. -/
def ToolExt.modes (x : ToolExt) (c : CommandLine) (files : List (List Char)) (L : Loaded) (w : Weights)
    (p : TextParams) : Res Outcome := do
  let inputs ← x.inputs false (if files.isEmpty then ["-".toList] else files)
  match c.sub with
  | .learn => x.learn c L (x.config c L w) p inputs
  | .search => x.search c L (x.config c L w) p inputs
  | _ => x.query c L (x.config c L w) p inputs

/-- From the loading of lexicons on.  Models src/bin/analiticcl.rs:1026-1329. -/
def ToolExt.withModel (x : ToolExt) (c : CommandLine) (files : List (List Char)) (ws : List EFloat) :
    Res Outcome := do
  let args ← c.loadArgs x.pos
  let L ← x.load.load args x.orders
  let p ← c.searchParameters x.parseF32 x.parseF64
  if !cutoffAccepted p.cutoffThreshold then return .exit 2
  else if c.sub = .index then do
    let s ← L.vm.indexOutput x.orders
    return .output s []
  else
    match finiteWeights ws, p.finite with
    | some w, some p => x.modes c files L w p
    | _, _ => return .unmodelled

/-- `main`, for a command line with a subcommand; `files` are the input files.  Models
src/bin/analiticcl.rs:899-1330. -/
def ToolExt.main (x : ToolExt) (c : CommandLine) (files : List (List Char)) : Res Outcome := do
  let ws ← c.weights x.parseF64
  let _ ← c.debugLevel
  if c.sub = .testinput then do
    let args ← c.loadArgs x.pos
    let m ← x.load.newModel args.alphabet
    let s ← m.testinputLines x.stdin
    return .output s []
  else x.withModel c files ws

end Verif.Model
