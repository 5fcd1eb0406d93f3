import Verif.Model.Tool

/-!
# What a run has printed when it panics

The same loops as in `Cli` and `Tool`, but what was printed is kept if they panic.  Standard output is flushed
at the end of the process also after a panic.
-/
namespace Verif.Model

/-- What was printed, and the result or panic. -/
structure Trace (α : Type) where
  printed : List Char
  result : Res α
  deriving DecidableEq

/-- Nothing is printed. -/
def Trace.quiet {α : Type} (r : Res α) : Trace α := ⟨[], r⟩

/-- `print!` -/
def Trace.say (s : List Char) : Trace Unit := ⟨s, .ok ()⟩

/-- One thing after another, which does not happen after a panic. -/
def Trace.bind {α β : Type} (t : Trace α) (f : α → Trace β) : Trace β :=
  match t.result with
  | .error e => ⟨t.printed, .error e⟩
  | .ok a => ⟨t.printed ++ (f a).printed, (f a).result⟩

instance : Monad Trace where
  pure a := ⟨[], .ok a⟩
  bind := Trace.bind

/-- `process`.  The output for a line is taken to be printed at once; a panic while it is printed loses it.
Models src/bin/analiticcl.rs:369-414. -/
def Printer.processT (o : Printer) (find : List Char → Res (List VariantResult)) (json : Bool) :
    Nat → List (Option (List Char)) → Trace Unit
  | _, [] => pure ()
  | seqnr, none :: lines => o.processT find json seqnr lines
  | seqnr, some input :: lines => do
    let variants ← .quiet (find input)
    let s ← .quiet (o.query json input variants (seqnr + 1))
    .say s
    o.processT find json (seqnr + 1) lines

/-- The output of a batch.  Models src/bin/analiticcl.rs:449-476. -/
def Printer.printBatchT (o : Printer) (json : Bool) : Nat → List (List Char × List VariantResult) → Trace Unit
  | _, [] => pure ()
  | seqnr, (input, variants) :: rest => do
    let s ← .quiet (o.query json input variants (seqnr + 1))
    .say s
    o.printBatchT json (seqnr + 1) rest

/-- The loop of `process_par`: a batch is read, then looked up by the threads, and then printed; `fuel` bounds
the number of rounds.  Models src/bin/analiticcl.rs:431-480. -/
def Printer.parLoopT (o : Printer) (find : List Char → Res (List VariantResult))
    (sched : Nat → List Nat) (json : Bool) : Nat → Nat → List (Option (List Char)) → Trace Unit
  | 0, _, _ => .quiet (.error .explicit)
  | fuel + 1, seqnr, lines => do
    let (batch, rest, eof) ← .quiet (readBatch maxBatchsize lines)
    let output ← .quiet (collectPar (fun input => do let vs ← find input; return (input, vs))
      (sched batch.length) batch)
    o.printBatchT json seqnr output
    if eof then pure () else o.parLoopT find sched json fuel (seqnr + output.length) rest

/-- `process_par`.  Models src/bin/analiticcl.rs:418-482. -/
def Printer.processParT (o : Printer) (find : List Char → Res (List VariantResult))
    (sched : Nat → List Nat) (json : Bool) (lines : List (Option (List Char))) : Trace Unit :=
  o.parLoopT find sched json (lines.length + 1) 0 lines

/-- The output of the matches in a batch.  Models src/bin/analiticcl.rs:603-630. -/
def Printer.foundAllT (o : Printer) (json : Bool) : Nat → List Match → Trace Unit
  | _, [] => pure ()
  | seqnr, a :: rest => do
    let s ← .quiet (o.found json a (seqnr + 1))
    .say s
    o.foundAllT json (seqnr + 1) rest

/-- The batches of a search.  Models src/bin/analiticcl.rs:598-635. -/
def Printer.searchLoopT (o : Printer) (find : List Char → Res (List Match)) (json : Bool) :
    Nat → List (List Char) → Trace Unit
  | _, [] => pure ()
  | seqnr, batch :: rest => do
    let output ← .quiet (find batch)
    .say (if seqnr > 0 ∧ !output.isEmpty then "\n".toList else [])
    o.foundAllT json seqnr output
    o.searchLoopT find json (seqnr + output.length) rest

/-- `process_search`.  Models src/bin/analiticcl.rs:561-636. -/
def Printer.processSearchT (o : Printer) (find : List Char → Res (List Match))
    (json newlineAsSpace perLine : Bool) (lines : List (Option (List Char))) : Trace Unit :=
  match searchBatches (if newlineAsSpace then ' ' else '\n') perLine (lines.length + 1) lines with
  | none => .quiet (.error .explicit)
  | some batches => o.searchLoopT find json 0 batches

/-- `process_learn`.  What is printed at its end is taken to be printed at once.  Models
src/bin/analiticcl.rs:484-557. -/
def ToolExt.processLearnT (x : ToolExt) (cfg : TextConfig) (p : TextParams) (o : Printer)
    (iterations : Nat) (json multi strict : Bool) (m : Vm) (lines : List (Option (List Char))) :
    Trace (Vm × List (List FileWrite)) := do
  let (m, s, ws) ← .quiet (x.processLearn cfg p o iterations json multi strict m lines)
  .say s
  return (m, [ws])

/-- The input files, one after the other: each is opened when those before it are done.  `used` says whether
standard input was read, `run` processes one of them with a state (the model, which learning changes) and gives
what was written to files.  Models src/bin/analiticcl.rs:1225-1323. -/
def ToolExt.filesT (x : ToolExt) {σ : Type} (run : σ → List (Option (List Char)) → Trace (σ × List (List FileWrite))) :
    Bool → σ → List (List Char) → Trace (List (List FileWrite))
  | _, _, [] => pure []
  | used, m, f :: fs => do
    let (used, lines) ← (if isStdin f then .quiet (.ok (true, if used then [] else x.stdin))
      else do
        let lines ← .quiet (x.load.open f)
        return (used, lines))
    let (m, ws) ← run m lines
    let ws' ← x.filesT run used m fs
    return ws ++ ws'

/-- How a run ends: by `exit`, or at its end, with what was written to files. -/
inductive Ending where
  | exit (code : Nat)
  | done (files : List (List FileWrite))
  | unmodelled
  deriving DecidableEq

/-- A loop that has no state and writes no files. -/
def stateless (run : List (Option (List Char)) → Trace Unit) (_ : Unit) (lines : List (Option (List Char))) :
    Trace (Unit × List (List FileWrite)) := do
  run lines
  return ((), [])

/-- What is done with the input files.  The number of iterations is read when the first file was opened.  Models
src/bin/analiticcl.rs:1220-1323. -/
def ToolExt.inputsT (x : ToolExt) (c : CommandLine) (files : List (List Char)) (L : Loaded) (cfg : TextConfig)
    (p : TextParams) : Trace (List (List FileWrite)) :=
  let files := if files.isEmpty then ["-".toList] else files
  let json := c.isPresent .json
  match c.sub with
  | .learn => x.filesT (fun m lines => do
      let iterations ← .quiet (c.parsed .iterations (parseUnsigned 255))
      x.processLearnT cfg p (x.printer c L p) iterations json (c.isPresent .multiOutput) (c.isPresent .strict)
        m lines) false L.vm files
  | .search => x.filesT (stateless ((x.printer c L p).processSearchT (L.vm.findAllMatches x.text cfg p) json
      (!c.isPresent .retainLinebreaks) (c.isPresent .perLine))) false () files
  | _ =>
    let find := L.vm.findVariants x.text.toExt cfg.toConfig p.variant
    x.filesT (stateless (if p.singleThread then (x.printer c L p).processT find json 0
      else (x.printer c L p).processParT find x.text.sched json)) false () files

/-- From the output of `[` on.  Models src/bin/analiticcl.rs:1207-1328. -/
def ToolExt.modesT (x : ToolExt) (c : CommandLine) (files : List (List Char)) (L : Loaded) (w : Weights)
    (p : TextParams) : Trace Ending := do
  .say (if c.isPresent .json then "[\n".toList else [])
  let ws ← x.inputsT c files L (x.config c L w) p
  .say (if c.isPresent .json then "]\n".toList else [])
  return .done ws

/-- Printing what a subcommand that has no input files prints.  (A panic while it is printed, which does not
occur with a loaded model, would lose it.) -/
def Trace.whole (r : Res (List Char)) : Trace Ending := do
  let s ← .quiet r
  .say s
  return .done []

/-- From the loading of lexicons on.  Models src/bin/analiticcl.rs:1026-1329. -/
def ToolExt.withModelT (x : ToolExt) (c : CommandLine) (files : List (List Char)) (ws : List EFloat) :
    Trace Ending := do
  let args ← .quiet (c.loadArgs x.pos)
  let L ← .quiet (x.load.load args x.orders)
  let p ← .quiet (c.searchParameters x.parseF32 x.parseF64)
  if !cutoffAccepted p.cutoffThreshold then return .exit 2
  else if c.sub = .index then .whole (L.vm.indexOutput x.orders)
  else
    match finiteWeights ws, p.finite with
    | some w, some p => x.modesT c files L w p
    | _, _ => return .unmodelled

/-- `main`, with what was printed if it panics.  Models src/bin/analiticcl.rs:899-1330. -/
def ToolExt.mainT (x : ToolExt) (c : CommandLine) (files : List (List Char)) : Trace Ending := do
  let ws ← .quiet (c.weights x.parseF64)
  let _ ← .quiet c.debugLevel
  if c.sub = .testinput then do
    let args ← .quiet (c.loadArgs x.pos)
    let m ← .quiet (x.load.newModel args.alphabet)
    .whole (m.testinputLines x.stdin)
  else x.withModelT c files ws

end Verif.Model
