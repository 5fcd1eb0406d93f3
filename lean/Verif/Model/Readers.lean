import Verif.Model.Tool

/-!
# Reading line by line, from a reader that may fail

Elsewhere a file is the finite list of its lines.  Here it is a reader, which is asked for one line after
another and may report an error any number of times.
-/
namespace Verif.Model

/-- What the iterator of `BufRead::lines` gives: the end, an error (of reading, or because a line is not
UTF-8), or a line. -/
inductive Event where
  | eof
  | failed
  | line (l : List Char)
  deriving DecidableEq

/-- A reader: what is given at each request. -/
abbrev Reader := Nat → Event

/-- `for line in lines { if let Ok(line) = line { body } }`, from request `i` on, with at most `fuel`
requests; `none` if it has not ended by then.  The body ends the loop by a panic, or by returning an error
(false).  Models the loops in src/lib.rs:375-396, 420-450, 537-559, 577-654, 803-891 and
src/bin/analiticcl.rs:380-413, 1010-1023. -/
def forReadable {σ : Type} (r : Reader) (body : σ → List Char → Res (σ × Bool)) :
    Nat → Nat → σ → Option (Res (σ × Bool))
  | 0, _, _ => none
  | fuel + 1, i, s =>
    match r i with
    | .eof => some (.ok (s, true))
    | .failed => forReadable r body fuel (i + 1) s
    | .line l =>
      match body s l with
      | .error e => some (.error e)
      | .ok (s, true) => forReadable r body fuel (i + 1) s
      | .ok (s, false) => some (.ok (s, false))

/-- A body that does not return early. -/
def noReturn {σ : Type} (r : Res σ) : Res (σ × Bool) := do
  let s ← r
  return (s, true)

/-- `read_alphabet`.  Models src/lib.rs:369-396. -/
def readAlphabetFrom (r : Reader) (isSpace : Char → Bool) (fuel : Nat) (alphabet : Alphabet) :
    Option (Res (Alphabet × Bool)) :=
  forReadable r (fun alphabet line => .ok (if line.isEmpty then alphabet
    else alphabet ++ [(splitChar '\t' line).filterMap (alphabetField isSpace)], true)) fuel 0 alphabet

/-- The loop of `read_vocabulary`.  Models src/lib.rs:537-559. -/
def Vm.readVocabLinesFrom (r : Reader) (params : VocabParams) (fuel : Nat) (m : Vm) :
    Option (Res (Vm × Bool)) :=
  forReadable r (fun m line => noReturn (m.readVocabLine params line)) fuel 0 m

/-- The loop of `read_variants`.  Models src/lib.rs:803-891. -/
def Vm.readVariantLinesFrom (r : Reader) (parseF64 : List Char → Option Rat)
    (params variantParams : VocabParams) (fuel : Nat) (m : Vm) : Option (Res ((Vm × Option Bool) × Bool)) :=
  forReadable r (fun s line => noReturn (s.1.readVariantLine parseF64 params variantParams s.2 line)) fuel 0
    (m, none)

/-- The loop of `read_confusablelist`.  Models src/lib.rs:420-452. -/
def readConfusablesFrom (r : Reader) (x : LoadExt) (fuel : Nat) (cs : List Confusable) :
    Option (Res (List Confusable × Bool)) :=
  forReadable r (fun cs line =>
    if line.isEmpty then .ok (cs, true)
    else do
      let fields := splitChar '\t' line
      let weight ← confusableWeight x.parseF64 fields
      let c ← Confusable.new x.parseScript (fields[0]?.getD []) weight
      match c with
      | none => return (cs, false)
      | some c => return (cs ++ [c], true)) fuel 0 cs

/-- The loop of `read_contextrules`.  Models src/lib.rs:577-656. -/
def RuleBook.readFrom (r : Reader) (env : RuleEnv) (parseFloat : List Char → Option Rat) (fuel : Nat)
    (b : RuleBook) : Option (Res (RuleBook × Bool)) :=
  forReadable r (fun b line => b.readLine env parseFloat line) fuel 0 b

/-- `process`, with the number of lines so far and what was printed.  Models
src/bin/analiticcl.rs:369-414. -/
def Printer.processFrom (o : Printer) (r : Reader) (find : List Char → Res (List VariantResult))
    (json : Bool) (fuel : Nat) : Option (Res ((Nat × List Char) × Bool)) :=
  forReadable r (fun s input => do
    let variants ← find input
    let t ← o.query json input variants (s.1 + 1)
    return ((s.1 + 1, s.2 ++ t), true)) fuel 0 (0, [])

/-- The loop of the subcommand `testinput`, with what was printed.  Models
src/bin/analiticcl.rs:1010-1023. -/
def Vm.testinputFrom (m : Vm) (r : Reader) (fuel : Nat) : Option (Res (List Char × Bool)) :=
  forReadable r (fun s input => do
    let t ← m.testinputLine input
    return (s ++ t, true)) fuel 0 []

/-- `while let Some(Ok(input)) = line_iter.next() { lines.push(input) }`.  Models
src/bin/analiticcl.rs:495-500. -/
def linesFrom (r : Reader) : Nat → Nat → List (List Char) → Option (List (List Char))
  | 0, _, _ => none
  | fuel + 1, i, lines =>
    match r i with
    | .line l => linesFrom r fuel (i + 1) (lines ++ [l])
    | _ => some lines

/-- Reading at most `n` lines: the lines, the next request, and whether the end was reached.  Models
src/bin/analiticcl.rs:432-443. -/
def readBatchFrom (r : Reader) : Nat → Nat → Res (List (List Char) × Nat × Bool)
  | 0, i => .ok ([], i, false)
  | n + 1, i =>
    match r i with
    | .eof => .ok ([], i + 1, true)
    | .failed => .error .expect
    | .line input => do
      let (batch, next, eof) ← readBatchFrom r n (i + 1)
      return (input :: batch, next, eof)

/-- The loop of `process_par`, `none` if it has not ended after `fuel` rounds.  Models
src/bin/analiticcl.rs:431-480. -/
def Printer.parFrom (o : Printer) (r : Reader) (find : List Char → Res (List VariantResult))
    (sched : Nat → List Nat) (json : Bool) : Nat → Nat → Nat → List Char → Option (Res (List Char))
  | 0, _, _, _ => none
  | fuel + 1, i, seqnr, printed =>
    let round : Res (Nat × Bool × Nat × List Char) := do
      let (batch, next, eof) ← readBatchFrom r maxBatchsize i
      let output ← collectPar (fun input => do let vs ← find input; return (input, vs))
        (sched batch.length) batch
      let s ← o.printBatch json seqnr output
      return (next, eof, seqnr + output.length, printed ++ s)
    match round with
    | .error e => some (.error e)
    | .ok (next, eof, seqnr, printed) =>
      if eof then some (.ok printed) else o.parFrom r find sched json fuel next seqnr printed

/-- Collecting a batch of a search: at most `n` lines after the first `j`, which are in `batch`.  Models
src/bin/analiticcl.rs:579-597. -/
def searchBatchFrom (r : Reader) (sep : Char) (perLine : Bool) : Nat → Nat → List Char → Nat →
    List Char × Nat × Bool
  | 0, _, batch, i => (batch, i, false)
  | n + 1, j, batch, i =>
    match r i with
    | .line input =>
      let batch := (if j > 0 then batch ++ [sep] else batch) ++ input
      if input.isEmpty ∨ perLine then (batch, i + 1, false)
      else searchBatchFrom r sep perLine n (j + 1) batch (i + 1)
    | _ => (batch, i + 1, true)

/-- The texts given to `find_all_matches`, `none` if the loop has not ended after `fuel` rounds.  Models
src/bin/analiticcl.rs:577-599. -/
def searchBatchesFrom (r : Reader) (sep : Char) (perLine : Bool) : Nat → Nat → List (List Char) →
    Option (List (List Char))
  | 0, _, _ => none
  | fuel + 1, i, batches =>
    let (batch, next, eof) := searchBatchFrom r sep perLine maxBatchsizeSearch 0 [] i
    if eof then some (batches ++ [batch])
    else searchBatchesFrom r sep perLine fuel next (batches ++ [batch])

end Verif.Model
