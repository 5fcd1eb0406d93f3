import Verif.Model.LearnSearch

/-!
# Model of the command line tool (`src/bin/analiticcl.rs`)

What is printed to standard output is a list of characters.  A panic discards it (the tool would have
printed a part of it).  Progress messages on standard error, option parsing and file access are not
modelled; the lines of an input are a list in which `none` is a line that cannot be read (invalid UTF-8
or an I/O error).  How a floating point number is printed is a parameter.
-/
namespace Verif.Model

/-- What the output functions use: the model, the names of tags, the rounding of `f64`, the way an
`f64` is printed with `{}`, the option `--output-lexmatch` and the frequency weight.
Models the parameters of src/bin/analiticcl.rs:21-29, 78-89. -/
structure Printer where
  vm : Vm
  tags : List (List Char)
  f64 : Rounding
  showF : Rat → List Char
  lexmatch : Bool
  freqWeight : Rat

/-- An unsigned integer printed with `{}`. -/
abbrev showN (n : Nat) : List Char := Nat.toDigits 10 n

/-- `.replace("\"", "\\\"")`: a backslash before each quote. -/
def escapeQuotes : List Char → List Char
  | [] => []
  | c :: cs => if c = '"' then '\\' :: '"' :: escapeQuotes cs else c :: escapeQuotes cs

/-- `.get_vocab(..).expect(..)`.  Models src/bin/analiticcl.rs:57-59, 157-159, 168, 248-251, 346-349. -/
def Printer.vocab (o : Printer) (id : Nat) : Res VocabValue :=
  match o.vm.decoder[id]? with
  | some v => .ok v
  | none => .error .expect

/-- The names of the lexicons a word occurs in, from lexicon `i` on (`i as u8` wraps around).
Models src/bin/analiticcl.rs:62-73, 172-183. -/
def lexiconsOf (v : VocabValue) : Nat → List (List Char) → Res (List (List Char))
  | _, [] => .ok []
  | i, name :: names => do
    let b ← v.inLexicon (i % 256)
    let rest ← lexiconsOf v (i + 1) names
    return if b then name :: rest else rest

/-- The last column of a result.  Models src/bin/analiticcl.rs:61-75. -/
def Printer.lexmatchTsv (o : Printer) (v : VocabValue) : Res (List Char) :=
  if o.lexmatch then do
    let names ← lexiconsOf v 0 o.vm.lexicons
    return "\t\"".toList ++ [';'].intercalate names ++ "\"".toList
  else .ok []

/-- `output_result_as_tsv`.  Models src/bin/analiticcl.rs:51-76. -/
def Printer.resultTsv (o : Printer) (r : VariantResult) : Res (List Char) := do
  let v ← o.vocab r.vocabId
  let lex ← o.lexmatchTsv v
  return "\t".toList ++ v.text ++ "\t".toList ++ o.showF (r.score o.f64 o.freqWeight) ++ "\t".toList
    ++ lex

/-- The member for `via`.  Models src/bin/analiticcl.rs:167-170. -/
def Printer.viaJson (o : Printer) : Option Nat → Res (List Char)
  | none => .ok []
  | some id => do
    let v ← o.vocab id
    return ", \"via\": \"".toList ++ escapeQuotes v.text ++ "\"".toList

/-- The member for the lexicons.  Models src/bin/analiticcl.rs:171-185. -/
def Printer.lexmatchJson (o : Printer) (v : VocabValue) : Res (List Char) :=
  if o.lexmatch then do
    let names ← lexiconsOf v 0 o.vm.lexicons
    return ", \"lexicons\": [ ".toList
      ++ ", ".toList.intercalate (names.map fun n => "\"".toList ++ escapeQuotes n ++ "\"".toList)
      ++ " ]".toList
  else .ok []

/-- `output_result_as_json`.  Models src/bin/analiticcl.rs:151-187. -/
def Printer.resultJson (o : Printer) (r : VariantResult) : Res (List Char) := do
  let v ← o.vocab r.vocabId
  let via ← o.viaJson r.via
  let lex ← o.lexmatchJson v
  return "        { \"text\": \"".toList ++ escapeQuotes v.text ++ "\", \"score\": ".toList
    ++ o.showF (r.score o.f64 o.freqWeight) ++ ", \"dist_score\": ".toList ++ o.showF r.distScore
    ++ ", \"freq_score\": ".toList ++ o.showF r.freqScore ++ via ++ lex ++ " }".toList

/-- The loop over the variants other than the selected one, from index `i` on.
Models src/bin/analiticcl.rs:41-46. -/
def Printer.othersTsv (o : Printer) (selected : Option Nat) : Nat → List VariantResult →
    Res (List Char)
  | _, [] => .ok []
  | i, r :: rs => do
    if selected ≠ some i then
      let s ← o.resultTsv r
      let rest ← o.othersTsv selected (i + 1) rs
      return s ++ rest
    else o.othersTsv selected (i + 1) rs

/-- The selected variant.  Models src/bin/analiticcl.rs:35-40, 125-133. -/
def selectedResult (selected : Option Nat) (variants : List VariantResult) : Option VariantResult :=
  match selected with
  | none => none
  | some i => variants[i]?

/-- The variants.  Models src/bin/analiticcl.rs:34-47. -/
def Printer.variantsTsv (o : Printer) (selected : Option Nat) (variants : List VariantResult) :
    Res (List Char) :=
  match selectedResult selected variants with
  | some r => do
    let first ← o.resultTsv r
    let rest ← o.othersTsv selected 0 variants
    return first ++ rest
  | none => o.othersTsv selected 0 variants

/-- The column for the offset.  Models src/bin/analiticcl.rs:31-33. -/
def offsetTsv : Option (Nat × Nat) → List Char
  | none => []
  | some (b, e) => "\t".toList ++ showN b ++ ":".toList ++ showN e

/-- `output_matches_as_tsv`.  Models src/bin/analiticcl.rs:21-49. -/
def Printer.matchesTsv (o : Printer) (input : List Char) (variants : Option (List VariantResult))
    (selected : Option Nat) (offset : Option (Nat × Nat)) : Res (List Char) :=
  match variants with
  | none => .ok (input ++ offsetTsv offset ++ "\n".toList)
  | some variants => do
    let vs ← o.variantsTsv selected variants
    return input ++ offsetTsv offset ++ vs ++ "\n".toList

/-- The members for the offset.  Models src/bin/analiticcl.rs:96-98. -/
def offsetJson : Option (Nat × Nat) → List Char
  | none => []
  | some (b, e) => ", \"begin\": ".toList ++ showN b ++ ", \"end\": ".toList ++ showN e

/-- The names of the tags, with a comma before all but the first.  Models
src/bin/analiticcl.rs:101-112. -/
def Printer.tagsLoop (o : Printer) : Nat → List (Nat × Nat) → Res (List Char)
  | _, [] => .ok []
  | i, (tag, _) :: rest =>
    match o.tags[tag]? with
    | none => .error .expect
    | some name => do
      let s ← o.tagsLoop (i + 1) rest
      return (if i > 0 then ",".toList else []) ++ "\"".toList ++ name ++ "\"".toList ++ s

/-- The sequence numbers of the tags.  Models src/bin/analiticcl.rs:114-119. -/
def seqnrLoop : Nat → List (Nat × Nat) → List Char
  | _, [] => []
  | i, (_, seqnr) :: rest =>
    (if i > 0 then ",".toList else []) ++ showN seqnr ++ seqnrLoop (i + 1) rest

/-- The members for the tags.  Models src/bin/analiticcl.rs:99-121. -/
def Printer.tagJson (o : Printer) (tag seqnr : List Nat) : Res (List Char) :=
  if tag.isEmpty then .ok []
  else do
    let names ← o.tagsLoop 0 (tag.zip seqnr)
    return ", \"tag\": [".toList ++ names ++ "], \"seqnr\": [ ".toList ++ seqnrLoop 0 (tag.zip seqnr)
      ++ "]".toList

/-- The loop over the variants other than the selected one, from index `i` on; `wrote` is
`wroteoutput`.  Models src/bin/analiticcl.rs:134-143. -/
def Printer.othersJson (o : Printer) (selected : Option Nat) : Nat → Bool → List VariantResult →
    Res (List Char)
  | _, _, [] => .ok []
  | i, wrote, r :: rs => do
    if selected ≠ some i then
      let s ← o.resultJson r
      let rest ← o.othersJson selected (i + 1) true rs
      return (if wrote then ",\n".toList else []) ++ s ++ rest
    else o.othersJson selected (i + 1) wrote rs

/-- The variants.  Models src/bin/analiticcl.rs:124-143. -/
def Printer.variantsJson (o : Printer) (selected : Option Nat) (variants : List VariantResult) :
    Res (List Char) :=
  match selectedResult selected variants with
  | some r => do
    let first ← o.resultJson r
    let rest ← o.othersJson selected 0 true variants
    return first ++ rest
  | none => o.othersJson selected 0 false variants

/-- The end of an object.  Models src/bin/analiticcl.rs:122-148. -/
def Printer.tailJson (o : Printer) (variants : Option (List VariantResult)) (selected : Option Nat) :
    Res (List Char) :=
  match variants with
  | none => .ok " }\n".toList
  | some variants => do
    let vs ← o.variantsJson selected variants
    return ", \"variants\": [ \n".toList ++ vs ++ "\n    ] }\n".toList

/-- `output_matches_as_json`.  Models src/bin/analiticcl.rs:78-149. -/
def Printer.matchesJson (o : Printer) (input : List Char) (variants : Option (List VariantResult))
    (selected : Option Nat) (offset : Option (Nat × Nat)) (seqnr : Nat) (tag tagSeqnr : List Nat) :
    Res (List Char) := do
  let tags ← o.tagJson tag tagSeqnr
  let tail ← o.tailJson variants selected
  return (if seqnr > 1 then "    ,".toList else "    ".toList) ++ "{ \"input\": \"".toList
    ++ escapeQuotes input ++ "\"".toList ++ offsetJson offset ++ tags ++ tail

/-! ## Query mode -/

/-- The output for one line; `seqnr` counts the lines from 1.  Models
src/bin/analiticcl.rs:387-411, 451-475. -/
def Printer.query (o : Printer) (json : Bool) (input : List Char) (variants : List VariantResult)
    (seqnr : Nat) : Res (List Char) :=
  if json then o.matchesJson input (some variants) (some 0) none seqnr [] []
  else o.matchesTsv input (some variants) (some 0) none

/-- `process`: lines that cannot be read are skipped.  Models src/bin/analiticcl.rs:369-414. -/
def Printer.process (o : Printer) (find : List Char → Res (List VariantResult)) (json : Bool) :
    Nat → List (Option (List Char)) → Res (List Char)
  | _, [] => .ok []
  | seqnr, none :: lines => o.process find json seqnr lines
  | seqnr, some input :: lines => do
    let variants ← find input
    let s ← o.query json input variants (seqnr + 1)
    let rest ← o.process find json (seqnr + 1) lines
    return s ++ rest

/-- src/bin/analiticcl.rs:416 -/
def maxBatchsize : Nat := 1000

/-- Reading at most `n` lines: the lines, the remaining lines, and whether the end was reached.  A line
that cannot be read is an error, on which the tool panics.  (`batch.is_empty()` never holds in
line 440.)  Models src/bin/analiticcl.rs:432-443. -/
def readBatch : Nat → List (Option (List Char)) → Res (List (List Char) × List (Option (List Char)) × Bool)
  | 0, lines => .ok ([], lines, false)
  | _ + 1, [] => .ok ([], [], true)
  | _ + 1, none :: _ => .error .expect
  | n + 1, some input :: lines => do
    let (batch, rest, eof) ← readBatch n lines
    return (input :: batch, rest, eof)

/-- The output of a batch.  Models src/bin/analiticcl.rs:449-476. -/
def Printer.printBatch (o : Printer) (json : Bool) : Nat → List (List Char × List VariantResult) →
    Res (List Char)
  | _, [] => .ok []
  | seqnr, (input, variants) :: rest => do
    let s ← o.query json input variants (seqnr + 1)
    let t ← o.printBatch json (seqnr + 1) rest
    return s ++ t

/-- The loop of `process_par`; `fuel` bounds the number of rounds.  Models
src/bin/analiticcl.rs:431-480. -/
def Printer.parLoop (o : Printer) (find : List Char → Res (List VariantResult))
    (sched : Nat → List Nat) (json : Bool) : Nat → Nat → List (Option (List Char)) → Res (List Char)
  | 0, _, _ => .error .explicit
  | fuel + 1, seqnr, lines => do
    let (batch, rest, eof) ← readBatch maxBatchsize lines
    let output ← collectPar (fun input => do let vs ← find input; return (input, vs))
      (sched batch.length) batch
    let s ← o.printBatch json seqnr output
    if eof then return s
    else
      let t ← o.parLoop find sched json fuel (seqnr + output.length) rest
      return s ++ t

/-- `process_par`.  Models src/bin/analiticcl.rs:418-482. -/
def Printer.processPar (o : Printer) (find : List Char → Res (List VariantResult))
    (sched : Nat → List Nat) (json : Bool) (lines : List (Option (List Char))) : Res (List Char) :=
  o.parLoop find sched json (lines.length + 1) 0 lines

/-! ## Search mode -/

/-- src/bin/analiticcl.rs:559 -/
def maxBatchsizeSearch : Nat := 100

/-- Collecting a batch: at most `n` lines after the first `i`, which are in `batch`.  The result is
the batch, the remaining lines, and whether the end was reached (or a line that cannot be read).
(`batch.is_empty()` never holds in line 594.)  Models src/bin/analiticcl.rs:579-597. -/
def searchBatch (sep : Char) (perLine : Bool) : Nat → Nat → List Char → List (Option (List Char)) →
    List Char × List (Option (List Char)) × Bool
  | 0, _, batch, lines => (batch, lines, false)
  | n + 1, i, batch, lines =>
    match lines with
    | some input :: rest =>
      let batch := (if i > 0 then batch ++ [sep] else batch) ++ input
      if input.isEmpty ∨ perLine then (batch, rest, false)
      else searchBatch sep perLine n (i + 1) batch rest
    | none :: rest => (batch, rest, true)
    | [] => (batch, [], true)

/-- The texts given to `find_all_matches`; `fuel` bounds the number of rounds.  Models
src/bin/analiticcl.rs:577-599. -/
def searchBatches (sep : Char) (perLine : Bool) : Nat → List (Option (List Char)) →
    Option (List (List Char))
  | 0, _ => none
  | fuel + 1, lines =>
    let (batch, rest, eof) := searchBatch sep perLine maxBatchsizeSearch 0 [] lines
    if eof then some [batch]
    else (searchBatches sep perLine fuel rest).map (batch :: ·)

/-- The output for one match.  Models src/bin/analiticcl.rs:604-629. -/
def Printer.found (o : Printer) (json : Bool) (a : Match) (seqnr : Nat) : Res (List Char) :=
  if json then
    o.matchesJson a.text a.variants a.selected (some (a.first, a.last)) seqnr a.tag a.seqnr
  else o.matchesTsv a.text a.variants a.selected (some (a.first, a.last))

/-- The output of a batch.  Models src/bin/analiticcl.rs:603-630. -/
def Printer.foundAll (o : Printer) (json : Bool) : Nat → List Match → Res (List Char)
  | _, [] => .ok []
  | seqnr, a :: rest => do
    let s ← o.found json a (seqnr + 1)
    let t ← o.foundAll json (seqnr + 1) rest
    return s ++ t

/-- The output of the batches, with an empty line between those with matches.  (The tool prints the
output of a batch before it reads the next one.)  Models src/bin/analiticcl.rs:598-635. -/
def Printer.searchLoop (o : Printer) (find : List Char → Res (List Match)) (json : Bool) :
    Nat → List (List Char) → Res (List Char)
  | _, [] => .ok []
  | seqnr, batch :: rest => do
    let output ← find batch
    let s ← o.foundAll json seqnr output
    let t ← o.searchLoop find json (seqnr + output.length) rest
    return (if seqnr > 0 ∧ !output.isEmpty then "\n".toList else []) ++ s ++ t

/-- `process_search`; the newline is a space unless linebreaks are retained.  Models
src/bin/analiticcl.rs:561-636. -/
def Printer.processSearch (o : Printer) (find : List Char → Res (List Match))
    (json newlineAsSpace perLine : Bool) (lines : List (Option (List Char))) : Res (List Char) :=
  match searchBatches (if newlineAsSpace then ' ' else '\n') perLine (lines.length + 1) lines with
  | none => .error .explicit
  | some batches => o.searchLoop find json 0 batches

/-- The output of all input files, with the brackets printed in JSON mode; each file starts with
sequence number 1 again.  Models src/bin/analiticcl.rs:1198-1329 (from `if json`), where `run` is
`process`, `process_par` or `process_search` for one file. -/
def runFiles (json : Bool) (run : List (Option (List Char)) → Res (List Char))
    (files : List (List (Option (List Char)))) : Res (List Char) := do
  let outs ← collectSeq run files
  return (if json then "[\n".toList else []) ++ outs.flatten ++ (if json then "]\n".toList else [])

/-! ## Learn mode -/

/-- The lexicons a variant is written for with multiple output in TSV: the test compares with
`i << i`.  Models src/bin/analiticcl.rs:200-207 (shifts of 64-bit numbers, which panic from 64 on). -/
def lexiconsTsv (lexindex : Nat) : Nat → Nat → Res (List Nat)
  | _, 0 => .ok []
  | i, n + 1 =>
    if i ≥ 64 then .error .overflow
    else do
      let rest ← lexiconsTsv lexindex (i + 1) n
      return if lexindex &&& (1 <<< i) = (i <<< i) % 2 ^ 64 then i :: rest else rest

/-- The lexicons a variant is written for with multiple output in JSON.  Models
src/bin/analiticcl.rs:281-288. -/
def lexiconsJson (lexindex : Nat) : Nat → Nat → Res (List Nat)
  | _, 0 => .ok []
  | i, n + 1 =>
    if i ≥ 64 then .error .overflow
    else do
      let rest ← lexiconsJson lexindex (i + 1) n
      return if lexindex &&& (1 <<< i) = 1 <<< i then i :: rest else rest

/-- The line written to a file for a variant, in TSV.  Models src/bin/analiticcl.rs:227. -/
def Printer.variantLineTsv (o : Printer) (text : List Char) (score : Rat) (freq : Nat) : List Char :=
  "\t".toList ++ text ++ "\t".toList ++ o.showF score ++ "\t".toList ++ showN freq ++ "\n".toList

/-- The object written to a file for a variant, in JSON: score and frequency are swapped.  Models
src/bin/analiticcl.rs:308-316. -/
def Printer.variantLineJson (o : Printer) (text : List Char) (score : Rat) (freq : Nat) : List Char :=
  "        { \"text\": \"".toList ++ escapeQuotes text ++ "\",  \"score\": ".toList ++ showN freq
    ++ ", \"freq\": ".toList ++ o.showF score ++ " }, ".toList

/-- The object printed for a variant.  Models src/bin/analiticcl.rs:320-325. -/
def Printer.variantJson (o : Printer) (text : List Char) (score : Rat) (freq : Nat) : List Char :=
  "        { \"text\": \"".toList ++ escapeQuotes text ++ "\", \"score\": ".toList ++ o.showF score
    ++ ", \"freq\": ".toList ++ showN freq ++ " }, \n".toList

/-- The variants a word is the reference for, with their scores; the other references are passed over.
Models src/bin/analiticcl.rs:240-251, 336-349. -/
def Printer.variantsOf (o : Printer) : List VariantReference → Res (List (VocabValue × Rat))
  | [] => .ok []
  | .variantOf _ _ :: rest => o.variantsOf rest
  | .referenceFor id score :: rest => do
    let v ← o.vocab id
    let vs ← o.variantsOf rest
    return (v, score) :: vs

/-- `output_weighted_variants_as_tsv` without multiple output, from a part of the decoder on.  Models
src/bin/analiticcl.rs:236-268, 231. -/
def Printer.weightedTsv (o : Printer) : List VocabValue → Res (List Char)
  | [] => .ok []
  | item :: items => do
    let vs ← o.variantsOf (item.variants.getD [])
    let rest ← o.weightedTsv items
    return (if vs.isEmpty then []
      else item.text ++ (vs.map fun v => "\t".toList ++ v.1.text ++ "\t".toList ++ o.showF v.2).flatten
        ++ "\n".toList) ++ rest

/-- The loop of `output_weighted_variants_as_json` without multiple output.  Models
src/bin/analiticcl.rs:334-365. -/
def Printer.weightedJsonLoop (o : Printer) : List VocabValue → Res (List Char)
  | [] => .ok []
  | item :: items => do
    let vs ← o.variantsOf (item.variants.getD [])
    let rest ← o.weightedJsonLoop items
    return (if vs.isEmpty then []
      else "    \"".toList ++ escapeQuotes item.text ++ "\": [ \n".toList
        ++ (vs.map fun v => o.variantJson v.1.text v.2 v.1.frequency).flatten ++ "    ]\n".toList)
      ++ rest

/-- `output_weighted_variants_as_json` without multiple output.  Models
src/bin/analiticcl.rs:330-367. -/
def Printer.weightedJson (o : Printer) : Res (List Char) := do
  let s ← o.weightedJsonLoop o.vm.decoder
  return "{\n".toList ++ s ++ "}\n".toList

/-- The lines of an input up to the first that cannot be read.  Models
src/bin/analiticcl.rs:495-500. -/
def linesUntilError : List (Option (List Char)) → List (List Char)
  | some l :: rest => l :: linesUntilError rest
  | _ => []

/-- The rounds of learning: at most `iterations`, and no more after one that learned nothing.  The
batches built in the lenient mode are not used.  Models src/bin/analiticcl.rs:501-550. -/
def learnRounds (learn : Vm → Res (Vm × Nat)) : Nat → Vm → Res (Vm × List Nat)
  | 0, m => .ok (m, [])
  | n + 1, m => do
    let (m, count) ← learn m
    if count = 0 then return (m, [count])
    else
      let (m, counts) ← learnRounds learn n m
      return (m, count :: counts)

/-! ## Testing the input -/

/-- Whether the subcommand `testinput` reports a line as one with unknown characters.  Models
src/bin/analiticcl.rs:1013-1016. -/
def Vm.testinput (m : Vm) (input : List Char) : Res Bool := do
  let av ← anahash m.alphabet input
  let _ ← normalizeToAlphabet m.alphabet input
  let n ← m.alphabetSize
  let c ← character (n - 1)
  anaContains av c

end Verif.Model
