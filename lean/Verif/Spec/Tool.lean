import Verif.Model.Tool
import Verif.Spec.Options
import Verif.Spec.Cli
import Verif.Spec.Alphabet
import Verif.Spec.Bag

/-!
# Specification: runs of the tool
-/
namespace Verif.Spec

open Verif.Model

/-- The search depends on the same tables and functions; only the iteration order of the lookups and the
schedule of the threads may be different. -/
structure SameTables (x x' : TextExt) : Prop where
  f32 : x'.f32 = x.f32
  f64 : x'.f64 = x.f64
  isLower : x'.isLower = x.isLower
  isAlpha : x'.isAlpha = x.isAlpha
  isSpace : x'.isSpace = x.isSpace
  ln32 : x'.ln32 = x.ln32
  ln64 : x'.ln64 = x.ln64
  solve : x'.solve = x.solve

/-- Two runs in the same surroundings: the same files, standard input, tables and functions.  Iteration
orders of hash maps and schedules of threads may be different. -/
structure SameSurroundings (x x' : ToolExt) : Prop where
  load : x'.load = x.load
  text : SameTables x.text x'.text
  parseF32 : x'.parseF32 = x.parseF32
  parseF64 : x'.parseF64 = x.parseF64
  pos : x'.pos = x.pos
  showF : x'.showF = x.showF
  editScript : x'.editScript = x.editScript
  stdin : x'.stdin = x.stdin

/-- The same output, but for the order of lines. -/
def SameLines : Outcome → Outcome → Prop
  | .output s ws, .output s' ws' =>
    ∃ lines lines' : List (List Char), (∀ l ∈ lines, l.getLast? = some '\n') ∧ s = lines.flatten ∧
      s' = lines'.flatten ∧ lines.Perm lines' ∧ ws = ws'
  | a, b => a = b

/-- The options other than those for the number of threads. -/
def otherOptions (c : CommandLine) : List (OptName × List Char) :=
  c.given.filter fun g => g.1 ≠ .singleThread ∧ g.1 ≠ .interactive

/-! ## What a run prints -/

/-- `L` is what the options name: the alphabet, then lexicons, variant lists and error lists in the order
given, then language models, confusables and context rules. -/
def LoadedFor (x : ToolExt) (c : CommandLine) (L : Loaded) : Prop :=
  ∃ args : LoadArgs, (.alphabet, args.alphabet) ∈ c.given ∧
    args.resources = c.given.filterMap resourceOf ∧
    args.lm = c.given.filterMap (fun g => if g.1 = .lm then some g.2 else none) ∧
    args.confusables = c.given.filterMap (fun g => if g.1 = .confusables then some g.2 else none) ∧
    args.contextrules = c.given.filterMap (fun g => if g.1 = .contextrules then some g.2 else none) ∧
    x.load.load args x.orders = .ok L

/-- A threshold as it is parsed. -/
def parsedAs : DistanceThreshold → ParsedThreshold
  | .ratio q => .ratio (.fin q)
  | .ratioWithLimit q n => .ratioWithLimit (.fin q) n
  | .absolute n => .absolute n

/-- The parameters of the search are those of the command line, which are numbers. -/
structure Numbers (q : SearchParameters) (p : TextParams) : Prop where
  anagram : q.maxAnagramDistance = parsedAs p.variant.maxAnagramDistance
  edit : q.maxEditDistance = parsedAs p.variant.maxEditDistance
  matches' : p.variant.maxMatches = q.maxMatches
  score : q.scoreThreshold = .fin p.variant.scoreThreshold
  cutoff : q.cutoffThreshold = .fin p.variant.cutoffThreshold
  stop : p.variant.stopCriterion = q.stopCriterion
  freq : q.freqWeight = .fin p.variant.freqWeight
  ngram : p.maxNgram = q.maxNgram
  seq : p.maxSeq = q.maxSeq
  single : p.singleThread = q.singleThread
  variant : q.variantmodelWeight = .fin p.variantmodelWeight
  lm : q.lmWeight = .fin p.lmWeight
  rules : q.contextrulesWeight = .fin p.contextrulesWeight
  offsets : p.unicodeoffsets = q.unicodeoffsets

/-- The command line asks for these resources, weights and parameters, with a level of debugging of at
most 1. -/
structure Asked (x : ToolExt) (c : CommandLine) (L : Loaded) (w : Weights) (p : TextParams) : Prop where
  loaded : LoadedFor x c L
  weights : WeightRequest x.parseF64 c (.fin w.ld) (.fin w.lcs) (.fin w.pre) (.fin w.suf) (.fin w.case)
  params : ∃ q, Request x.parseF32 x.parseF64 c q ∧ q.unicodeoffsets = false ∧ Numbers q p
  cutoff : p.variant.cutoffThreshold = 0 ∨ 1 ≤ p.variant.cutoffThreshold
  debug : c.debug = none ∨ ∃ v n, c.debug = some v ∧ NumberText 255 v n ∧ n ≤ 1

/-- The names of standard input. -/
def StdinName (f : List Char) : Prop := f = "-".toList ∨ f = "STDIN".toList ∨ f = "stdin".toList

/-- The lines of the input files: standard input is read where it is named first, and empty afterwards.
It is read if no file is given. -/
def InputsOf (x : ToolExt) (files : List (List Char)) (inputs : List (List (Option (List Char)))) : Prop :=
  (files = [] ∧ inputs = [x.stdin]) ∨
  (files ≠ [] ∧ inputs.length = files.length ∧ ∀ (i : Nat) f lines, files[i]? = some f →
    inputs[i]? = some lines →
      (¬ StdinName f ∧ x.load.file f = some lines) ∨
      (StdinName f ∧ (∀ j < i, ∀ g, files[j]? = some g → ¬ StdinName g) ∧ lines = x.stdin) ∨
      (StdinName f ∧ (∃ j < i, ∃ g, files[j]? = some g ∧ StdinName g) ∧ lines = []))

/-- The settings of the library for a run. -/
structure Settings (x : ToolExt) (c : CommandLine) (L : Loaded) (w : Weights) (cfg : TextConfig) : Prop where
  weights : cfg.weights = w
  confusables : cfg.confusables = L.confusables
  early : cfg.confusablesBeforePruning = true ↔ Given c .earlyConfusables
  script : cfg.editScript = x.editScript
  rules : cfg.contextRules = L.book.rules

/-- The columns for a variant: its text, its score, an empty one, and with `--output-lexmatch` the names
of the lexicons it is in. -/
def VariantColumns (x : ToolExt) (c : CommandLine) (L : Loaded) (p : TextParams) (r : VariantResult)
    (cols : List Char) : Prop :=
  ∃ v, L.vm.decoder[r.vocabId]? = some v ∧
    ∃ lex, ((¬ Given c .outputLexmatch ∧ lex = []) ∨
      (Given c .outputLexmatch ∧ L.vm.lexicons.length ≤ 32 ∧
        lex = '\t' :: '"' :: [';'].intercalate
          ((L.vm.lexicons.zipIdx.filter fun n => v.lexindex.testBit n.2).map Prod.fst) ++ ['"'])) ∧
      cols = '\t' :: v.text ++ '\t' :: x.showF (r.score x.text.f64 p.variant.freqWeight) ++ '\t' :: lex

/-- The row for an input of a query. -/
def QueryRow (x : ToolExt) (c : CommandLine) (L : Loaded) (p : TextParams) (input : List Char)
    (found : List VariantResult) (row : List Char) : Prop :=
  ∃ cols, List.Forall₂ (VariantColumns x c L p) found cols ∧ row = input ++ cols.flatten ++ ['\n']

/-- The row for a match of a search: text, offsets, and the variants, with the one that was selected
first. -/
def MatchRow (x : ToolExt) (c : CommandLine) (L : Loaded) (p : TextParams) (a : Match) (row : List Char) :
    Prop :=
  ∃ cols, (match a.variants with
      | none => cols = []
      | some vs => ∃ l, Listed vs a.selected l ∧ List.Forall₂ (VariantColumns x c L p) l cols) ∧
    row = a.text ++ '\t' :: Nat.toDigits 10 a.first ++ ':' :: Nat.toDigits 10 a.last ++ cols.flatten ++ ['\n']

/-- What a search prints for an input: the lines are joined in groups, and the rows of the matches in each
group are printed, with an empty line between the groups that have matches. -/
def SearchText (x : ToolExt) (c : CommandLine) (L : Loaded) (p : TextParams)
    (find : List Char → Res (List Match)) (lines : List (Option (List Char))) (text : List Char) : Prop :=
  ∃ perLine sep gs found rows, (perLine = true ↔ Given c .perLine) ∧
    ((Given c .retainLinebreaks ∧ sep = '\n') ∨ (¬ Given c .retainLinebreaks ∧ sep = ' ')) ∧
    Groups perLine (untilError lines) gs ∧
    List.Forall₂ (fun g ms => find ([sep].intercalate g) = .ok ms) gs found ∧
    List.Forall₂ (List.Forall₂ (MatchRow x c L p)) found rows ∧
    text = ['\n'].intercalate ((rows.filter fun r => r ≠ []).map List.flatten)

/-- The line that the input test prints for a text: the text, its anagram value and its encoding; nothing
if some character is not in the alphabet. -/
def TestRow (alphabet : List (List (List Char))) (input row : List Char) : Prop :=
  ∃ codes, Encodes alphabet alphabet.length input codes ∧
    ((alphabet.length ∈ codes ∧ row = []) ∨
      (alphabet.length ∉ codes ∧ row = "OK: ".toList ++ input ++ '\t' :: Nat.toDigits 10 (bagValue codes) ++
        "\t[".toList ++ [',', ' '].intercalate (codes.map (Nat.toDigits 10)) ++ "]\n".toList))

/-- The rows of the printed index: one for each anagram value of an indexed entry, with the texts of the
indexed entries that have it. -/
def IndexText (alphabet : List (List (List Char))) (entries : List VocabValue) (s : List Char) : Prop :=
  ∃ (keys : List Nat) (has : Nat → VocabValue → Bool),
    (∀ k v, has k v = true ↔ v.vocabtype.check .INDEXED = true ∧
      ∃ codes, Encodes alphabet alphabet.length v.text codes ∧ bagValue codes = k) ∧
    keys.Nodup ∧ (∀ k, k ∈ keys ↔ ∃ v ∈ entries, has k v = true) ∧
    s = keys.flatMap fun k => Nat.toDigits 10 k ++
      ((entries.filter (has k)).flatMap fun v => '\t' :: v.text) ++ ['\n']

/-- Up to `n` rounds of learning, and no more after one that learned nothing. -/
inductive Rounds {σ : Type} (step : σ → σ → Nat → Prop) : Nat → σ → σ → Prop
  | none {m} : Rounds step 0 m m
  | last {n m m'} : step m m' 0 → Rounds step (n + 1) m m'
  | more {n m m' m'' k} : step m m' k → k ≠ 0 → Rounds step n m' m'' → Rounds step (n + 1) m m''

/-- The words an entry is the reference for, with scores. -/
def refersTo (v : VocabValue) : List (Nat × Rat) :=
  (v.variants.getD []).filterMap fun r => match r with
    | .referenceFor id score => some (id, score)
    | .variantOf _ _ => none

/-- For each of some items the entries it is the reference for, with scores. -/
def Refer (entries items : List VocabValue) (found : List (List (VocabValue × Rat))) : Prop :=
  List.Forall₂ (fun v us => List.Forall₂ (fun r u => entries[r.1]? = some u.1 ∧ u.2 = r.2)
    (refersTo v) us) items found

/-- What is printed after learning: for each word that has variants, its text and the texts and scores of
its variants. -/
def LearnText (showF : Rat → List Char) (m : Vm) (text : List Char) (ws : List FileWrite) : Prop :=
  ws = [] ∧ ∃ found, Refer m.decoder m.decoder found ∧
    text = (m.decoder.zip found).flatMap fun e => if e.2 = [] then [] else
      e.1.text ++ (e.2.flatMap fun u => '\t' :: u.1.text ++ '\t' :: showF u.2) ++ ['\n']

/-- With several files, the variant is written to the file of lexicon `i` (number 63 does not occur, since
the sets have 32 bits). -/
def WrittenTo (set i : Nat) : Prop :=
  (i = 0 ∧ ¬ set.testBit 0) ∨ (i = 1 ∧ set.testBit 1) ∨ (i = 63 ∧ set.testBit 63)

/-- What is printed and written after learning with several files: the words that have variants are
printed, and the variants are written to files. -/
def LearnFiles (showF : Rat → List Char) (m : Vm) (text : List Char) (ws : List FileWrite) : Prop :=
  ∃ found files, Refer m.decoder m.decoder found ∧
    text = ((m.decoder.zip found).flatMap fun e => if e.2 = [] then [] else e.1.text ++ ['\n']) ∧
    List.Forall₂ (fun u l => m.lexicons.length ≤ 64 ∧
      ∃ is : List Nat, is.Pairwise (· < ·) ∧ (∀ i, i ∈ is ↔ i < m.lexicons.length ∧ WrittenTo u.1.lexindex i) ∧
        l = is.map fun i => (i, '\t' :: u.1.text ++ '\t' :: showF u.2 ++
          '\t' :: Nat.toDigits 10 u.1.frequency ++ ['\n'])) found.flatten files ∧
    ws = files.flatten

/-- Learning from inputs, one after the other, and what is reported after each. -/
inductive LearnAll {σ : Type} (step : List (List Char) → σ → σ → Nat → Prop) (n : Nat)
    (report : σ → List Char → List FileWrite → Prop) :
    σ → List (List (Option (List Char))) → List (List Char) → List (List FileWrite) → Prop
  | nil {m} : LearnAll step n report m [] [] []
  | cons {m m' lines inputs text texts ws wss} : Rounds (step (untilError lines)) n m m' →
      report m' text ws → LearnAll step n report m' inputs texts wss →
      LearnAll step n report m (lines :: inputs) (text :: texts) (ws :: wss)

end Verif.Spec
