import Verif.Model.Files

/-!
# Loading a model in the command line tool (`main` of `src/bin/analiticcl.rs`)

The arguments are given as clap reports them: the values of an option, with their positions on the
command line where the tool asks for them.  The file system is a function from names to lines.
-/
namespace Verif.Model

/-- What loading depends on outside the modelled code: the files (`none` if a file cannot be opened),
`char::is_whitespace`, parsing of floats, and parsing of edit scripts (sesdiff). -/
structure LoadExt where
  file : List Char → Option (List (Option (List Char)))
  isSpace : Char → Bool
  parseF64 : List Char → Option Rat
  parseF32 : List Char → Option Rat
  parseScript : List Char → Option (List EditInstr)

/-- `Resource`.  Models src/bin/analiticcl.rs:14-19. -/
inductive Resource where
  | lexicon (filename : List Char)
  | variantList (filename : List Char)
  | errorList (filename : List Char)
  deriving DecidableEq

/-- The arguments that say what to load.  Models the options used in
src/bin/analiticcl.rs:998, 1030-1050, 1070, 1084, 1097. -/
structure LoadArgs where
  alphabet : List Char
  lexicons : List (List Char × Nat)
  variants : List (List Char × Nat)
  errors : List (List Char × Nat)
  lm : List (List Char)
  confusables : List (List Char)
  contextrules : List (List Char)

/-- What is loaded. -/
structure Loaded where
  vm : Vm
  confusables : List Confusable
  book : RuleBook

/-- `File::open`, followed by `expect` on the error.  Models src/lib.rs:373, 418, 533, 574, 801 and
src/bin/analiticcl.rs:1060-1066, 1080, 1093, 1104-1107. -/
def LoadExt.open (x : LoadExt) (filename : List Char) : Res (List (Option (List Char))) :=
  match x.file filename with
  | none => .error .expect
  | some lines => .ok lines

/-- The resources in the order in which they are collected.  Models
src/bin/analiticcl.rs:1028-1051. -/
def LoadArgs.collected (args : LoadArgs) : List (Nat × Resource) :=
  (args.lexicons.map fun a => (a.2, .lexicon a.1)) ++ (args.variants.map fun a => (a.2, .variantList a.1))
    ++ (args.errors.map fun a => (a.2, .errorList a.1))

/-- The resources in the order in which they are read: a stable sort by position.  Models
src/bin/analiticcl.rs:1053-1054. -/
def LoadArgs.resources (args : LoadArgs) : List Resource :=
  (args.collected.insertionSort fun a b => a.1 ≤ b.1).map fun a => a.2

/-- Reading a resource.  Models src/bin/analiticcl.rs:1057-1067. -/
def Vm.readResource (x : LoadExt) (m : Vm) : Resource → Res Vm
  | .lexicon f => do
    let lines ← x.open f
    m.readVocabulary f {} lines
  | .variantList f => do
    let lines ← x.open f
    m.readVariants x.parseF64 f (some {}) false lines
  | .errorList f => do
    let lines ← x.open f
    m.readVariants x.parseF64 f (some {}) true lines

/-- Reading all resources.  Models src/bin/analiticcl.rs:1056-1068. -/
def Vm.readResources (x : LoadExt) : Vm → List Resource → Res Vm
  | m, [] => .ok m
  | m, r :: rs => do
    let m ← m.readResource x r
    Vm.readResources x m rs

/-- Reading the language models.  Models src/bin/analiticcl.rs:1070-1082. -/
def Vm.readLms (x : LoadExt) : Vm → List (List Char) → Res Vm
  | m, [] => .ok m
  | m, f :: fs => do
    let lines ← x.open f
    let m ← m.readVocabulary f { vocabType := .LM } lines
    Vm.readLms x m fs

/-- The weight of a confusable.  Models src/lib.rs:424-432. -/
def confusableWeight (parseF64 : List Char → Option Rat) (fields : List (List Char)) : Res Rat :=
  match fields[1]? with
  | none => .ok 1
  | some w =>
    match parseF64 w with
    | none => .error .expect
    | some w => .ok w

/-- `read_confusablelist`, from the lines of the file, with `add_to_confusables`; false for an error.
Models src/lib.rs:414-452. -/
def readConfusables (x : LoadExt) : List Confusable → List (Option (List Char)) →
    Res (List Confusable × Bool)
  | cs, [] => .ok (cs, true)
  | cs, none :: lines => readConfusables x cs lines
  | cs, some line :: lines =>
    if line.isEmpty then readConfusables x cs lines
    else do
      let fields := splitChar '\t' line
      let weight ← confusableWeight x.parseF64 fields
      let c ← Confusable.new x.parseScript (fields[0]?.getD []) weight
      match c with
      | none => return (cs, false)
      | some c => readConfusables x (cs ++ [c]) lines

/-- Reading the lists of confusables.  Models src/bin/analiticcl.rs:1084-1095. -/
def readConfusableLists (x : LoadExt) : List Confusable → List (List Char) → Res (List Confusable)
  | cs, [] => .ok cs
  | cs, f :: fs => do
    let lines ← x.open f
    let (cs, ok) ← readConfusables x cs lines
    if ok then readConfusableLists x cs fs else .error .expect

/-- Reading the files of context rules.  Models src/bin/analiticcl.rs:1097-1109. -/
def readRuleFiles (x : LoadExt) (m : Vm) : RuleBook → List (List Char) → Res RuleBook
  | b, [] => .ok b
  | b, f :: fs => do
    let lines ← x.open f
    let (b, ok) ← b.read ⟨x.isSpace, m.lexicons, m.encoder⟩ x.parseF32 lines
    if ok then readRuleFiles x m b fs else .error .expect

/-- `VariantModel::new`.  Models src/lib.rs:104-128. -/
def LoadExt.newModel (x : LoadExt) (alphabetFile : List Char) : Res Vm := do
  let lines ← x.open alphabetFile
  return Vm.new (readAlphabet x.isSpace [] lines)

/-- From `VariantModel::new` to `build`.  Models src/bin/analiticcl.rs:997-1005, 1028-1112. -/
def LoadExt.load (x : LoadExt) (args : LoadArgs) (o : Orders) : Res Loaded := do
  let m ← x.newModel args.alphabet
  let m ← m.readResources x args.resources
  let m ← m.readLms x args.lm
  let confusables ← readConfusableLists x [] args.confusables
  let book ← readRuleFiles x m ⟨[], []⟩ args.contextrules
  let m ← m.build o
  return ⟨m, confusables, book⟩

/-- The check of the cutoff; false means that the tool exits.  Models
src/bin/analiticcl.rs:1178-1181. -/
def cutoffAccepted : EFloat → Bool
  | .fin c => !(decide (c < 1) && decide (c ≠ 0))
  | .negInf => false
  | .posInf => true
  | .nan => true

/-- The instances of a node, as printed.  Models src/bin/analiticcl.rs:1195-1201. -/
def Vm.indexTexts (m : Vm) : List Nat → Res (List Char)
  | [] => .ok []
  | id :: ids =>
    match m.decoder[id]? with
    | none => .error .expect
    | some v => do
      let rest ← m.indexTexts ids
      return '\t' :: v.text ++ rest

/-- The lines of the subcommand `index`, for the nodes in the order in which the map is iterated.
Models src/bin/analiticcl.rs:1192-1204. -/
def Vm.indexLines (m : Vm) : List (Nat × AnaIndexNode) → Res (List Char)
  | [] => .ok []
  | (h, node) :: nodes =>
    if node.instances.isEmpty then m.indexLines nodes
    else do
      let texts ← m.indexTexts node.instances
      let rest ← m.indexLines nodes
      return Nat.toDigits 10 h ++ texts ++ '\n' :: rest

/-- The output of the subcommand `index`.  Models src/bin/analiticcl.rs:1190-1205. -/
def Vm.indexOutput (m : Vm) (o : Orders) : Res (List Char) := m.indexLines (o.index m.index)

end Verif.Model
