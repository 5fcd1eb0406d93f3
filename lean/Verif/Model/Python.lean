import Verif.Model.Options
import Verif.Model.Cli

/-!
# The Python bindings (`bindings/python/src/lib.rs`)

Python values are converted by PyO3, of which this much is modelled: an integer argument takes an `int` (or
`bool`) in range, a floating point argument takes a `float` or `int`, `Option` takes `None`, a pair takes a
tuple of two, and a number too large for a float cannot be converted.  A panic of the library is an exception
after which nothing is said; other exceptions are modelled.  Dictionaries are records.
-/
namespace Verif.Model

/-! ## Results -/

/-- The dictionary for a variant.  Models bindings/python/src/lib.rs:554-588. -/
structure PyVariant where
  text : List Char
  score : Rat
  distScore : Rat
  freqScore : Rat
  via : Option (List Char)
  lexicons : List (List Char)
  deriving DecidableEq

/-- `get_vocab(..).expect(..)`.  Models bindings/python/src/lib.rs:561-564, 570. -/
def Vm.vocabAt (m : Vm) (id : Nat) : Res VocabValue :=
  match m.decoder[id]? with
  | some v => .ok v
  | none => .error .expect

/-- The text of `via`.  Models bindings/python/src/lib.rs:569-572. -/
def Vm.viaText (m : Vm) : Option Nat → Res (Option (List Char))
  | none => .ok none
  | some id => do
    let v ← m.vocabAt id
    return some v.text

/-- `variantresult_to_dict`.  Models bindings/python/src/lib.rs:554-588. -/
def Vm.variantToDict (m : Vm) (f64 : Rounding) (freqWeight : Rat) (r : VariantResult) : Res PyVariant := do
  let v ← m.vocabAt r.vocabId
  let via ← m.viaText r.via
  let lexicons ← lexiconsOf v 0 m.lexicons
  return { text := v.text, score := r.score f64 freqWeight, distScore := r.distScore
           freqScore := r.freqScore, via, lexicons }

/-- `find_variants`.  Models bindings/python/src/lib.rs:704-717. -/
def Vm.pyFindVariants (m : Vm) (x : Ext) (cfg : Config) (p : Params) (input : List Char) :
    Res (List PyVariant) := do
  let results ← m.findVariants x cfg p input
  collectSeq (m.variantToDict x.f64 p.freqWeight) results

/-- `find_variants_par`, with a schedule of the workers.  Models bindings/python/src/lib.rs:720-749. -/
def Vm.pyFindVariantsPar (m : Vm) (x : Ext) (cfg : Config) (p : Params) (sched : List Nat)
    (inputs : List (List Char)) : Res (List (List Char × List PyVariant)) := do
  let output ← collectPar (fun input => do
    let results ← m.findVariants x cfg p input
    return (input, results)) sched inputs
  collectSeq (fun o => do
    let dicts ← collectSeq (m.variantToDict x.f64 p.freqWeight) o.2
    return (o.1, dicts)) output

/-- The dictionary for a match.  Models bindings/python/src/lib.rs:762-801. -/
structure PyMatch where
  input : List Char
  first : Nat
  last : Nat
  tags : Option (List (List Char) × List Nat)
  variants : List PyVariant
  deriving DecidableEq

/-- The names of tags.  Models bindings/python/src/lib.rs:771-778. -/
def tagNames (tags : List (List Char)) : List (Nat × Nat) → Res (List (List Char))
  | [] => .ok []
  | (t, _) :: rest =>
    match tags[t]? with
    | none => .error .expect
    | some name => do
      let names ← tagNames tags rest
      return name :: names

/-- The tags and their numbers.  Models bindings/python/src/lib.rs:768-782. -/
def tagLists (tags : List (List Char)) (tag seqnr : List Nat) :
    Res (Option (List (List Char) × List Nat)) :=
  if tag.isEmpty then .ok none
  else do
    let names ← tagNames tags (tag.zip seqnr)
    return some (names, (tag.zip seqnr).map Prod.snd)

/-- The variants other than the selected one, from index `i` on.  Models
bindings/python/src/lib.rs:792-799. -/
def Vm.pyOthers (m : Vm) (f64 : Rounding) (freqWeight : Rat) (selected : Option Nat) :
    Nat → List VariantResult → Res (List PyVariant)
  | _, [] => .ok []
  | i, r :: rs => do
    if selected ≠ some i then
      let d ← m.variantToDict f64 freqWeight r
      let rest ← m.pyOthers f64 freqWeight selected (i + 1) rs
      return d :: rest
    else m.pyOthers f64 freqWeight selected (i + 1) rs

/-- The variants of a match.  Models bindings/python/src/lib.rs:783-800. -/
def Vm.pyVariants (m : Vm) (f64 : Rounding) (freqWeight : Rat) (selected : Option Nat) :
    Option (List VariantResult) → Res (List PyVariant)
  | none => .ok []
  | some variants =>
    match selectedResult selected variants with
    | some r => do
      let first ← m.variantToDict f64 freqWeight r
      let rest ← m.pyOthers f64 freqWeight selected 0 variants
      return first :: rest
    | none => m.pyOthers f64 freqWeight selected 0 variants

/-- One match.  Models bindings/python/src/lib.rs:761-803. -/
def Vm.pyMatch (m : Vm) (tags : List (List Char)) (f64 : Rounding) (freqWeight : Rat) (a : Match) :
    Res PyMatch := do
  let tags ← tagLists tags a.tag a.seqnr
  let variants ← m.pyVariants f64 freqWeight a.selected a.variants
  return { input := a.text, first := a.first, last := a.last, tags, variants }

/-- `find_all_matches`.  Models bindings/python/src/lib.rs:752-805. -/
def Vm.pyFindAllMatches (m : Vm) (tags : List (List Char)) (x : TextExt) (cfg : TextConfig)
    (p : TextParams) (text : List Char) : Res (List PyMatch) := do
  let ms ← m.findAllMatches x cfg p text
  collectSeq (m.pyMatch tags x.f64 p.variant.freqWeight) ms

/-! ## Building a model -/

/-- The methods that change a model (`set_confusables_before_pruning` only changes a setting). -/
inductive PyCall where
  | build (o : Orders)
  | addToVocabulary (text : List Char) (frequency : Option Nat) (params : VocabParams)
  | readVocabulary (filename : List Char) (params : VocabParams)
  | addContextrule (pattern : List Char) (score : Rat) (tag tagoffset : List (List Char))
  | readLexicon (filename : List Char)
  | readLm (filename : List Char)
  | readVariants (filename : List Char) (transparent : Bool)
  | readConfusablelist (filename : List Char)
  | readContextrules (filename : List Char)

/-- Reading a file into the vocabulary; a file that cannot be opened is an exception.  Models
bindings/python/src/lib.rs:623-628, 647-655, 659-667, 671-680. -/
def Loaded.readInto (x : LoadExt) (L : Loaded) (f : List Char)
    (read : Vm → List (Option (List Char)) → Res Vm) : Res (Loaded × Bool) :=
  match x.file f with
  | none => .ok (L, false)
  | some lines => do
    let m ← read L.vm lines
    return ({ L with vm := m }, true)

/-- A method call; false for an exception.  Models bindings/python/src/lib.rs:603-696. -/
def Loaded.call (x : LoadExt) (L : Loaded) : PyCall → Res (Loaded × Bool)
  | .build o => do
    let m ← L.vm.build o
    return ({ L with vm := m }, true)
  | .addToVocabulary text frequency params => do
    let (m, _) ← L.vm.addToVocabulary text frequency params
    return ({ L with vm := m }, true)
  | .readVocabulary f params => L.readInto x f fun m lines => m.readVocabulary f params lines
  | .addContextrule pattern score tag tagoffset => do
    let (book, ok) ← L.book.add ⟨x.isSpace, L.vm.lexicons, L.vm.encoder⟩ pattern score tag tagoffset
    return ({ L with book }, ok)
  | .readLexicon f => L.readInto x f fun m lines => m.readVocabulary f {} lines
  | .readLm f => L.readInto x f fun m lines => m.readVocabulary f { vocabType := .LM } lines
  | .readVariants f transparent =>
    L.readInto x f fun m lines => m.readVariants x.parseF64 f (some {}) transparent lines
  | .readConfusablelist f =>
    match x.file f with
    | none => .ok (L, false)
    | some lines => do
      let (confusables, ok) ← readConfusables x L.confusables lines
      return ({ L with confusables }, ok)
  | .readContextrules f =>
    match x.file f with
    | none => .ok (L, false)
    | some lines => do
      let (book, ok) ← L.book.read ⟨x.isSpace, L.vm.lexicons, L.vm.encoder⟩ x.parseF32 lines
      return ({ L with book }, ok)

/-- A program of calls that goes on after exceptions. -/
def Loaded.calls (x : LoadExt) : Loaded → List PyCall → Res Loaded
  | L, [] => .ok L
  | L, c :: cs => do
    let (L, _) ← L.call x c
    Loaded.calls x L cs

/-- The constructor.  Models bindings/python/src/lib.rs:595-599. -/
def LoadExt.pyNew (x : LoadExt) (alphabetFile : List Char) : Res Loaded := do
  let m ← x.newModel alphabetFile
  return ⟨m, [], ⟨[], []⟩⟩

/-! ## Parameters -/

/-- A Python value. -/
inductive PyVal where
  | none
  | bool (b : Bool)
  | int (i : Int)
  | float (x : EFloat)
  | str (s : List Char)
  | pair (a b : PyVal)
  | other

/-- An `int` as PyO3 sees it; a `bool` is an `int`. -/
def PyVal.asInt : PyVal → Option Int
  | .bool b => some (if b then 1 else 0)
  | .int i => some i
  | _ => Option.none

/-- Conversion to an unsigned integer up to `max`. -/
def PyVal.asUnsigned (max : Nat) (v : PyVal) : Option Nat :=
  match v.asInt with
  | some i => if 0 ≤ i ∧ i ≤ max then some i.toNat else Option.none
  | Option.none => Option.none

/-- Rounding a number to a floating point format. -/
def roundTo (r : Rounding) : EFloat → EFloat
  | .fin x => .fin (r.rnd x)
  | e => e

/-- The least natural number that rounds beyond the largest `f64`. -/
def f64Limit : Nat := 2 ^ 1024 - 2 ^ 970

/-- Conversion to `f64`; an `int` that would round to `2 ^ 1024` or beyond is out of range. -/
def PyVal.asF64 (f64 : Rounding) (v : PyVal) : Option EFloat :=
  match v with
  | .float x => some x
  | v =>
    match v.asInt with
    | some i => if i.natAbs < f64Limit then some (.fin (f64.rnd i)) else Option.none
    | Option.none => Option.none

/-- Conversion to `f32`, by way of `f64`. -/
def PyVal.asF32 (f32 f64 : Rounding) (v : PyVal) : Option EFloat := (v.asF64 f64).map (roundTo f32)

/-- Conversion to `bool`. -/
def PyVal.asBool : PyVal → Option Bool
  | .bool b => some b
  | _ => Option.none

/-- `extract_distance_threshold`.  Models bindings/python/src/lib.rs:116-134. -/
def extractThreshold (f32 f64 : Rounding) (parseF32 : List Char → Option EFloat) (v : PyVal) :
    Option ParsedThreshold :=
  match (match v with
    | .pair a b =>
      match a.asF32 f32 f64, b.asUnsigned 255 with
      | some x, some n => some (x, n)
      | _, _ => Option.none
    | _ => Option.none) with
  | some (x, n) => some (.ratioWithLimit x n)
  | Option.none =>
    match v.asUnsigned 255 with
    | some n => some (.absolute n)
    | Option.none =>
      match v.asF32 f32 f64 with
      | some x => some (.ratio x)
      | Option.none =>
        match v with
        | .str s => parseThreshold parseF32 s
        | _ => Option.none

/-- The keyword arguments of `SearchParameters` (and any other). -/
inductive PyKey where
  | maxAnagramDistance | maxEditDistance | maxMatches | scoreThreshold | cutoffThreshold | maxNgram
  | maxSeq | stopAtExactMatch | singleThread | unicodeoffsets | freqWeight | lmWeight
  | contextrulesWeight | variantmodelWeight | contextWeight | consolidateMatches
  | other (s : List Char)
  deriving DecidableEq

/-- What conversion of arguments depends on. -/
structure PyExt where
  f32 : Rounding
  f64 : Rounding
  parseF32 : List Char → Option EFloat

/-- One keyword argument; a value that cannot be converted is passed over.  Models
bindings/python/src/lib.rs:150-253. -/
def PyExt.setParam (x : PyExt) (p : SearchParameters) (k : PyKey) (v : PyVal) : SearchParameters :=
  match k with
  | .maxAnagramDistance =>
    match extractThreshold x.f32 x.f64 x.parseF32 v with
    | some t => { p with maxAnagramDistance := t }
    | Option.none => p
  | .maxEditDistance =>
    match extractThreshold x.f32 x.f64 x.parseF32 v with
    | some t => { p with maxEditDistance := t }
    | Option.none => p
  | .maxMatches => (v.asUnsigned (2 ^ 64 - 1)).elim p fun n => { p with maxMatches := n }
  | .scoreThreshold => (v.asF64 x.f64).elim p fun q => { p with scoreThreshold := q }
  | .cutoffThreshold => (v.asF64 x.f64).elim p fun q => { p with cutoffThreshold := q }
  | .maxNgram => (v.asUnsigned 255).elim p fun n => { p with maxNgram := n }
  | .maxSeq => (v.asUnsigned (2 ^ 64 - 1)).elim p fun n => { p with maxSeq := n }
  | .stopAtExactMatch => v.asBool.elim p fun b =>
    { p with stopCriterion := if b then .stopAtExactMatch else .exhaustive }
  | .singleThread => v.asBool.elim p fun b => { p with singleThread := b }
  | .unicodeoffsets => v.asBool.elim p fun b => { p with unicodeoffsets := b }
  | .freqWeight => (v.asF32 x.f32 x.f64).elim p fun q => { p with freqWeight := q }
  | .lmWeight => (v.asF32 x.f32 x.f64).elim p fun q => { p with lmWeight := q }
  | .contextrulesWeight => (v.asF32 x.f32 x.f64).elim p fun q => { p with contextrulesWeight := q }
  | .variantmodelWeight => (v.asF32 x.f32 x.f64).elim p fun q => { p with variantmodelWeight := q }
  | .contextWeight => (v.asF32 x.f32 x.f64).elim p fun q => { p with contextWeight := q }
  | .consolidateMatches => v.asBool.elim p fun b => { p with consolidateMatches := b }
  | .other _ => p

/-- `new`.  Models bindings/python/src/lib.rs:146-258. -/
def PyExt.newParams (x : PyExt) (kwargs : List (PyKey × PyVal)) : SearchParameters :=
  kwargs.foldl (fun p a => x.setParam p a.1 a.2) .default

/-- What a threshold reads back as; a ratio with a limit is a dictionary.  Models
bindings/python/src/lib.rs:260-293. -/
def ParsedThreshold.toPy : ParsedThreshold → PyVal
  | .absolute n => .int n
  | .ratio q => .float q
  | .ratioWithLimit _ _ => .other

/-- `to_dict`.  Models bindings/python/src/lib.rs:427-446 and the getters at 294-345. -/
def SearchParameters.toDict (p : SearchParameters) : List (PyKey × PyVal) :=
  [(.maxAnagramDistance, p.maxAnagramDistance.toPy), (.maxEditDistance, p.maxEditDistance.toPy),
   (.maxMatches, .int p.maxMatches), (.scoreThreshold, .float p.scoreThreshold),
   (.cutoffThreshold, .float p.cutoffThreshold), (.maxNgram, .int p.maxNgram), (.maxSeq, .int p.maxSeq),
   (.singleThread, .bool p.singleThread), (.contextWeight, .float p.contextWeight),
   (.freqWeight, .float p.freqWeight), (.lmWeight, .float p.lmWeight),
   (.contextrulesWeight, .float p.contextrulesWeight), (.variantmodelWeight, .float p.variantmodelWeight),
   (.consolidateMatches, .bool p.consolidateMatches), (.unicodeoffsets, .bool p.unicodeoffsets)]

/-- An assignment to an attribute; an exception if the value does not convert or the attribute can only
be read.  The class has a `__dict__`, so other attributes can be set but mean nothing.  Models
bindings/python/src/lib.rs:136, 347-425. -/
def PyExt.assign (x : PyExt) (p : SearchParameters) (k : PyKey) (v : PyVal) : Option SearchParameters :=
  match k with
  | .maxAnagramDistance =>
    (extractThreshold x.f32 x.f64 x.parseF32 v).map fun t => { p with maxAnagramDistance := t }
  | .maxEditDistance =>
    (extractThreshold x.f32 x.f64 x.parseF32 v).map fun t => { p with maxEditDistance := t }
  | .maxMatches => (v.asUnsigned (2 ^ 64 - 1)).map fun n => { p with maxMatches := n }
  | .maxNgram => (v.asUnsigned 255).map fun n => { p with maxNgram := n }
  | .maxSeq => (v.asUnsigned (2 ^ 64 - 1)).map fun n => { p with maxSeq := n }
  | .singleThread => v.asBool.map fun b => { p with singleThread := b }
  | .contextWeight => (v.asF32 x.f32 x.f64).map fun q => { p with contextWeight := q }
  | .freqWeight => (v.asF32 x.f32 x.f64).map fun q => { p with freqWeight := q }
  | .lmWeight => (v.asF32 x.f32 x.f64).map fun q => { p with lmWeight := q }
  | .contextrulesWeight => (v.asF32 x.f32 x.f64).map fun q => { p with contextrulesWeight := q }
  | .variantmodelWeight => (v.asF32 x.f32 x.f64).map fun q => { p with variantmodelWeight := q }
  | .consolidateMatches => v.asBool.map fun b => { p with consolidateMatches := b }
  | .unicodeoffsets => v.asBool.map fun b => { p with unicodeoffsets := b }
  | .stopAtExactMatch => v.asBool.map fun b =>
    { p with stopCriterion := if b then .stopAtExactMatch else .exhaustive }
  | .scoreThreshold | .cutoffThreshold => Option.none
  | .other _ => some p

/-- The keyword arguments of `VocabParams` (and any other). -/
inductive PyVocabKey where
  | textColumn | freqColumn | index | freqhandling | vocabtype
  | other (s : List Char)
  deriving DecidableEq

/-- The names of ways of handling frequencies.  Models bindings/python/src/lib.rs:479-495. -/
def pyHandling (s : List Char) : Option FrequencyHandling :=
  if s = "sum".toList then some .sum
  else if s = "max".toList then some .max
  else if s = "min".toList then some .min
  else if s = "replace".toList then some .replace
  else none

/-- The names of kinds of vocabularies.  Models bindings/python/src/lib.rs:496-508. -/
def pyVocabType (s : List Char) : Option VocabType :=
  if s = "NONE".toList then some .NONE
  else if s = "INDEXED".toList then some .INDEXED
  else if s = "TRANSPARENT".toList then some (VocabType.TRANSPARENT.union .INDEXED)
  else if s = "LM".toList then some .LM
  else none

/-- One keyword argument; an exception for a value of `freqhandling` or `vocabtype` that is no string.
`None` for the column of frequencies is passed over, since it matches the outer of two options.  Models
bindings/python/src/lib.rs:462-512. -/
def setVocabParam (p : VocabParams) (k : PyVocabKey) (v : PyVal) : Option VocabParams :=
  match k with
  | .textColumn => some ((v.asUnsigned 255).elim p fun n => { p with textColumn := n })
  | .freqColumn => some ((v.asUnsigned 255).elim p fun n => { p with freqColumn := some n })
  | .index => some ((v.asUnsigned 255).elim p fun n => { p with index := n })
  | .freqhandling =>
    match v with
    | .str s => some ((pyHandling s).elim p fun h => { p with freqHandling := h })
    | _ => Option.none
  | .vocabtype =>
    match v with
    | .str s => some ((pyVocabType s).elim p fun t => { p with vocabType := t })
    | _ => Option.none
  | .other _ => some p

/-- `new`.  Models bindings/python/src/lib.rs:458-516. -/
def newVocabParams : List (PyVocabKey × PyVal) → Option VocabParams :=
  List.foldlM (fun p a => setVocabParam p a.1 a.2) {}

end Verif.Model
