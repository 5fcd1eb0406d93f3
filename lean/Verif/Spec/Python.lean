import Verif.Model.Python
import Verif.Spec.Cli
import Verif.Spec.Load
import Verif.Spec.Options

/-!
# Specification: what the Python bindings return
-/
namespace Verif.Spec

open Verif.Model

/-- The dictionary for a variant. -/
structure VariantDict (m : Vm) (f64 : Rounding) (freqWeight : Rat) (r : VariantResult) (d : PyVariant) :
    Prop where
  text : ∃ v, m.decoder[r.vocabId]? = some v ∧ d.text = v.text ∧
    d.lexicons = (m.lexicons.zipIdx.filter fun n => v.lexindex.testBit n.2).map fun n => n.1
  score : d.score = r.score f64 freqWeight
  dist : d.distScore = r.distScore
  freq : d.freqScore = r.freqScore
  via : (r.via = none ∧ d.via = none) ∨
    ∃ id w, r.via = some id ∧ m.decoder[id]? = some w ∧ d.via = some w.text

/-- The dictionary for a match: the selected variant comes first, the others stay in their order. -/
structure MatchDict (m : Vm) (tags : List (List Char)) (f64 : Rounding) (freqWeight : Rat) (a : Match)
    (d : PyMatch) : Prop where
  input : d.input = a.text
  first : d.first = a.first
  last : d.last = a.last
  tags : (a.tag = [] ∧ d.tags = none) ∨ (a.tag ≠ [] ∧ ∃ names,
    List.Forall₂ (fun t n => tags[t]? = some n) (a.tag.take a.seqnr.length) names ∧
      d.tags = some (names, a.seqnr.take a.tag.length))
  variants : ∃ l, Listed (a.variants.getD []) a.selected l ∧
    List.Forall₂ (VariantDict m f64 freqWeight) l d.variants

/-- The file a call reads words from. -/
def wordFile : PyCall → Option (List Char)
  | .readVocabulary f _ => some f
  | .readLexicon f => some f
  | .readLm f => some f
  | .readVariants f _ => some f
  | _ => none

/-- The files words are read from: those that can be opened. -/
def wordFiles (x : LoadExt) (cs : List PyCall) : List (List Char) :=
  (cs.filterMap wordFile).filter fun f => (x.file f).isSome

/-- What a call adds, with `i` files read before. -/
inductive CallAdds (x : LoadExt) (i : Nat) : PyCall → List (List Char × Option Nat × VocabParams) → Prop
  | build {o} : CallAdds x i (.build o) []
  | add {t f p} : CallAdds x i (.addToVocabulary t f p) [(t, f, p)]
  | vocabulary {f p lines es} : x.file f = some lines →
      List.Forall₂ (VocabLine p) (nonEmpty lines) es →
      CallAdds x i (.readVocabulary f p) (es.map fun e => (e.1, some e.2, { p with index := i % 256 }))
  | lexicon {f a} : Adds x (i % 256) (.lexicon f) a → CallAdds x i (.readLexicon f) a
  | lm {f a} : Adds x (i % 256) (.lm f) a → CallAdds x i (.readLm f) a
  | variants {f a} : Adds x (i % 256) (.variants f) a → CallAdds x i (.readVariants f false) a
  | errors {f a} : Adds x (i % 256) (.errors f) a → CallAdds x i (.readVariants f true) a
  | noFile {c f} : wordFile c = some f → x.file f = none → CallAdds x i c []
  | rule {p s t o} : CallAdds x i (.addContextrule p s t o) []
  | confusables {f} : CallAdds x i (.readConfusablelist f) []
  | rules {f} : CallAdds x i (.readContextrules f) []

/-- What a program of calls adds, with `i` files read before. -/
inductive CallsAdd (x : LoadExt) : Nat → List PyCall →
    List (List Char × Option Nat × VocabParams) → Prop
  | nil {i} : CallsAdd x i [] []
  | cons {i c cs a b} : CallAdds x i c a → CallsAdd x (i + (wordFiles x [c]).length) cs b →
      CallsAdd x i (c :: cs) (a ++ b)

/-! ## Parameters -/

/-- A whole number; truth values are 1 and 0. -/
inductive WholeNumber : PyVal → Int → Prop
  | int {i} : WholeNumber (.int i) i
  | true : WholeNumber (.bool true) 1
  | false : WholeNumber (.bool false) 0

/-- A natural number up to `max`. -/
def Natural (max : Nat) (v : PyVal) (n : Nat) : Prop := WholeNumber v n ∧ n ≤ max

/-- Midway between the largest number in double precision and the next power of two. -/
def doubleLimit : Nat := 2 ^ 1024 - 2 ^ 970

/-- A number in double precision: a float, or a whole number that is rounded. -/
inductive Double (f64 : Rounding) : PyVal → EFloat → Prop
  | float {q} : Double f64 (.float q) q
  | whole {v i} : WholeNumber v i → i.natAbs < doubleLimit → Double f64 v (.fin (f64.rnd i))

/-- A number in single precision, which is rounded from double precision. -/
def Single (x : PyExt) (v : PyVal) (q : EFloat) : Prop :=
  (∃ a, Double x.f64 v (.fin a) ∧ q = .fin (x.f32.rnd a)) ∨ (Double x.f64 v q ∧ ∀ a, q ≠ .fin a)

/-- A truth value. -/
def Truth (v : PyVal) (b : Bool) : Prop := v = .bool b

/-- When to stop. -/
def Stop (v : PyVal) (s : StopCriterion) : Prop :=
  (v = .bool true ∧ s = .stopAtExactMatch) ∨ (v = .bool false ∧ s = .exhaustive)

/-- A value as a threshold: a natural number up to 255 is one, any other number is a ratio, a pair is a
ratio and a limit, and a text is read as on the command line. -/
inductive ThresholdValue (x : PyExt) : PyVal → ParsedThreshold → Prop
  | absolute {v n} : Natural 255 v n → ThresholdValue x v (.absolute n)
  | ratio {v q} : (∀ n, ¬ Natural 255 v n) → Single x v q → ThresholdValue x v (.ratio q)
  | pair {a b q n} : Single x a q → Natural 255 b n → ThresholdValue x (.pair a b) (.ratioWithLimit q n)
  | text {s t} : ThresholdText x.parseF32 s t → ThresholdValue x (.str s) t

/-- What a keyword argument leads to: its value if it is given and can be converted, and the default
otherwise. -/
def Argument {κ α : Type} (kwargs : List (κ × PyVal)) (k : κ) (conv : PyVal → α → Prop) (d r : α) : Prop :=
  (∃ v, (k, v) ∈ kwargs ∧ conv v r) ∨ ((∀ v, (k, v) ∈ kwargs → ∀ a, ¬ conv v a) ∧ r = d)

/-- The parameters that keyword arguments ask for. -/
structure SearchArguments (x : PyExt) (kwargs : List (PyKey × PyVal)) (p : SearchParameters) : Prop where
  anagram : Argument kwargs .maxAnagramDistance (ThresholdValue x) (.absolute 3) p.maxAnagramDistance
  edit : Argument kwargs .maxEditDistance (ThresholdValue x) (.absolute 3) p.maxEditDistance
  «matches» : Argument kwargs .maxMatches (Natural (2 ^ 64 - 1)) 20 p.maxMatches
  score : Argument kwargs .scoreThreshold (Double x.f64) (.fin (1 / 4)) p.scoreThreshold
  cutoff : Argument kwargs .cutoffThreshold (Double x.f64) (.fin 2) p.cutoffThreshold
  stop : Argument kwargs .stopAtExactMatch Stop .exhaustive p.stopCriterion
  ngram : Argument kwargs .maxNgram (Natural 255) 3 p.maxNgram
  order : p.lmOrder = 3
  seq : Argument kwargs .maxSeq (Natural (2 ^ 64 - 1)) 250 p.maxSeq
  thread : Argument kwargs .singleThread Truth false p.singleThread
  context : Argument kwargs .contextWeight (Single x) (.fin 0) p.contextWeight
  variantmodel : Argument kwargs .variantmodelWeight (Single x) (.fin 3) p.variantmodelWeight
  lm : Argument kwargs .lmWeight (Single x) (.fin 1) p.lmWeight
  rules : Argument kwargs .contextrulesWeight (Single x) (.fin 1) p.contextrulesWeight
  freq : Argument kwargs .freqWeight (Single x) (.fin 0) p.freqWeight
  consolidate : Argument kwargs .consolidateMatches Truth true p.consolidateMatches
  offsets : Argument kwargs .unicodeoffsets Truth false p.unicodeoffsets

/-- A number that single precision can represent. -/
def IsSingle (f32 : Rounding) (q : EFloat) : Prop := ∀ a, q = .fin a → f32.rnd a = a

/-- A threshold that fits its types. -/
def ThresholdFits (f32 : Rounding) : ParsedThreshold → Prop
  | .absolute n => n ≤ 255
  | .ratio q => IsSingle f32 q
  | .ratioWithLimit q n => IsSingle f32 q ∧ n ≤ 255

/-- Parameters that fit their types. -/
structure ParamsFit (f32 : Rounding) (p : SearchParameters) : Prop where
  anagram : ThresholdFits f32 p.maxAnagramDistance
  edit : ThresholdFits f32 p.maxEditDistance
  «matches» : p.maxMatches < 2 ^ 64
  ngram : p.maxNgram ≤ 255
  seq : p.maxSeq < 2 ^ 64
  context : IsSingle f32 p.contextWeight
  variantmodel : IsSingle f32 p.variantmodelWeight
  lm : IsSingle f32 p.lmWeight
  rules : IsSingle f32 p.contextrulesWeight
  freq : IsSingle f32 p.freqWeight

/-- What becomes of a threshold that is read back and given again: a ratio with a limit is lost. -/
def ReadBack : ParsedThreshold → ParsedThreshold → Prop
  | .ratioWithLimit _ _, t => t = .absolute 3
  | t, t' => t' = t

/-- How frequencies are combined, by name. -/
inductive HandlingName : PyVal → FrequencyHandling → Prop
  | sum : HandlingName (.str "sum".toList) .sum
  | max : HandlingName (.str "max".toList) .max
  | min : HandlingName (.str "min".toList) .min
  | replace : HandlingName (.str "replace".toList) .replace

/-- Kinds of vocabulary, by name; transparent entries are looked up. -/
inductive KindName : PyVal → VocabType → Prop
  | none : KindName (.str "NONE".toList) { indexed := false }
  | indexed : KindName (.str "INDEXED".toList) { indexed := true }
  | transparent : KindName (.str "TRANSPARENT".toList) { indexed := true, transparent := true }
  | lm : KindName (.str "LM".toList) { indexed := false, lm := true }

/-- The parameters for vocabularies that keyword arguments ask for. -/
structure VocabArguments (kwargs : List (PyVocabKey × PyVal)) (p : VocabParams) : Prop where
  text : Argument kwargs .textColumn (Natural 255) 0 p.textColumn
  freq : Argument kwargs .freqColumn (fun v c => ∃ n, Natural 255 v n ∧ c = some n) (some 1) p.freqColumn
  index : Argument kwargs .index (Natural 255) 0 p.index
  handling : Argument kwargs .freqhandling HandlingName .max p.freqHandling
  kind : Argument kwargs .vocabtype KindName { indexed := true } p.vocabType

end Verif.Spec
