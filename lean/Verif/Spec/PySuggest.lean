import Verif.Spec.Python
import Verif.Spec.Resources

/-!
# Specification: what a Python program that loads resources is told about a text
-/
namespace Verif.Spec

open Verif.Model

/-- The links a call gives: reference, variant and score.  Only reading a list of variants gives any, and
nothing is read from a file that cannot be opened. -/
inductive CallGives (x : LoadExt) : PyCall → List (List Char × List Char × Rat) → Prop
  | variants {f t lines es} : x.file f = some lines → VariantLines x.parseF64 none (nonEmpty lines) es →
      CallGives x (.readVariants f t)
        (es.flatMap fun e => e.variants.map fun v => (e.reference, v.1, v.2.1))
  | noFile {f t} : x.file f = none → CallGives x (.readVariants f t) []
  | other {c} : (∀ f t, c ≠ .readVariants f t) → CallGives x c []

/-- The confusables a call adds.  Those before a line that stands for none stay added when reading stops
there with an exception. -/
inductive CallConfuses (x : LoadExt) : PyCall → List Confusable → Prop
  | all {f lines new} : x.file f = some lines →
      List.Forall₂ (ConfusableLine x) (nonEmpty lines) new → CallConfuses x (.readConfusablelist f) new
  | stopped {f lines good bad rest new} : x.file f = some lines → nonEmpty lines = good ++ bad :: rest →
      List.Forall₂ (ConfusableLine x) good new → (∀ c, ¬ ConfusableLine x bad c) →
      CallConfuses x (.readConfusablelist f) new
  | noFile {f} : x.file f = none → CallConfuses x (.readConfusablelist f) []
  | other {c} : (∀ f, c ≠ .readConfusablelist f) → CallConfuses x c []

/-- Frequencies count after this call: it reads words that are looked up, with their frequencies, from a
file that has some. -/
inductive CallCounts (x : LoadExt) : PyCall → Prop
  | vocabulary {f p k lines} : x.file f = some lines → nonEmpty lines ≠ [] → p.freqColumn = some k →
      p.vocabType.indexed = true → CallCounts x (.readVocabulary f p)
  | lexicon {f lines} : x.file f = some lines → nonEmpty lines ≠ [] → CallCounts x (.readLexicon f)

/-- The frequency of a word that was added once or more: the first one given, combined with each later one
as that addition asks.  If none is given, it is 1. -/
def frequencyIn (a : List (List Char × Option Nat × VocabParams)) (t : List Char) : Nat :=
  match a.filter fun y => y.1 = t with
  | [] => 0
  | b :: bs => bs.foldl (fun n y => match y.2.2.freqHandling with
      | .sum => n + y.2.1.getD 1
      | .max => max n (y.2.1.getD 1)
      | .min => min n (y.2.1.getD 1)
      | .replace => y.2.1.getD 1) (b.2.1.getD 1)

/-- What a program says about words, with what it adds and the links it gives.  A word is looked up if its
first addition asks for it, and an error if all additions say so. -/
def programLexis (counted : Bool) (a : List (List Char × Option Nat × VocabParams))
    (ks : List (List Char × List Char × Rat)) : Lexis :=
  { indexed := fun t => ¬ Reserved t ∧ ∃ y, a.find? (fun y => y.1 = t) = some y ∧
      y.2.2.vocabType.indexed = true
    freq := frequencyIn a
    counted := counted
    transparent := fun t => a.all fun y => y.1 ≠ t || y.2.2.vocabType.transparent
    links := fun t => ((proper ks).filter fun k => k.2.1 = t).map fun k => (k.1, k.2.2)
    linked := fun t => ∃ k ∈ proper ks, k.1 = t ∨ k.2.1 = t }

/-- The dictionary for a suggestion.  The lexicons are the files whose number an addition of the word
has. -/
structure SuggestionDict (files : List (List Char)) (a : List (List Char × Option Nat × VocabParams))
    (f64 : Rounding) (freqWeight : Rat) (u : Suggestion) (d : PyVariant) : Prop where
  text : d.text = u.word
  score : d.score = u.overall f64 freqWeight
  dist : d.distScore = u.score
  freq : d.freqScore = u.freq
  via : d.via = u.via
  lexicons : ∃ has : Nat → Bool,
    (∀ i < 32, has i = true ↔ ∃ y ∈ a, y.1 = u.word ∧ y.2.2.index = i) ∧
    d.lexicons = (files.zipIdx.filter fun n => has n.2).map fun n => n.1

/-- A program of calls that ends with `build`, with what it adds, the links it gives and its
confusables. -/
structure Program (x : LoadExt) (alphabetFile : List Char) (cs : List PyCall) (alphabet : Alphabet)
    (a : List (List Char × Option Nat × VocabParams)) (ks : List (List Char × List Char × Rat))
    (confusables : List Confusable) (counted : Bool) : Prop where
  alphabet : ∃ lines, x.file alphabetFile = some lines ∧
    List.Forall₂ (AlphabetLine x.isSpace) (nonEmpty lines) alphabet
  adds : CallsAdd x 0 cs a
  gives : ∃ kss, List.Forall₂ (CallGives x) cs kss ∧ ks = kss.flatten
  confuses : ∃ css, List.Forall₂ (CallConfuses x) cs css ∧ confusables = css.flatten
  counts : counted = true ↔ ∃ c ∈ cs, CallCounts x c

end Verif.Spec
