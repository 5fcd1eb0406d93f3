import Verif.Spec.Suggest
import Verif.Spec.Load

/-!
# Specification: what lexicons, variant lists and error lists say about words
-/
namespace Verif.Spec

open Verif.Model

/-- The links a source gives, in order: reference, variant and score. -/
inductive Gives (x : LoadExt) : Source → List (List Char × List Char × Rat) → Prop
  | lexicon {f} : Gives x (.lexicon f) []
  | lm {f} : Gives x (.lm f) []
  | variants {f lines es} : x.file f = some lines → VariantLines x.parseF64 none (nonEmpty lines) es →
      Gives x (.variants f) (es.flatMap fun e => e.variants.map fun v => (e.reference, v.1, v.2.1))
  | errors {f lines es} : x.file f = some lines → VariantLines x.parseF64 none (nonEmpty lines) es →
      Gives x (.errors f) (es.flatMap fun e => e.variants.map fun v => (e.reference, v.1, v.2.1))

/-- Links between different words. -/
def proper (ks : List (List Char × List Char × Rat)) : List (List Char × List Char × Rat) :=
  ks.filter fun k => k.1 ≠ k.2.1

/-- What the sources `ss`, with the words `as` and the links `ks`, say about words.  A word is looked up if
the first source that has it is one of those whose words are looked up; its frequency is the greatest one
given; frequencies count if a lexicon has a word; it is an error if it is only given as one; and it is
linked as the lists say, in order. -/
def lexisFrom (ss : List Source) (as : List (List (List Char × Option Nat × VocabParams)))
    (ks : List (List (List Char × List Char × Rat))) : Lexis :=
  { indexed := fun t => ¬ Reserved t ∧
      ∃ a, as.flatten.find? (fun a => a.1 = t) = some a ∧ a.2.2.vocabType.indexed = true
    freq := fun t => ((as.flatten.filter fun a => a.1 = t).map fun a => a.2.1.getD 1).foldr max 0
    counted := (ss.zip as).any fun y => match y.1 with | .lexicon _ => !y.2.isEmpty | _ => false
    transparent := fun t => as.flatten.all fun a => a.1 ≠ t || a.2.2.vocabType.transparent
    links := fun t => ((proper ks.flatten).filter fun k => k.2.1 = t).map fun k => (k.1, k.2.2)
    linked := fun t => ∃ k ∈ proper ks.flatten, k.1 = t ∨ k.2.1 = t }

/-- The lexicons, variant lists and error lists of a command line, in order, and the language models. -/
def sourcesGiven (c : CommandLine) : List Source :=
  (c.given.filterMap resourceOf).map sourceOf ++
    (c.given.filterMap fun g => if g.1 = .lm then some g.2 else none).map .lm

/-- The confusables in the files of a command line, in order. -/
def ConfusablesGiven (x : ToolExt) (c : CommandLine) (cs : List Confusable) : Prop :=
  ∃ css, List.Forall₂ (fun f new => ∃ lines, x.load.file f = some lines ∧
      List.Forall₂ (ConfusableLine x.load) (nonEmpty lines) new)
    (c.given.filterMap fun g => if g.1 = .confusables then some g.2 else none) css ∧ cs = css.flatten

/-- The columns for a suggestion: the word, its score, an empty one, and with `--output-lexmatch` the names
of the sources (`as`, with names `names`) that have it. -/
def SuggestionColumn (x : ToolExt) (c : CommandLine) (names : List (List Char))
    (as : List (List (List Char × Option Nat × VocabParams))) (p : Params) (u : Suggestion)
    (col : List Char) : Prop :=
  ∃ lex, ((¬ Given c .outputLexmatch ∧ lex = []) ∨
      (Given c .outputLexmatch ∧ ∃ has : List Char × List (List Char × Option Nat × VocabParams) → Bool,
        (∀ n, has n = true ↔ ∃ a ∈ n.2, a.1 = u.word) ∧
        lex = '\t' :: '"' :: [';'].intercalate (((names.zip as).filter has).map Prod.fst) ++ ['"'])) ∧
    col = '\t' :: u.word ++ '\t' :: x.showF (u.overall x.text.f64 p.freqWeight) ++ '\t' :: lex

/-- The columns for the suggestions for a text. -/
def SuggestionColumns (x : ToolExt) (c : CommandLine) (alphabet : Alphabet) (L : Lexis) (cfg : Config)
    (as : List (List (List Char × Option Nat × VocabParams))) (p : Params) (text : List Char)
    (cols : List (List Char)) : Prop :=
  ∃ us, Suggestions x.text alphabet L cfg p text us ∧
    List.Forall₂ (SuggestionColumn x c ((sourcesGiven c).map Source.name) as p) us cols

/-- The row of a query: the text and the columns for the suggestions. -/
def SuggestionRow (x : ToolExt) (c : CommandLine) (alphabet : Alphabet) (L : Lexis) (cfg : Config)
    (as : List (List (List Char × Option Nat × VocabParams))) (p : Params) (text row : List Char) : Prop :=
  ∃ us cols, Suggestions x.text alphabet L cfg p text us ∧
    List.Forall₂ (SuggestionColumn x c ((sourcesGiven c).map Source.name) as p) us cols ∧
    row = text ++ cols.flatten ++ ['\n']

end Verif.Spec
