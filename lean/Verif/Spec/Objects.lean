import Verif.Spec.Divided
import Verif.Spec.Document
import Verif.Spec.Resources

/-!
# Specification: suggestions in JSON
-/
namespace Verif.Spec

open Verif.Model

/-- The object for a suggestion: the word and its scores, the word it was found by, if another, and with
`--output-lexmatch` the names of the sources (`as`, with names `names`) that have it. -/
def SuggestionObject (x : ToolExt) (c : CommandLine) (names : List (List Char))
    (as : List (List (List Char × Option Nat × VocabParams))) (p : Params) (u : Suggestion) (j : Json) : Prop :=
  ∃ lex, ((¬ Given c .outputLexmatch ∧ lex = []) ∨
      (Given c .outputLexmatch ∧ ∃ has : List Char × List (List Char × Option Nat × VocabParams) → Bool,
        (∀ n, has n = true ↔ ∃ a ∈ n.2, a.1 = u.word) ∧
        lex = [("lexicons".toList, Json.arr (((names.zip as).filter has).map fun n => .str n.1))])) ∧
    j = .obj ([("text".toList, .str u.word),
      ("score".toList, .num (x.showF (u.overall x.text.f64 p.freqWeight))),
      ("dist_score".toList, .num (x.showF u.score)),
      ("freq_score".toList, .num (x.showF u.freq))] ++
      (u.via.map fun t => ("via".toList, Json.str t)).toList ++ lex)

/-- The object for a text of a query: the text and the objects for what is suggested for it. -/
def QueryAnswer (x : ToolExt) (c : CommandLine) (alphabet : Alphabet) (L : Lexis) (cfg : Config)
    (as : List (List (List Char × Option Nat × VocabParams))) (p : Params) (text : List Char) (j : Json) :
    Prop :=
  ∃ us js, Suggestions x.text alphabet L cfg p text us ∧
    List.Forall₂ (SuggestionObject x c ((sourcesGiven c).map Source.name) as p) us js ∧
    j = .obj [("input".toList, .str text), ("variants".toList, .arr js)]

/-- The object for a place in a text: the text there, its offsets in bytes, and what is found. -/
def placeObject (b : Nat) (t : List Char) (js : List Json) : Json :=
  .obj [("input".toList, .str t), ("begin".toList, .num (Nat.toDigits 10 b)),
    ("end".toList, .num (Nat.toDigits 10 (b + byteLen t))), ("variants".toList, .arr js)]

/-- The object for a word of a text, with what is suggested for it. -/
def WordAnswer (x : ToolExt) (c : CommandLine) (alphabet : Alphabet) (L : Lexis) (cfg : Config)
    (as : List (List (List Char × Option Nat × VocabParams))) (p : Params) (u : Nat × List Char) (j : Json) :
    Prop :=
  ∃ us js, Suggestions x.text alphabet L cfg p u.2 us ∧
    List.Forall₂ (SuggestionObject x c ((sourcesGiven c).map Source.name) as p) us js ∧
    j = placeObject u.1 u.2 js

/-- The object for a stretch of a text, with what is suggested for it, the suggestion that was chosen first. -/
def StretchAnswer (x : ToolExt) (c : CommandLine)
    (as : List (List (List Char × Option Nat × VocabParams))) (p : Params)
    (found : List Char → List Suggestion) (r : Nat × List Char × Option Nat) (j : Json) : Prop :=
  ∃ us js, Listed (found r.2.1) r.2.2 us ∧
    List.Forall₂ (SuggestionObject x c ((sourcesGiven c).map Source.name) as p) us js ∧
    j = placeObject r.1 r.2.1 js

end Verif.Spec
