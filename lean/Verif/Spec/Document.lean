import Verif.Spec.Tool

/-!
# Specification: the JSON output of a run
-/
namespace Verif.Spec

open Verif.Model

/-- The options that name files with words. -/
def wordOptions : List OptName := [.lexicon, .variants, .errors, .lm]

/-- The files and file names on the command line have no characters that would need an escape in JSON,
except for quotes (not in the files of rules) and the tabs between columns; and floating point numbers are
written as JSON numbers. -/
structure CleanFiles (x : ToolExt) (c : CommandLine) : Prop where
  names : ∀ o ∈ wordOptions, ∀ f, (o, f) ∈ c.given → Plain f
  words : ∀ o ∈ wordOptions, ∀ f lines, (o, f) ∈ c.given → x.load.file f = some lines →
    ∀ l, some l ∈ lines → ∀ ch ∈ l, ch = '\t' ∨ Plain [ch]
  rules : ∀ f lines, (.contextrules, f) ∈ c.given → x.load.file f = some lines →
    ∀ l, some l ∈ lines → ∀ ch ∈ l, ch = '\t' ∨ (Plain [ch] ∧ ch ≠ '"')
  numbers : ∀ q, NumText (x.showF q)

/-- The object for a variant: its text and scores, the variant it was found through, if any, and with
`--output-lexmatch` the names of the lexicons it is in. -/
def VariantObject (x : ToolExt) (c : CommandLine) (L : Loaded) (p : TextParams) (r : VariantResult)
    (j : Json) : Prop :=
  ∃ v via lex, L.vm.decoder[r.vocabId]? = some v ∧
    ((r.via = none ∧ via = []) ∨ ∃ id u, r.via = some id ∧ L.vm.decoder[id]? = some u ∧
      via = [("via".toList, Json.str u.text)]) ∧
    ((¬ Given c .outputLexmatch ∧ lex = []) ∨ (Given c .outputLexmatch ∧
      lex = [("lexicons".toList, Json.arr (((L.vm.lexicons.zipIdx.filter fun n =>
        v.lexindex.testBit n.2).map fun n => .str n.1)))])) ∧
    j = .obj ([("text".toList, .str v.text),
      ("score".toList, .num (x.showF (r.score x.text.f64 p.variant.freqWeight))),
      ("dist_score".toList, .num (x.showF r.distScore)),
      ("freq_score".toList, .num (x.showF r.freqScore))] ++ via ++ lex)

/-- The object for an input of a query. -/
def QueryObject (x : ToolExt) (c : CommandLine) (L : Loaded) (p : TextParams) (input : List Char)
    (found : List VariantResult) (j : Json) : Prop :=
  ∃ js, List.Forall₂ (VariantObject x c L p) found js ∧
    j = .obj [("input".toList, .str input), ("variants".toList, .arr js)]

/-- The object for a match of a search: its text and offsets, the names of its tags with the numbers in
their sequences, if it has tags, and its variants, if they were looked for, with the one that was selected
first. -/
def SearchObject (x : ToolExt) (c : CommandLine) (L : Loaded) (p : TextParams) (a : Match) (j : Json) :
    Prop :=
  ∃ tags vars, ((a.tag = [] ∧ tags = []) ∨ (a.tag ≠ [] ∧ ∃ names,
      List.Forall₂ (fun t n => L.book.tags[t]? = some n) a.tag names ∧
      tags = [("tag".toList, Json.arr (names.map .str)),
        ("seqnr".toList, Json.arr (a.seqnr.map fun n => .num (Nat.toDigits 10 n)))])) ∧
    (match a.variants with
      | none => vars = []
      | some vs => ∃ l js, Listed vs a.selected l ∧ List.Forall₂ (VariantObject x c L p) l js ∧
          vars = [("variants".toList, Json.arr js)]) ∧
    j = .obj ([("input".toList, .str a.text), ("begin".toList, .num (Nat.toDigits 10 a.first)),
      ("end".toList, .num (Nat.toDigits 10 a.last))] ++ tags ++ vars)

/-- The text is a JSON document that reads as the value, and as no other. -/
def Document (text : List Char) (j : Json) : Prop := Elem j text ∧ ∀ j', Elem j' text → j' = j

end Verif.Spec
