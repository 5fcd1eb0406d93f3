import Verif.Spec.Context
import Verif.Spec.Objects

/-!
# Specification: searches with a language model and context rules
-/
namespace Verif.Spec

open Verif.Model

/-- There is a language model: a text of at most five tokens is part of it. -/
def HasLm (adds : Additions) : Prop := ∃ t us, InLm adds t ∧ TokensOf t us ∧ us.length ≤ 5

/-- How readings are compared, where `found` is what is suggested for each text, the sources have the names
`names` and the words `as`, and `lm` says whether there is a language model. -/
def compared (x : TextExt) (names : List (List Char)) (as : List Additions) (rules : List WrittenRule)
    (p : TextParams) (found : List Char → List Suggestion) (lm : Bool) : Scoring Suggestion :=
  { found := fun t us => us = found t
    dist := Suggestion.score
    score := Suggestion.overall x.f64 p.variant.freqWeight
    width := p.maxNgram
    lm := lm && decide (0 < p.lmWeight)
    perplexity := WordPerplexity as.flatten x
    context := fun l => WordContext names as rules (l.map Part.word)
    mix := if (lm = false ∨ p.lmWeight = 0) ∧ (rules = [] ∨ p.contextrulesWeight = 0) then ⟨0, 1, 0⟩
      else ⟨p.lmWeight, p.variantmodelWeight, p.contextrulesWeight⟩
    ln := x.ln64 }

/-- The stretches, with tags, are those of the readings of the batches of the text: of each one that is picked, with
the tags given to its words. -/
def ReadBy (isAlpha : Char → Bool) (picked : Nat → List Seg → List (Part Suggestion) → Prop)
    (tagged : List (Option (List Char)) → List (List (List Char × Nat)) → Prop) (text : List Char)
    (rs : List (Part Suggestion × List (List Char × Nat))) : Prop :=
  ∃ segs ls, Segmented isAlpha text segs ∧
    List.Forall₂ (fun b (l : List (Part Suggestion × List (List Char × Nat))) =>
      picked b.1 b.2 (l.map Prod.fst) ∧ tagged ((l.map Prod.fst).map Part.word) (l.map Prod.snd))
      (placed 0 (batches [] segs)) ls ∧
    rs = ls.flatten

/-- The stretches, with tags, are those of the chosen readings of the batches of the text. -/
def ReadAs (x : TextExt) (names : List (List Char)) (as : List Additions) (rules : List WrittenRule)
    (p : TextParams) (found : List Char → List Suggestion) (text : List Char)
    (rs : List (Part Suggestion × List (List Char × Nat))) : Prop :=
  ∃ lm, (lm = true ↔ HasLm as.flatten) ∧
    ReadBy x.isAlpha (ChosenReading (compared x names as rules p found lm) p.maxSeq) (WordTags names as rules) text rs

/-- What is printed for an input, if the texts are read as `reads` says: the lines are joined in groups, and the rows
for the stretches of each group are printed, with an empty line between groups that have any. -/
def ReadLines (x : ToolExt) (c : CommandLine) (as : List Additions) (p : TextParams)
    (found : List Char → List Suggestion)
    (reads : List Char → List (Part Suggestion × List (List Char × Nat)) → Prop)
    (lines : List (Option (List Char))) (text : List Char) : Prop :=
  ∃ perLine sep gs stretches rows, (perLine = true ↔ Given c .perLine) ∧
    ((Given c .retainLinebreaks ∧ sep = '\n') ∨ (¬ Given c .retainLinebreaks ∧ sep = ' ')) ∧
    Groups perLine (untilError lines) gs ∧
    List.Forall₂ (fun g rs => reads ([sep].intercalate g) rs) gs stretches ∧
    List.Forall₂ (List.Forall₂ fun r row => DividedRow
      (SuggestionColumn x c ((sourcesGiven c).map Source.name) as p.variant) found
      (r.1.offset, r.1.text, r.1.choice.map Prod.fst) row) stretches rows ∧
    text = ['\n'].intercalate ((rows.filter fun r => r ≠ []).map List.flatten)

/-- What is printed for an input. -/
def ReadText (x : ToolExt) (c : CommandLine) (as : List Additions) (rules : List WrittenRule)
    (p : TextParams) (found : List Char → List Suggestion)
    (lines : List (Option (List Char))) (text : List Char) : Prop :=
  ReadLines x c as p found (ReadAs x.text ((sourcesGiven c).map Source.name) as rules p found) lines text

/-- The object for a stretch: its text and offsets, its tags with the numbers in their sequences, if it has
tags, and what is suggested for it, the suggestion that was chosen first. -/
def TaggedAnswer (x : ToolExt) (c : CommandLine) (as : List Additions) (p : Params)
    (found : List Char → List Suggestion) (r : Part Suggestion × List (List Char × Nat)) (j : Json) : Prop :=
  ∃ us js, Listed (found r.1.text) (r.1.choice.map Prod.fst) us ∧
    List.Forall₂ (SuggestionObject x c ((sourcesGiven c).map Source.name) as p) us js ∧
    j = .obj ([("input".toList, .str r.1.text), ("begin".toList, .num (Nat.toDigits 10 r.1.offset)),
        ("end".toList, .num (Nat.toDigits 10 (r.1.offset + byteLen r.1.text)))] ++
      (if r.2 = [] then [] else [("tag".toList, Json.arr (r.2.map fun t => .str t.1)),
        ("seqnr".toList, Json.arr (r.2.map fun t => .num (Nat.toDigits 10 t.2)))]) ++
      [("variants".toList, .arr js)])

end Verif.Spec
