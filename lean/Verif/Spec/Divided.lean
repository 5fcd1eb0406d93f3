import Verif.Spec.SimilarText
import Verif.Spec.Division

/-!
# Specification: searches with lexicons for stretches of words
-/
namespace Verif.Spec

open Verif.Model

/-- What is shown for a text: the words of the lexicons (`as`) that are similar to it, best first, each with
the greatest frequency of a word within reach. -/
def Listing (x : TextExt) (alphabet : Alphabet) (as : List (List (List Char × Option Nat × VocabParams)))
    (w : Weights) (p : Params) (text : List Char) (l : List (Nat × Hit)) : Prop :=
  ∃ top hits, Ranked x alphabet as w p text top hits ∧
    l = (shown x.f64 p.maxMatches p.cutoffThreshold (Hit.overall x.f64 p.freqWeight top) Hit.score hits).map
      fun u => (top, u)

/-- All stretches of up to `n` words of the text are short enough to be looked up. -/
def ShortRuns (x : TextExt) (alphabet : Alphabet) (p : Params) (n : Nat) (text : List Char) : Prop :=
  ∀ segs r, Segmented x.isAlpha text segs → r <:+: segs → r.length ≤ n → stretch r ≠ [] →
    ShortEnough x alphabet p (stretch r)

/-- The stretches divide the text at least cost (as far as can be told with errors of `e n` for `n` words), if
`found` is what is shown for each stretch, with scores `dist` and overall scores `score`. -/
def CheapestIn {α : Type} (x : TextExt) (e : Nat → Rat) (dist score : α → Rat) (found : List Char → List α) (n : Nat)
    (text : List Char) (rs : List (Nat × List Char × Option Nat)) : Prop :=
  ∃ segs ls, Segmented x.isAlpha text segs ∧
    List.Forall₂ (fun b l => Cheapest (e b.2.length) (fun t us => us = found t) dist score n b.1 b.2 l)
      (placed 0 (batches [] segs)) ls ∧
    rs = ls.flatten

/-- The row for a stretch: its text, its offsets in bytes, and the columns for what is shown for it, the one
that was chosen first. -/
def DividedRow {α : Type} (column : α → List Char → Prop) (found : List Char → List α)
    (r : Nat × List Char × Option Nat) (row : List Char) : Prop :=
  ∃ l cols, Listed (found r.2.1) r.2.2 l ∧ List.Forall₂ column l cols ∧
    row = r.2.1 ++ '\t' :: Nat.toDigits 10 r.1 ++ ':' :: Nat.toDigits 10 (r.1 + byteLen r.2.1) ++
      cols.flatten ++ ['\n']

/-- What is printed for an input: the lines are joined in groups, and the rows for the stretches of each group
are printed, with an empty line between groups that have any. -/
def DividedText {α : Type} (x : ToolExt) (c : CommandLine) (e : Nat → Rat) (dist score : α → Rat)
    (column : α → List Char → Prop) (n : Nat) (found : List Char → List α)
    (lines : List (Option (List Char))) (text : List Char) : Prop :=
  ∃ perLine sep gs stretches rows, (perLine = true ↔ Given c .perLine) ∧
    ((Given c .retainLinebreaks ∧ sep = '\n') ∨ (¬ Given c .retainLinebreaks ∧ sep = ' ')) ∧
    Groups perLine (untilError lines) gs ∧
    List.Forall₂ (fun g rs => CheapestIn x.text e dist score found n ([sep].intercalate g) rs)
      gs stretches ∧
    List.Forall₂ (List.Forall₂ (DividedRow column found)) stretches rows ∧
    text = ['\n'].intercalate ((rows.filter fun r => r ≠ []).map List.flatten)

/-- What is printed for an input, where words of the lexicons (`as`, with names `names`) are shown. -/
def DividedHits (x : ToolExt) (c : CommandLine) (e : Nat → Rat) (names : List (List Char))
    (as : List (List (List Char × Option Nat × VocabParams))) (p : TextParams)
    (found : List Char → List (Nat × Hit)) : List (Option (List Char)) → List Char → Prop :=
  DividedText x c e (fun u => u.2.score) (fun u => u.2.overall x.text.f64 p.variant.freqWeight u.1)
    (fun u col => HitColumn x c names as p.variant u.1 u.2 col) p.maxNgram found

end Verif.Spec
