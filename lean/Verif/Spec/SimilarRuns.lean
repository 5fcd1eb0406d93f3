import Verif.Spec.Similar
import Verif.Spec.Score
import Verif.Spec.Rules

/-!
# Specification: queries with lexicons
-/
namespace Verif.Spec

open Verif.Model

/-- The row of a query: the text, and the words that were found with their scores. -/
def printed (x : ToolExt) (text : List Char) (found : List (List Char × Rat)) : List Char :=
  text ++ (found.flatMap fun u => '\t' :: u.1 ++ '\t' :: x.showF u.2 ++ ['\t']) ++ ['\n']

/-- The run of the tool is a query for the lines `lines` with this alphabet and words from lexicons, and
with these weights and parameters; everything that is needed is there, and no line is empty or too long. -/
structure PlainQuery (x : ToolExt) (c : CommandLine) (files : List (List Char)) (alphabet : Alphabet)
    (as : List (List (List Char × Option Nat × VocabParams))) (w : Weights) (p : Params)
    (lines : List (List Char)) : Prop where
  semicolon : ∀ s, ';' ∈ s → x.parseF32 s = none
  positions : StrictMono x.pos
  marks : MarksOk x.load.isSpace
  space : x.load.isSpace '\\' = false
  accepted : Accepted c
  query : c.sub = .query
  options : ∀ o ∈ [OptName.json, .outputLexmatch, .variants, .errors, .confusables, .stopExact], ¬ Given c o
  words : UsableFiles x c as
  letters : ∃ afile alines, (.alphabet, afile) ∈ c.given ∧ x.load.file afile = some alines ∧
    List.Forall₂ (AlphabetLine x.load.isSpace) (nonEmpty alines) alphabet
  numbers : ∃ q inputs, UsableNumbers x c w q ∧ q.variant = p ∧ InputsOf x files inputs ∧
    (q.singleThread = false → ∀ ls ∈ inputs, none ∉ ls) ∧ lines = inputs.flatMap readable
  weight : 0 ≤ p.freqWeight
  short : ∀ l ∈ lines, l ≠ [] ∧ ShortEnough x.text alphabet p l

/-- What is shown of a ranking: words and scores. -/
def foundOf (x : TextExt) (p : Params) (top : Nat) (hits : List Hit) : List (List Char × Rat) :=
  (shown x.f64 p.maxMatches p.cutoffThreshold (Hit.overall x.f64 p.freqWeight top) Hit.score hits).map
    fun u => (u.word, u.overall x.f64 p.freqWeight top)

/-- The same scores; every word that is better than the worst one shown is in both; without limits, the same
words. -/
def SameUpToTies (p : Params) (found found' : List (List Char × Rat)) : Prop :=
  found.map Prod.snd = found'.map Prod.snd ∧
    (∀ u ∈ found, ∀ v ∈ found', v.2 < u.2 → u ∈ found') ∧
    (∀ u ∈ found, ∀ v ∈ found', u.2 < v.2 → v ∈ found) ∧
    (p.maxMatches = 0 → p.cutoffThreshold < 1 → found.Perm found')

/-- The first word has score 1, no score is greater, and without limits the text itself is there. -/
def FoundItself (x : TextExt) (p : Params) (text : List Char) (found : List (List Char × Rat)) : Prop :=
  (∃ t rest, found = (t, 1) :: rest) ∧ (∀ u ∈ found, u.2 ≤ 1) ∧
    (p.maxMatches = 0 → (p.cutoffThreshold < 1 ∨ x.f64.rnd (1 / p.cutoffThreshold) < 1) →
      (text, 1) ∈ found)

/-- The second threshold is of the same kind as the first and not lower. -/
inductive Looser : DistanceThreshold → DistanceThreshold → Prop
  | ratio {q q'} : q ≤ q' → Looser (.ratio q) (.ratio q')
  | limit {q q' l l'} : q ≤ q' → l ≤ l' → Looser (.ratioWithLimit q l) (.ratioWithLimit q' l')
  | absolute {l l'} : l ≤ l' → Looser (.absolute l) (.absolute l')

end Verif.Spec
