import Verif.Spec.Searched
import Verif.Spec.Weighed

/-!
# Specification: searches with a language model and context rules from files, in floating point
-/
namespace Verif.Spec

open Verif.Model

/-- No pair of tokens is counted more often than its first token (once, if that is not counted). -/
def PairsRarer (adds : Additions) : Prop :=
  ∀ u v c d, LmCount adds [u, v] (some c) → LmCount adds [u] d → c ≤ d.getD 1

/-- The perplexity of a reading as it is computed: minus the mean score of the transitions between the tokens, with
markers before the first and after the last. -/
def WordsPerplexity (adds : Additions) (x : TextExt) (l : List (Part Suggestion)) (y : EFloat) : Prop :=
  ∃ count : List (List Char) → Option Nat, (∀ ws, LmCount adds ws (count ws)) ∧
    ∃ ls tokens, List.Forall₂ (StretchTokens adds x.isSpace) l ls ∧
      tokens = some "<bos>".toList :: ls.flatten ++ [some "<eos>".toList] ∧
      y = minusMean x (List.zipWith (transition count x) tokens tokens.tail)

/-- The context score of words as it is computed: 1 if no rule applies, and otherwise the mean of the scores of the
rules in whose applications the words take part (1 for those that do not). -/
def WordsContext (x : TextExt) (names : List (List Char)) (as : List Additions) (rules : List WrittenRule)
    (ws : List (Option (List Char))) (y : Rat) : Prop :=
  ∃ A, Applied names as rules ws A ∧
    ((A = [] ∧ y = 1) ∨ (A ≠ [] ∧ ∃ scores : List Rat, scores.length = ws.length ∧
      (∀ a ∈ A, ∀ r, rules[a.2]? = some r → ∀ i, TakesPart rules a i → scores[i]? = some r.score) ∧
      (∀ i < ws.length, (∀ a ∈ A, ¬ TakesPart rules a i) → scores[i]? = some 1) ∧
      y = x.f64.rnd (summed x.f32 scores / ws.length)))

/-- The overall score as it is computed, where `lm` says whether there is a language model. -/
def wordsOverall (x : TextExt) (rules : List WrittenRule) (p : TextParams) (lm : Bool) (best a : Figures) : EFloat :=
  let ln := EFloat.log x.ln64
  let cost := ln (.div x.f64 false (.fin best.cost) (.fin a.cost))
  let context := ln (.div x.f64 false (.fin a.context) (.fin best.context))
  let perplexity := if lm = true ∧ 0 < p.lmWeight then ln (.div x.f64 true best.perplexity a.perplexity) else .fin 0
  if (lm = true ∧ p.lmWeight ≠ 0) ∨ (rules ≠ [] ∧ p.contextrulesWeight ≠ 0) then
    .div x.f64 false
      (((perplexity.scale x.f64 p.lmWeight).add x.f64 (cost.scale x.f64 p.variantmodelWeight)).add x.f64
        (context.scale x.f64 p.contextrulesWeight))
      (.fin (x.f64.rnd (x.f64.rnd (p.lmWeight + p.variantmodelWeight) + p.contextrulesWeight)))
  else cost

/-- How readings are compared, where `found` is what is suggested for each text, the sources have the names
`names` and the words `as`, `lm` says whether there is a language model, and the solver is off by `τ` at most. -/
def weighed (x : TextExt) (τ : Rat) (names : List (List Char)) (as : List Additions) (rules : List WrittenRule)
    (p : TextParams) (found : List Char → List Suggestion) (lm : Bool) : Weighing Suggestion :=
  { r := x.f32
    τ := τ
    found := fun t us => us = found t
    dist := Suggestion.score
    score := Suggestion.overall x.f64 p.variant.freqWeight
    width := p.maxNgram
    lm := lm && decide (0 < p.lmWeight)
    perplexity := WordsPerplexity as.flatten x
    context := fun l => WordsContext x names as rules (l.map Part.word)
    overall := wordsOverall x rules p lm }

/-- The stretches, with tags, are those of readings of the batches of the text that are not beaten. -/
def WeighedAs (x : TextExt) (τ : Rat) (names : List (List Char)) (as : List Additions) (rules : List WrittenRule)
    (p : TextParams) (found : List Char → List Suggestion) (text : List Char)
    (rs : List (Part Suggestion × List (List Char × Nat))) : Prop :=
  ∃ lm, (lm = true ↔ HasLm as.flatten) ∧
    ReadBy x.isAlpha (Unbeaten (weighed x τ names as rules p found lm) p.maxSeq) (WordTags names as rules) text rs

end Verif.Spec
