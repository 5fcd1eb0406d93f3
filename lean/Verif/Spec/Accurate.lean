import Verif.Spec.Ieee
import Verif.Spec.SimilarSearch

/-!
# Specification: lists of suggestions with accurate scores
-/
namespace Verif.Spec

open Verif.Model

/-- What is found for a text, with scores, is what the exact means say, up to small errors: each score is within 2⁻⁴⁶ of
the mean, which reaches the threshold up to 2⁻⁴⁶; the order is that of the means up to 2⁻⁴⁵; and without limits each
word within reach whose mean exceeds the threshold by 2⁻⁴⁶ is found. -/
structure AccuratelyFound (x : TextExt) (alphabet : Alphabet)
    (as : List (List (List Char × Option Nat × VocabParams))) (w : Weights) (p : Params) (text : List Char)
    (found : List (List Char × Rat)) : Prop where
  scores : ∀ u ∈ found, ∀ e, ExactScore x alphabet w text u.1 e →
    |u.2 - e| ≤ 2 ^ (-46 : Int) ∧ p.scoreThreshold - 2 ^ (-46 : Int) ≤ e
  order : found.Pairwise fun u v => ∀ e e', ExactScore x alphabet w text u.1 e → ExactScore x alphabet w text v.1 e' →
    e' ≤ e + 2 ^ (-45 : Int)
  complete : p.maxMatches = 0 → p.cutoffThreshold < 1 → ∀ word s n e, ¬ Reserved word →
    Near x alphabet w p text word s → WordFreq as word n → ExactScore x alphabet w text word e →
    p.scoreThreshold + 2 ^ (-46 : Int) ≤ e → word ∈ found.map Prod.fst

/-- The same with frequency ranking, where scores are weighted means with the frequencies relative to the greatest one
within reach. -/
def AccuratelyWeighed (x : TextExt) (alphabet : Alphabet)
    (as : List (List (List Char × Option Nat × VocabParams))) (w : Weights) (p : Params) (text : List Char)
    (found : List (List Char × Rat)) : Prop :=
  found ≠ [] → ∃ top,
    IsGreatest {n | ∃ t s, ¬ Reserved t ∧ Near x alphabet w p text t s ∧ WordFreq as t n} top ∧
    (∀ u ∈ found, ∀ e n, ExactScore x alphabet w text u.1 e → WordFreq as u.1 n →
      |u.2 - exactOverall p.freqWeight top e n| ≤ 2 ^ (-44 : Int)) ∧
    (found.Pairwise fun u v => ∀ e n e' n', ExactScore x alphabet w text u.1 e → WordFreq as u.1 n →
      ExactScore x alphabet w text v.1 e' → WordFreq as v.1 n' →
      exactOverall p.freqWeight top e' n' ≤ exactOverall p.freqWeight top e n + 2 ^ (-43 : Int))

end Verif.Spec
