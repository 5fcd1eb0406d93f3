import Verif.Spec.SimilarRuns

/-!
# Specification: queries that give the same, up to the order of equals
-/
namespace Verif.Spec

open Verif.Model

/-- Two lists of words with scores, as shown for the same text, differ at most in words with the same score as the worst one:
the scores are the same; what is better than something the other list shows is in both; and if
there are no limits, both have the same words. -/
def SameButTies (p : Params) (found found' : List (List Char × Rat)) : Prop :=
  found.map Prod.snd = found'.map Prod.snd ∧
    (∀ u ∈ found, ∀ v ∈ found', v.2 < u.2 → u ∈ found') ∧
    (∀ u ∈ found, ∀ v ∈ found', u.2 < v.2 → v ∈ found) ∧
    (p.maxMatches = 0 → p.cutoffThreshold < 1 → found.Perm found')

/-- Two runs of the tool succeed and print the same for all lines, up to ties. -/
def SameSuggestions (x : ToolExt) (c : CommandLine) (files : List (List Char)) (x' : ToolExt)
    (c' : CommandLine) (files' : List (List Char)) (p : Params) (lines : List (List Char)) : Prop :=
  ∃ rs : List (List Char × List (List Char × Rat) × List (List Char × Rat)),
    rs.map Prod.fst = lines ∧
    x.main c files = .ok (.output (rs.flatMap fun r => printed x r.1 r.2.1) []) ∧
    x'.main c' files' = .ok (.output (rs.flatMap fun r => printed x' r.1 r.2.2) []) ∧
    ∀ r ∈ rs, SameButTies p r.2.1 r.2.2

/-- The weights, each multiplied by `q`. -/
def scaled (q : Rat) (w : Weights) : Weights := ⟨q * w.ld, q * w.lcs, q * w.pre, q * w.suf, q * w.case⟩

/-- Multiplication by `q` does not interfere with rounding, for nonnegative numbers that are not too small; and
simple fractions are exact. -/
structure ScaleSafe (r : Rounding) (q : Rat) : Prop where
  mul : ∀ y, y = 0 ∨ 2 ^ (-1022 : Int) ≤ y → r.rnd (q * y) = q * r.rnd y
  least : r.rnd (2 ^ (-1022 : Int)) = 2 ^ (-1022 : Int)
  most : r.rnd (511 / 512) = 511 / 512
  unit : r.rnd (1 / 512) = 1 / 512

/-- A weight that is not extremely small, unless it is 0. -/
def Ordinary (v : Rat) : Prop := v = 0 ∨ 2 ^ (-1000 : Int) ≤ v

end Verif.Spec
