import Verif.Model.Score

/-!
# Specification: admissible weights and references
-/
namespace Verif.Spec

open Verif.Model

/-- Weights as they should be: not negative, floating point numbers, with a positive sum. -/
structure WeightsOk (r : Rounding) (w : Weights) : Prop where
  ld : 0 ≤ w.ld ∧ r.rnd w.ld = w.ld
  lcs : 0 ≤ w.lcs ∧ r.rnd w.lcs = w.lcs
  pre : 0 ≤ w.pre ∧ r.rnd w.pre = w.pre
  suf : 0 ≤ w.suf ∧ r.rnd w.suf = w.suf
  case : 0 ≤ w.case ∧ r.rnd w.case = w.case
  sum : 0 < w.sum r

/-- Every reference of an entry is an entry. -/
def RefsExist (m : Vm) : Prop :=
  ∀ v ∈ m.decoder, ∀ t s, VariantReference.variantOf t s ∈ v.variants.getD [] →
    t < m.decoder.length

/-- No entry has references or is one. -/
def NoLinks (m : Vm) : Prop := ∀ v ∈ m.decoder, v.variants = none

instance (m : Vm) : Decidable (NoLinks m) :=
  inferInstanceAs (Decidable (∀ v ∈ m.decoder, v.variants = none))

/-- By how much confusables can raise a score at most: the product of the weights above 1 (`r` is the
rounding of the arithmetic). -/
def boost (r : Rounding) (cs : List Confusable) : Rat :=
  cs.foldl (fun w c => r.rnd (w * max 1 c.weight)) 1

/-- Confusables as they should be for searches in text: weights are not negative, and cannot (nearly) double a
score. -/
structure MildConfusables (r : Rounding) (cs : List Confusable) : Prop where
  weight : ∀ c ∈ cs, 0 ≤ c.weight
  boost : boost r cs ≤ 19 / 10

end Verif.Spec
