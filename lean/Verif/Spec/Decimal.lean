import Verif.Spec.Similar
import Verif.Spec.Options
import Verif.Model.Ieee

/-!
# Specification: ratios that are written as decimals
-/
namespace Verif.Spec

open Verif.Model

/-- `s` is written as a decimal number with a point, and this many places after it. -/
def DecimalText (s : List Char) (places : Nat) (q : Rat) : Prop :=
  ∃ ds es : List Nat, ds ≠ [] ∧ (∀ d ∈ ds ++ es, d < 10) ∧ es.length = places ∧
    s = ds.map Nat.digitChar ++ '.' :: es.map Nat.digitChar ∧
    q = (Nat.ofDigits 10 (ds ++ es).reverse : Nat) / 10 ^ places

/-- Decimals up to one are read as the nearest number of the format. -/
def ReadsDecimals (r : Rounding) (parse : List Char → Option EFloat) : Prop :=
  ∀ s n q, DecimalText s n q → q ≤ 1 → parse s = some (.fin (r.rnd q))

/-- The threshold that is meant by `s`: a number up to 255; a decimal up to one with at most five places; or such a
decimal and a limit of at most 52. -/
inductive ThresholdMeant : List Char → DistanceThreshold → Prop
  | absolute {s n} : NumberText 255 s n → ThresholdMeant s (.absolute n)
  | ratio {s n q} : DecimalText s n q → n ≤ 5 → q ≤ 1 → ThresholdMeant s (.ratio q)
  | limit {a b n q l} : DecimalText a n q → n ≤ 5 → q ≤ 1 → NumberText 52 b l →
      ThresholdMeant (a ++ ';' :: b) (.ratioWithLimit q l)

/-- The surroundings with exact thresholds. -/
def exactly (x : TextExt) : TextExt := { x with f32 := .exact }

/-- The parameters with these thresholds. -/
def withThresholds (p : Params) (anagram edit : DistanceThreshold) : Params :=
  { p with maxAnagramDistance := anagram, maxEditDistance := edit }

end Verif.Spec
