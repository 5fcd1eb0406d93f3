import Verif.Model.PyWeights
import Verif.Spec.Python
import Verif.Spec.Options

/-!
# Specification: weights in Python
-/
namespace Verif.Spec

open Verif.Model

/-- The weights that keyword arguments ask for. -/
structure WeightArguments (f64 : Rounding) (kwargs : List (PyWeightKey × PyVal)) (w : PyWeights) : Prop where
  ld : Argument kwargs .ld (Double f64) (.fin (1 / 2)) w.ld
  lcs : Argument kwargs .lcs (Double f64) (.fin (1 / 8)) w.lcs
  pre : Argument kwargs .prefix (Double f64) (.fin (1 / 8)) w.pre
  suf : Argument kwargs .suffix (Double f64) (.fin (1 / 8)) w.suf
  case : Argument kwargs .case (Double f64) (.fin (1 / 8)) w.case

/-- The keyword argument for an option. -/
def weightKey : OptName → Option PyWeightKey
  | .weightLd => some .ld
  | .weightLcs => some .lcs
  | .weightPrefix => some .prefix
  | .weightSuffix => some .suffix
  | .weightCase => some .case
  | _ => none

/-- The options for weights as keyword arguments, where a value is what the text of it parses to. -/
def WeightKeywords (parseF64 : List Char → Option EFloat) (c : CommandLine)
    (kwargs : List (PyWeightKey × PyVal)) : Prop :=
  (kwargs.map Prod.fst).Nodup ∧ ∀ k v, (k, v) ∈ kwargs ↔
    ∃ o s q, (o, s) ∈ c.given ∧ weightKey o = some k ∧ parseF64 s = some q ∧ v = .float q

end Verif.Spec
