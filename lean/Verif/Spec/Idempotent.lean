import Verif.Spec.Cli

/-!
# Specification: correcting a text
-/
namespace Verif.Spec

/-- The corrected lines: what is suggested first for each line, or the line itself if nothing is. -/
def corrections (rs : List (List Char × List (List Char × Rat))) : List (List Char) :=
  rs.map fun r => (r.2.head?.map Prod.fst).getD r.1

end Verif.Spec
