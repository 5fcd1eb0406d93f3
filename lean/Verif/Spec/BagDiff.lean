import Batteries.Data.List.Basic

/-!
# Specification: difference of two bags
-/
namespace Verif.Spec

/-- The number of symbols in which two bags differ: what is in one and not in the other, counted
with multiplicity. -/
def bagDiff (a c : List Nat) : Nat := (a.diff c).length + (c.diff a).length

end Verif.Spec
