import Verif.Model.Base

/-!
# Hash maps

A hash map is an association list.  Only `get?`, `insert` and (where the code iterates) the list of
entries up to permutation are used; the position of an entry in the list carries no meaning.
-/
namespace Verif.Model

/-- A Rust `HashMap<κ, β>` (or `BTreeMap`) as an association list. -/
abbrev HMap (κ β : Type) := List (κ × β)

namespace HMap

variable {κ β : Type} [DecidableEq κ]

/-- `map.get(key)` -/
def get? : HMap κ β → κ → Option β
  | [], _ => none
  | (k, v) :: m, key => if k = key then some v else get? m key

/-- `map.insert(key, value)`: replaces the value of an existing key. -/
def insert : HMap κ β → κ → β → HMap κ β
  | [], key, value => [(key, value)]
  | (k, v) :: m, key, value =>
    if k = key then (k, value) :: m else (k, v) :: insert m key value

end HMap

end Verif.Model
