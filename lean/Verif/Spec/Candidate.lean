import Verif.Spec.Edit
import Verif.Model.Nearest

/-!
# Specification: the distances of a candidate
-/
namespace Verif.Spec

open Verif.Model

/-- `d` says how the query (text `query`, symbols `qs`) differs from an entry (text `text`, symbols
`ns`): the edit distance; the lengths of the longest common substring, prefix and suffix, each 0 if
it has no positive weight; and whether the first characters agree in case, taken as agreeing if case
has no positive weight. -/
structure IsDistance (isLower : Char → Bool) (w : Weights) (qs : List Nat) (query : List Char)
    (ns : List Nat) (text : List Char) (d : Distance) : Prop where
  ld : IsDamerau qs ns d.ld
  lcs : 0 < w.lcs → IsGreatest {k | ∃ z : List Nat, z <:+: qs ∧ z <:+: ns ∧ z.length = k} d.lcs
  lcs0 : w.lcs ≤ 0 → d.lcs = 0
  pre : 0 < w.pre →
    IsGreatest {k | k ≤ qs.length ∧ k ≤ ns.length ∧ qs.take k = ns.take k} d.prefixlen
  pre0 : w.pre ≤ 0 → d.prefixlen = 0
  suf : 0 < w.suf → IsGreatest {k | k ≤ qs.length ∧ k ≤ ns.length ∧
    qs.drop (qs.length - k) = ns.drop (ns.length - k)} d.suffixlen
  suf0 : w.suf ≤ 0 → d.suffixlen = 0
  case : 0 < w.case → ∃ a b, text.head? = some a ∧ query.head? = some b ∧
    (d.samecase = true ↔ (isLower a = true ↔ isLower b = true))
  case0 : w.case ≤ 0 → d.samecase = true

end Verif.Spec
