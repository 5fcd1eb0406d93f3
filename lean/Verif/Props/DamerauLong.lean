import Verif.Lemmas.Edit
import Verif.Model.Distance

/-!
# Property C10, limit of exactness: first arguments of more than 255 symbols

The code remembers the last position of a symbol in a `u8`.
-/
namespace Verif.Props

open Verif.Spec Verif.Model Verif.Lemmas

/-- C10: the restriction to 255 symbols in `damerau_exact` is needed.  For a first argument of 257
symbols the code answers `None` with cap 255 although 255 edits suffice. -/
theorem damerau_inexact_beyond_255 :
    ∃ s t : List Nat, s.length = 257 ∧ Edits True 255 s t ∧
      damerauLevenshtein s t 255 = .ok none := by
  refine ⟨List.replicate 254 0 ++ [3, 1, 2], [3, 2, 1],
    by rw [List.length_append, List.length_replicate]; rfl, ?_, by decide +kernel⟩
  have h := edits_dels (sw := True) (List.replicate 254 0) [3, 1, 2]
  rw [List.length_replicate] at h
  exact .tail h (.cons 3 (.swap trivial 1 2 []))

end Verif.Props
