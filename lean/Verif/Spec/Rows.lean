import Verif.Spec.SimilarText

/-!
# Specification: the stretches of a text that a search reports
-/
namespace Verif.Spec

open Verif.Model

/-- At byte `b` of the text is the stretch `t` of up to `n` words: no word is cut, the stretch ends with a
letter and begins with one unless it is at the very beginning of the text, and there is only one byte
between consecutive words. -/
structure StretchAt (isAlpha : Char → Bool) (n : Nat) (text : List Char) (b : Nat) (t : List Char) : Prop where
  place : ∃ pre post, text = pre ++ t ++ post ∧ b = byteLen pre ∧
    (∀ c ∈ pre.getLast?, isAlpha c = false) ∧ (∀ c ∈ post.head?, isAlpha c = false)
  first : b = 0 ∨ ∃ c, t.head? = some c ∧ isAlpha c = true
  last : ∃ c, t.getLast? = some c ∧ isAlpha c = true
  words : ∃ ws, WordsOf isAlpha t ws ∧ 1 ≤ ws.length ∧ ws.length ≤ n
  between : ∀ u s v, t = u ++ s ++ v → (∃ c, u.getLast? = some c ∧ isAlpha c = true) →
    (∃ c, v.head? = some c ∧ isAlpha c = true) → (∀ c ∈ s, isAlpha c = false) → byteLen s ≤ 1

/-- Stretches of the text in order, with at least one character between them. -/
structure StretchesOf (isAlpha : Char → Bool) (n : Nat) (text : List Char) (rs : List (Nat × List Char)) :
    Prop where
  order : rs.Pairwise fun u v => u.1 + byteLen u.2 < v.1
  at_ : ∀ r ∈ rs, StretchAt isAlpha n text r.1 r.2

/-- The row for a stretch: its text, its offsets in bytes, and the columns for its variants, in the order
they are found but for one that may have been selected, which comes first.  Only a single word may have no
variants. -/
def StretchRow (x : ToolExt) (c : CommandLine) (L : Loaded) (cfg : TextConfig) (p : TextParams)
    (r : Nat × List Char) (row : List Char) : Prop :=
  ∃ vs sel l cols, L.vm.findVariants x.text.toExt cfg.toConfig p.variant r.2 = .ok vs ∧ Listed vs sel l ∧
    (vs = [] → ∀ c ∈ r.2, x.text.isAlpha c = true) ∧ List.Forall₂ (VariantColumns x c L p) l cols ∧
    row = r.2 ++ '\t' :: Nat.toDigits 10 r.1 ++ ':' :: Nat.toDigits 10 (r.1 + byteLen r.2) ++
      cols.flatten ++ ['\n']

/-- What is printed for an input: the lines are joined in groups, and rows for stretches of each group are
printed, with an empty line between the groups that have any. -/
def StretchText (x : ToolExt) (c : CommandLine) (L : Loaded) (cfg : TextConfig) (p : TextParams)
    (lines : List (Option (List Char))) (text : List Char) : Prop :=
  ∃ perLine sep gs stretches rows, (perLine = true ↔ Given c .perLine) ∧
    ((Given c .retainLinebreaks ∧ sep = '\n') ∨ (¬ Given c .retainLinebreaks ∧ sep = ' ')) ∧
    Groups perLine (untilError lines) gs ∧
    List.Forall₂ (fun g rs => StretchesOf x.text.isAlpha p.maxNgram ([sep].intercalate g) rs) gs stretches ∧
    List.Forall₂ (List.Forall₂ (StretchRow x c L cfg p)) stretches rows ∧
    text = ['\n'].intercalate ((rows.filter fun r => r ≠ []).map List.flatten)

end Verif.Spec
