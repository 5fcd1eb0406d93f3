import Verif.Model.Confusable

/-!
# Specification: occurrence of a pattern in an edit script
-/
namespace Verif.Spec

open Verif.Model

/-- The text of an identity: at the beginning of a pattern it may be the end of the identity in the
script, at the end of the pattern its beginning; else, or if it is the whole pattern, they are equal. -/
def TextMatches (first last : Prop) (s t : List Char) : Prop :=
  (first ∧ ¬ last ∧ s <:+ t) ∨ (¬ first ∧ last ∧ s <+: t) ∨ ((first ↔ last) ∧ s = t)

/-- An instruction of a pattern (at the beginning or end of the pattern, if `first` or `last`) agrees
with one of a script: same kind; for insertions and deletions the text of the script ends with that
of the pattern; if the pattern has options, one of them agrees. -/
inductive InstrMatches (first last : Prop) : EditInstr → EditInstr → Prop
  | insertion {s t : List Char} (h : s <:+ t) :
    InstrMatches first last (.insertion s) (.insertion t)
  | deletion {s t : List Char} (h : s <:+ t) :
    InstrMatches first last (.deletion s) (.deletion t)
  | identity {s t : List Char} (h : TextMatches first last s t) :
    InstrMatches first last (.identity s) (.identity t)
  | insertionOptions {v : List (List Char)} {s t : List Char} (hs : s ∈ v) (h : s <:+ t) :
    InstrMatches first last (.insertionOptions v) (.insertion t)
  | deletionOptions {v : List (List Char)} {s t : List Char} (hs : s ∈ v) (h : s <:+ t) :
    InstrMatches first last (.deletionOptions v) (.deletion t)
  | identityOptions {v : List (List Char)} {s t : List Char} (hs : s ∈ v)
    (h : TextMatches first last s t) :
    InstrMatches first last (.identityOptions v) (.identity t)

/-- The first `n` instructions of the pattern agree with those of the script from position `k` on. -/
def MatchesAt (pattern script : List EditInstr) (k n : Nat) : Prop :=
  ∀ j, j < n → ∃ a b, pattern[j]? = some a ∧ script[k + j]? = some b ∧
    InstrMatches (j = 0) (j + 1 = pattern.length) a b

/-- How a pattern is looked for, from the beginning of a script on: it is found if all of it agrees with what
comes first (and nothing comes after, if the pattern must finish at the end).  Where it does not agree, the
search goes on behind the first instruction that does not, unless the pattern must start at the beginning. -/
inductive Found (c : Confusable) : List EditInstr → Prop
  | here {script} : c.script ≠ [] → MatchesAt c.script script 0 c.script.length →
      (c.strictend = true → script.length = c.script.length) → Found c script
  | later {script k a b} : c.strictbegin = false → MatchesAt c.script script 0 k →
      c.script[k]? = some a → script[k]? = some b → ¬ InstrMatches (k = 0) (k + 1 = c.script.length) a b →
      Found c (script.drop (k + 1)) → Found c script

end Verif.Spec
