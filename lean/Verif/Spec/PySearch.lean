import Verif.Spec.PySuggest
import Verif.Spec.Divided
import Verif.Spec.SimilarText

/-!
# Specification: what a Python program that loads resources is told about the words of a text
-/
namespace Verif.Spec

open Verif.Model

/-- Where the part `s` of a text, at byte `o`, is said to begin and end, in characters or in bytes. -/
def Offsets (chars : Bool) (text : List Char) (o : Nat) (s : List Char) (first last : Nat) : Prop :=
  ∃ pre post, text = pre ++ s ++ post ∧ byteLen pre = o ∧
    if chars = true then first = pre.length ∧ last = first + s.length
    else first = o ∧ last = o + byteLen s

/-- The dictionary for a stretch of a division (offset in bytes, text, and which suggestion was chosen): there
are no tags, and the chosen suggestion comes first. -/
structure StretchDict (variant : Suggestion → PyVariant → Prop) (chars : Bool) (text : List Char)
    (found : List Char → List Suggestion) (r : Nat × List Char × Option Nat) (d : PyMatch) : Prop where
  input : d.input = r.2.1
  offsets : Offsets chars text r.1 r.2.1 d.first d.last
  tags : d.tags = none
  variants : ∃ l, Listed (found r.2.1) r.2.2 l ∧ List.Forall₂ variant l d.variants

/-- The program adds no rules for contexts. -/
def NoRules (cs : List PyCall) : Prop :=
  ∀ c ∈ cs, (∀ p s t o, c ≠ .addContextrule p s t o) ∧ ∀ f, c ≠ .readContextrules f

/-- What the program adds has no part in a language model. -/
def NoModel (a : List (List Char × Option Nat × VocabParams)) : Prop :=
  ∀ y ∈ a, ¬ Reserved y.1 ∧ y.2.2.vocabType.lm = false

end Verif.Spec
