import Verif.Model.Load
import Verif.Spec.Files
import Verif.Spec.History

/-!
# Specification: what a command line loads
-/
namespace Verif.Spec

open Verif.Model

/-- A file with words on the command line. -/
inductive Source where
  | lexicon (f : List Char)
  | variants (f : List Char)
  | errors (f : List Char)
  | lm (f : List Char)

/-- Its name. -/
def Source.name : Source → List Char
  | .lexicon f => f
  | .variants f => f
  | .errors f => f
  | .lm f => f

/-- The words a source adds as source number `i`, with frequency and parameters: those of a lexicon and
the references and variants of variant lists are looked up, the variants of an error list are transparent,
and the entries of a language model are not looked up. -/
inductive Adds (x : LoadExt) (i : Nat) : Source → List (List Char × Option Nat × VocabParams) → Prop
  | lexicon {f lines es} : x.file f = some lines →
      List.Forall₂ (VocabLine {}) (nonEmpty lines) es →
      Adds x i (.lexicon f) (es.map fun e => (e.1, some e.2, { index := i }))
  | variants {f lines es} : x.file f = some lines →
      VariantLines x.parseF64 none (nonEmpty lines) es →
      Adds x i (.variants f) (es.flatMap fun e => (e.reference, e.freq, { index := i }) ::
        e.variants.map fun v => (v.1, v.2.2, { index := i }))
  | errors {f lines es} : x.file f = some lines →
      VariantLines x.parseF64 none (nonEmpty lines) es →
      Adds x i (.errors f) (es.flatMap fun e => (e.reference, e.freq, { index := i }) ::
        e.variants.map fun v => (v.1, v.2.2,
          { index := i, vocabType := { indexed := true, transparent := true } }))
  | lm {f lines es} : x.file f = some lines →
      List.Forall₂ (VocabLine {}) (nonEmpty lines) es →
      Adds x i (.lm f) (es.map fun e => (e.1, some e.2, { index := i, vocabType := .LM }))

/-- The words all sources add, one list for each. -/
inductive AddsAll (x : LoadExt) : Nat → List Source → List (List (List Char × Option Nat × VocabParams)) → Prop
  | nil {i} : AddsAll x i [] []
  | cons {i s ss a as} : Adds x (i % 256) s a → AddsAll x (i + 1) ss as →
      AddsAll x i (s :: ss) (a :: as)

/-- The frequency and parameters of the additions of a text. -/
def addsOf (t : List Char) (adds : List (List Char × Option Nat × VocabParams)) :
    List (Option Nat × VocabParams) :=
  (adds.filter fun a => a.1 = t).map fun a => a.2

/-- A lexicon, variant list or error list as a source. -/
def sourceOf : Resource → Source
  | .lexicon f => .lexicon f
  | .variantList f => .variants f
  | .errorList f => .errors f

/-- All sources of words, in the order in which they count. -/
def sourcesOf (args : LoadArgs) : List Source :=
  args.resources.map sourceOf ++ args.lm.map .lm

/-- What clap reports for lexicons, variant lists and error lists, at the positions at which they occur
on the command line. -/
structure Reports (cmd : List (Nat × Resource)) (args : LoadArgs) : Prop where
  lexicons : args.lexicons = cmd.filterMap fun a =>
    match a.2 with | .lexicon f => some (f, a.1) | _ => none
  variants : args.variants = cmd.filterMap fun a =>
    match a.2 with | .variantList f => some (f, a.1) | _ => none
  errors : args.errors = cmd.filterMap fun a =>
    match a.2 with | .errorList f => some (f, a.1) | _ => none

/-- The confusable a line of a list stands for: an edit script, and a weight that is 1 if there is no
second column. -/
def ConfusableLine (x : LoadExt) (line : List Char) (c : Confusable) : Prop :=
  ∃ script rest weight, FieldsOf line (script :: rest) ∧
    ((rest = [] ∧ weight = 1) ∨ ∃ w rest', rest = w :: rest' ∧ x.parseF64 w = some weight) ∧
    Confusable.new x.parseScript script weight = .ok (some c)

end Verif.Spec
