import Verif.Spec.Load
import Verif.Spec.RulesFile

/-!
# Specification: files that can be loaded
-/
namespace Verif.Spec

open Verif.Model

/-- A request to add a rule that is written as documented: patterns separated by `;` (fewer than 256, all
names known), tags that are not empty, and offsets as documented, whose ranges end before 256. -/
def CallOk (env : RuleEnv) (c : RuleCall) : Prop :=
  ∃ es ss os, List.Forall₂ (Writes env.isSpace) es ss ∧ es ≠ [] ∧ es.length < 256 ∧
    (∀ s ∈ ss, ';' ∉ s) ∧ c.pattern = [';'].intercalate ss ∧
    (∀ e ∈ es, KnownAll env.lexicons env.encoder e) ∧ (∀ t ∈ c.tag, t ≠ []) ∧
    List.Forall₂ (OffsetText es.length) c.tagoffset os ∧ ∀ y ∈ os, y.1 + y.2 < 256

/-- A line of a file of rules that can be read: one that is skipped, or that stands for such a request. -/
def RuleLineOk (env : RuleEnv) (parseFloat : List Char → Option Rat) : Option (List Char) → Prop
  | none => True
  | some line => ∃ call, LineFor env.isSpace parseFloat line call ∧ ∀ c, call = some c → CallOk env c

/-- The words that were added, as a table (the numbers do not matter). -/
def wordTable (adds : List (List Char × Option Nat × VocabParams)) : HMap (List Char) Nat :=
  adds.map fun a => (a.1, 0)

/-- All files of a command line can be opened and have lines as documented (`as` are the words), there are
at most 166 lines in the alphabet and 32 sources, no word has 255 spaces (modulo 256), and the frequencies
sum to less than `2 ^ 32`. -/
structure Loadable (x : LoadExt) (args : LoadArgs)
    (as : List (List (List Char × Option Nat × VocabParams))) : Prop where
  alphabet : ∃ lines, x.file args.alphabet = some lines ∧ (nonEmpty lines).length ≤ 166
  words : AddsAll x 0 (sourcesOf args) as
  sources : (sourcesOf args).length ≤ 32
  spaces : ∀ a ∈ as.flatten, (a.1.countP (· == ' ')) % 256 ≠ 255
  freqs : (as.flatten.map fun a => a.2.1.getD 1).sum < 2 ^ 32
  confusables : ∀ f ∈ args.confusables, ∃ lines new, x.file f = some lines ∧
    List.Forall₂ (ConfusableLine x) (nonEmpty lines) new
  rules : ∀ f ∈ args.contextrules, ∃ lines, x.file f = some lines ∧ ∀ l ∈ lines,
    RuleLineOk ⟨x.isSpace, (sourcesOf args).map Source.name, wordTable as.flatten⟩ x.parseF32 l

end Verif.Spec
