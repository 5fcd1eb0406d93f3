import Verif.Model.Files
import Verif.Spec.RulesFile
import Verif.Spec.Cli

/-!
# Specification: alphabets, thresholds, lexicons and variant lists
-/
namespace Verif.Spec

open Verif.Model

/-- `s` is written as a number up to `max`: digits, possibly after a plus sign. -/
def NumberText (max : Nat) (s : List Char) (v : Nat) : Prop :=
  ∃ ds : List Nat, ds ≠ [] ∧ (∀ d ∈ ds, d < 10) ∧
    (s = ds.map Nat.digitChar ∨ s = '+' :: ds.map Nat.digitChar) ∧
    v = Nat.ofDigits 10 ds.reverse ∧ v ≤ max

/-- The fields of a line. -/
def FieldsOf (line : List Char) (fields : List (List Char)) : Prop :=
  fields ≠ [] ∧ (∀ f ∈ fields, '\t' ∉ f) ∧ line = ['\t'].intercalate fields

/-- The lines that count: those that can be read and are not empty. -/
def nonEmpty (lines : List (Option (List Char))) : List (List Char) :=
  (readable lines).filter fun l => !l.isEmpty

/-- What a field of an alphabet line stands for; nothing if it is blank. -/
inductive AlphabetField (isSpace : Char → Bool) : List Char → Option (List Char) → Prop
  | space : AlphabetField isSpace ['\\', 's'] (some [' '])
  | tab : AlphabetField isSpace ['\\', 't'] (some ['\t'])
  | newline : AlphabetField isSpace ['\\', 'n'] (some ['\n'])
  | blank {a} : Blank isSpace a → AlphabetField isSpace a none
  | text {a n b} : Blank isSpace a → Blank isSpace b → Trimmed isSpace n → n ≠ [] →
      a ++ n ++ b ∉ [['\\', 's'], ['\\', 't'], ['\\', 'n']] →
      AlphabetField isSpace (a ++ n ++ b) (some n)

/-- The entry a line of an alphabet file stands for. -/
def AlphabetLine (isSpace : Char → Bool) (line : List Char) (entry : List (List Char)) : Prop :=
  ∃ fields items, FieldsOf line fields ∧ List.Forall₂ (AlphabetField isSpace) fields items ∧
    entry = items.filterMap id

/-- The text and the frequency a line of a lexicon stands for: a column that is missing counts as a
frequency of 1. -/
def VocabLine (params : VocabParams) (line : List Char) (e : List Char × Nat) : Prop :=
  ∃ fields, FieldsOf line fields ∧ fields[params.textColumn]? = some e.1 ∧
    ((params.freqColumn = none ∧ e.2 = 1) ∨
      ∃ c, params.freqColumn = some c ∧ ((fields[c]? = none ∧ e.2 = 1) ∨
        ∃ f, fields[c]? = some f ∧ NumberText (2 ^ 32 - 1) f e.2))

/-- A line of a variant list: the reference, its frequency, and the variants with score and
frequency. -/
structure VariantEntry where
  reference : List Char
  freq : Option Nat
  variants : List (List Char × Rat × Option Nat)

/-- The variants of a line without frequencies; a field that is left over does not count. -/
inductive PlainFields (parseF64 : List Char → Option Rat) :
    List (List Char) → List (List Char × Rat × Option Nat) → Prop
  | nil : PlainFields parseF64 [] []
  | one {f} : PlainFields parseF64 [f] []
  | cons {v s x fs vs} : parseF64 s = some x → PlainFields parseF64 fs vs →
      PlainFields parseF64 (v :: s :: fs) ((v, x, none) :: vs)

/-- The variants of a line with frequencies; one or two fields that are left over do not count. -/
inductive FreqFields (parseF64 : List Char → Option Rat) :
    List (List Char) → List (List Char × Rat × Option Nat) → Prop
  | nil : FreqFields parseF64 [] []
  | one {f} : FreqFields parseF64 [f] []
  | two {f g} : FreqFields parseF64 [f, g] []
  | cons {v s x f n fs vs} : parseF64 s = some x → NumberText (2 ^ 32 - 1) f n →
      FreqFields parseF64 fs vs → FreqFields parseF64 (v :: s :: f :: fs) ((v, x, some n) :: vs)

/-- A line without frequencies. -/
inductive PlainLine (parseF64 : List Char → Option Rat) : List Char → VariantEntry → Prop
  | mk {line r fs vs} : FieldsOf line (r :: fs) → PlainFields parseF64 fs vs →
      PlainLine parseF64 line ⟨r, none, vs⟩

/-- A line with frequencies. -/
inductive FreqLine (parseF64 : List Char → Option Rat) : List Char → VariantEntry → Prop
  | mk {line r f n fs vs} : FieldsOf line (r :: f :: fs) → NumberText (2 ^ 32 - 1) f n →
      FreqFields parseF64 fs vs → FreqLine parseF64 line ⟨r, some n, vs⟩

/-- What a line tells about the file: that it has frequencies, that it has not, or nothing. -/
inductive Tells : List Char → Option Bool → Prop
  | freq {line r f n fs} : FieldsOf line (r :: f :: fs) → fs.length % 3 = 0 →
      NumberText (2 ^ 32 - 1) f n → Tells line (some true)
  | noFreq {line r f fs} : FieldsOf line (r :: f :: fs) → fs.length % 3 ≠ 0 → Tells line (some false)
  | unknown {line r f fs} : FieldsOf line (r :: f :: fs) → fs.length % 3 = 0 →
      (∀ n, ¬ NumberText (2 ^ 32 - 1) f n) → Tells line none

/-- The lines of a variant list: the first line that tells decides for itself and the lines after it;
lines before it have no frequencies. -/
inductive VariantLines (parseF64 : List Char → Option Rat) :
    Option Bool → List (List Char) → List VariantEntry → Prop
  | nil {k} : VariantLines parseF64 k [] []
  | unknown {l ls e es} : Tells l none → PlainLine parseF64 l e →
      VariantLines parseF64 none ls es → VariantLines parseF64 none (l :: ls) (e :: es)
  | tells {l ls es b} : Tells l (some b) → VariantLines parseF64 (some b) (l :: ls) es →
      VariantLines parseF64 none (l :: ls) es
  | freq {l ls e es} : FreqLine parseF64 l e → VariantLines parseF64 (some true) ls es →
      VariantLines parseF64 (some true) (l :: ls) (e :: es)
  | plain {l ls e es} : PlainLine parseF64 l e → VariantLines parseF64 (some false) ls es →
      VariantLines parseF64 (some false) (l :: ls) (e :: es)

/-- Adding variants to a reference. -/
def addVariants (params : VocabParams) (refId : Nat) : Vm → List (List Char × Rat × Option Nat) → Res Vm
  | m, [] => .ok m
  | m, v :: vs => do
    let (m, _) ← m.addVariant refId v.1 v.2.1 v.2.2 params
    addVariants params refId m vs

/-- Adding the entries of a variant list: the reference, then its variants. -/
def addEntries (params variantParams : VocabParams) : Vm → List VariantEntry → Res Vm
  | m, [] => .ok m
  | m, e :: es => do
    let (m, refId) ← m.addToVocabulary e.reference e.freq params
    let m ← addVariants variantParams refId m e.variants
    addEntries params variantParams m es

end Verif.Spec
