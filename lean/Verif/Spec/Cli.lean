import Verif.Model.Cli
import Verif.Spec.Json

/-!
# Specification: what the command line tool prints
-/
namespace Verif.Spec

open Verif.Model

/-- The order in which variants are listed: the selected one, if there is one, before all others, which
stay in their order. -/
def Listed {α : Type} (variants : List α) (selected : Option Nat) (l : List α) : Prop :=
  (∃ i r, selected = some i ∧ variants[i]? = some r ∧ l = r :: variants.eraseIdx i) ∨
  ((∀ i, selected = some i → variants[i]? = none) ∧ l = variants)

/-- The lines that can be read. -/
def readable (lines : List (Option (List Char))) : List (List Char) := lines.filterMap id

/-- The lines before the first that cannot be read. -/
def untilError (lines : List (Option (List Char))) : List (List Char) :=
  (lines.takeWhile Option.isSome).filterMap id

/-- The groups are a division of the lines into batches: each but the last ends with its hundredth
line, an empty line, or (in the mode with a batch per line) its first line, and not before; the last
one ends with the input. -/
inductive Groups (perLine : Bool) : List (List Char) → List (List (List Char)) → Prop
  | last {g} : g.length < 100 → (∀ l ∈ g, l ≠ []) → (perLine → g = []) → Groups perLine g [g]
  | full {g l rest gs} : g.length + 1 ≤ 100 → (∀ l ∈ g, l ≠ []) → (perLine → g = []) →
      (g.length + 1 = 100 ∨ l = [] ∨ perLine) → Groups perLine rest gs →
      Groups perLine (g ++ l :: rest) ((g ++ [l]) :: gs)

/-- The member for the form a variant was found through, if any. -/
def ViaMember (o : Printer) : Option Nat → List (List Char × Json) → Prop
  | none, ms => ms = []
  | some id, ms => ∃ w, o.vm.decoder[id]? = some w ∧ ms = [("via".toList, Json.str w.text)]

/-- The JSON object for a variant. -/
def ResultValue (o : Printer) (r : VariantResult) (j : Json) : Prop :=
  ∃ v via, o.vm.decoder[r.vocabId]? = some v ∧ ViaMember o r.via via ∧
    j = .obj ([("text".toList, .str v.text),
        ("score".toList, .num (o.showF (r.score o.f64 o.freqWeight))),
        ("dist_score".toList, .num (o.showF r.distScore)),
        ("freq_score".toList, .num (o.showF r.freqScore))] ++ via ++
      if o.lexmatch then
        [("lexicons".toList, .arr (((o.vm.lexicons.zipIdx.filter fun n => v.lexindex.testBit n.2).map
          fun n => .str n.1)))]
      else [])

/-- The members for the offset of a match. -/
def offsetMembers : Option (Nat × Nat) → List (List Char × Json)
  | none => []
  | some (b, e) => [("begin".toList, .num (Nat.toDigits 10 b)), ("end".toList, .num (Nat.toDigits 10 e))]

/-- The members for the tags of a match, if it has any. -/
def TagMembers (o : Printer) (tag seqnr : List Nat) (ms : List (List Char × Json)) : Prop :=
  (tag = [] ∧ ms = []) ∨ (tag ≠ [] ∧ ∃ names, List.Forall₂ (fun t n => o.tags[t]? = some n) tag names ∧
    ms = [("tag".toList, Json.arr (names.map .str)),
      ("seqnr".toList, Json.arr (seqnr.map fun n => .num (Nat.toDigits 10 n)))])

/-- The member for the variants of a match, if there are any. -/
def VariantsMember (o : Printer) (selected : Option Nat) :
    Option (List VariantResult) → List (List Char × Json) → Prop
  | none, ms => ms = []
  | some vs, ms => ∃ l js, Listed vs selected l ∧ List.Forall₂ (ResultValue o) l js ∧
      ms = [("variants".toList, Json.arr js)]

/-- The JSON object for a match. -/
def MatchValue (o : Printer) (input : List Char) (variants : Option (List VariantResult))
    (selected : Option Nat) (offset : Option (Nat × Nat)) (tag seqnr : List Nat) (j : Json) : Prop :=
  ∃ tags vars, TagMembers o tag seqnr tags ∧ VariantsMember o selected variants vars ∧
    j = .obj ([("input".toList, .str input)] ++ offsetMembers offset ++ tags ++ vars)

/-- Texts in which only quotes need an escape. -/
def Plain (s : List Char) : Prop := ∀ c ∈ s, c ≠ '\\' ∧ 0x20 ≤ c.toNat

/-- A printer whose texts can be printed: names of tags are printed as they are, and numbers as JSON
numbers. -/
structure PrinterOk (o : Printer) : Prop where
  vocab : ∀ v ∈ o.vm.decoder, Plain v.text
  lexicons : ∀ n ∈ o.vm.lexicons, Plain n
  tags : ∀ n ∈ o.tags, Plain n ∧ '"' ∉ n
  numbers : ∀ q, NumText (o.showF q)

end Verif.Spec
