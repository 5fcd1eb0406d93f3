import Verif.Model.Learn

/-!
# Specification: what a history of operations says about a text
-/
namespace Verif.Spec

open Verif.Model

/-- The additions of text `t` in a history, in order: frequency given and parameters. -/
def additions (t : List Char) : List Op → List (Option Nat × VocabParams)
  | [] => []
  | .add text f p :: ops => if t = text then (f, p) :: additions t ops else additions t ops
  | .addVariant _ text _ f p :: ops =>
    if t = text then (f, p) :: additions t ops else additions t ops
  | _ :: ops => additions t ops

/-- No operation of the history learns variants. -/
def NoLearning (ops : List Op) : Prop :=
  ∀ findings autoBuild o, Op.learn findings autoBuild o ∉ ops

/-- The three reserved texts. -/
def Reserved (t : List Char) : Prop :=
  t = "<bos>".toList ∨ t = "<eos>".toList ∨ t = "<unk>".toList

instance (t : List Char) : Decidable (Reserved t) := by unfold Reserved; infer_instance

/-- `v` is the entry of text `t`, at id `i`. -/
def EntryAt (m : Vm) (t : List Char) (i : Nat) (v : VocabValue) : Prop :=
  m.encoder.get? t = some i ∧ m.decoder[i]? = some v ∧ v.text = t

/-- The frequencies given (a missing one counts as 1). -/
def frequencies (as : List (Option Nat × VocabParams)) : List Nat := as.map fun a => a.1.getD 1

/-- The references an operation asks to record: id of the reference and score. -/
def opLinks : Op → List (Nat × Rat)
  | .add _ _ _ => []
  | .addVariant refId _ score _ _ => [(refId, score)]
  | .addVariantById refId _ score => [(refId, score)]
  | .build _ => []
  | .learn findings _ _ => findings.map fun f => (f.vocabId, f.distScore)
  | .freq => []
  | .lexicon _ => []

end Verif.Spec
