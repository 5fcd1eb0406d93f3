import Verif.Model.Vocab

/-!
# Model of `learn_variants`, the reverse index, and histories of operations
-/
namespace Verif.Model

/-- The parameters of `learn_variants` for new items.  Models src/lib.rs:1076-1078. -/
def learnParams : VocabParams := { vocabType := .TRANSPARENT, freqHandling := .max }

/-- One finding of `find_variants_for_learning`: input text, `vocab_id` and `dist_score` of the
result.  (The search itself is modelled elsewhere; here its findings are arbitrary.) -/
structure Finding where
  input : List Char
  vocabId : Nat
  distScore : Rat

/-- The id for the input in `learn_variants`: existing entries get their frequency incremented at
the first of consecutive occurrences.  Models src/lib.rs:1103-1119. -/
def Vm.learnId (m : Vm) (input : List Char) (prev : Option (List Char)) : Res (Vm × Nat) :=
  match m.encoder.get? input with
  | some id =>
    match m.decoder[id]? with
    | none => .error .expect
    | some item =>
      if prev ≠ some input then
        if item.frequency + 1 ≥ 2 ^ 32 then .error .overflow
        else
          .ok ({ m with decoder := m.decoder.set id { item with frequency := item.frequency + 1 } }, id)
      else .ok (m, id)
  | none => m.addToVocabulary input (some 1) learnParams

/-- The loop of `learn_variants`: new model and count.  Models src/lib.rs:1100-1127. -/
def Vm.learnLoop (m : Vm) : List Finding → Option (List Char) → Nat → Res (Vm × Nat)
  | [], _, count => .ok (m, count)
  | f :: fs, prev, count => do
    let (m, id) ← m.learnId f.input prev
    if f.vocabId ≠ id then
      let (m, added) := m.addVariantById f.vocabId id f.distScore
      m.learnLoop fs (some f.input) (if added then count + 1 else count)
    else m.learnLoop fs (some f.input) count

/-- `learn_variants` given the findings of the search on the unmodified model, in order.
Models src/lib.rs:1062-1139. -/
def Vm.learnVariants (m : Vm) (findings : List Finding) (autoBuild : Bool) (o : Orders) :
    Res (Vm × Nat) := do
  let (m, count) ← m.learnLoop findings none 0
  if autoBuild then
    let m ← m.build o
    return (m, count)
  else return (m, count)

/-- `Variant`.  Models src/index.rs:15-20. -/
inductive Variant where
  | known (id : Nat)
  | unknown (text : List Char)
  deriving DecidableEq

/-- `add_to_reverse_index`.  Models src/lib.rs:1759-1786. -/
def Vm.addToReverseIndex (m : Vm) (rev : HMap Nat (List (Variant × Rat))) (input : List Char)
    (matched : Nat) (score : Rat) : HMap Nat (List (Variant × Rat)) :=
  let push (variant : Variant) :=
    match rev.get? matched with
    | some existing => rev.insert matched (existing ++ [(variant, score)])
    | none => rev.insert matched [(variant, score)]
  match m.encoder.get? input with
  | some known => if known = matched then rev else push (.known known)
  | none => push (.unknown input)

/-- An operation of the API that changes vocabulary, index or language model. -/
inductive Op where
  /-- `add_to_vocabulary` -/
  | add (text : List Char) (frequency : Option Nat) (params : VocabParams)
  /-- `add_variant` -/
  | addVariant (refId : Nat) (text : List Char) (score : Rat) (frequency : Option Nat)
      (params : VocabParams)
  /-- `add_variant_by_id` -/
  | addVariantById (refId variantId : Nat) (score : Rat)
  /-- `build`, with some iteration order of the hash maps -/
  | build (o : Orders)
  /-- `learn_variants`, with any findings -/
  | learn (findings : List Finding) (autoBuild : Bool) (o : Orders)
  /-- `have_freq = true`, src/lib.rs:546 -/
  | freq
  /-- `lexicons.push`, src/lib.rs:566, 895 -/
  | lexicon (name : List Char)

/-- Effect of an operation on the model (return values dropped). -/
def Vm.step (m : Vm) : Op → Res Vm
  | .add text frequency params => do
    let (m, _) ← m.addToVocabulary text frequency params
    return m
  | .addVariant refId text score frequency params => do
    let (m, _) ← m.addVariant refId text score frequency params
    return m
  | .addVariantById refId variantId score => .ok (m.addVariantById refId variantId score).1
  | .build o => m.build o
  | .learn findings autoBuild o => do
    let (m, _) ← m.learnVariants findings autoBuild o
    return m
  | .freq => .ok { m with haveFreq := true }
  | .lexicon name => .ok { m with lexicons := m.lexicons ++ [name] }

/-- Effect of a history. -/
def Vm.run (m : Vm) : List Op → Res Vm
  | [] => .ok m
  | op :: ops => do
    let m ← m.step op
    m.run ops

end Verif.Model
