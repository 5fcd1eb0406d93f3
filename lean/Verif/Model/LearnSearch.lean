import Verif.Model.Learn
import Verif.Model.Sequence

/-!
# Model of `learn_variants` together with the search (`src/lib.rs`)
-/
namespace Verif.Model

/-- Applying a function to items one after the other, collecting the results. -/
def collectSeq {α β : Type} (f : α → Res β) : List α → Res (List β)
  | [] => .ok []
  | a :: l => do
    let b ← f a
    let rest ← collectSeq f l
    return b :: rest

/-- Workers applying a function to the items in the order of a schedule; the result of item `i` goes
to slot `i`.  Models `par_extend(into_par_iter().map(…))` in src/lib.rs:1086-1088 and
`par_iter().map(…).collect()` in src/bin/analiticcl.rs:445-448 (rayon keeps the order of the items). -/
def collectSlots {α β : Type} (f : α → Res β) (l : List α) :
    List Nat → List (Option β) → Res (List (Option β))
  | [], slots => .ok slots
  | i :: is, slots =>
    match l[i]? with
    | none => collectSlots f l is slots
    | some a => do
      let b ← f a
      collectSlots f l is (slots.set i (some b))

/-- All results of a schedule, in the order of the items. -/
def collectPar {α β : Type} (f : α → Res β) (is : List Nat) (l : List α) : Res (List β) := do
  let slots ← collectSlots f l is (List.replicate l.length none)
  return slots.filterMap id

/-- `find_variants_for_learning`.  Models src/lib.rs:1029-1056. -/
def Vm.findForLearning (m : Vm) (x : TextExt) (cfg : TextConfig) (p : TextParams) (strict : Bool)
    (input : List Char) : Res (List Finding) :=
  if strict then do
    let rs ← m.findVariants x.toExt cfg.toConfig p.variant input
    return rs.map fun r => ⟨input, r.vocabId, r.distScore⟩
  else do
    let ms ← m.findAllMatches x cfg p input
    return ms.filterMap fun a =>
      match a.variants, a.selected with
      | some variants, some selected => variants[selected]?.map fun r => ⟨a.text, r.vocabId, r.distScore⟩
      | _, _ => none

/-- `learn_variants` from the inputs on.  Models src/lib.rs:1062-1139. -/
def Vm.learnFrom (m : Vm) (x : TextExt) (cfg : TextConfig) (p : TextParams)
    (inputs : List (List Char)) (strict autoBuild : Bool) (o : Orders) : Res (Vm × Nat) := do
  let f := m.findForLearning x cfg p strict
  let all ← if p.singleThread then collectSeq f inputs
    else collectPar f (x.sched inputs.length) inputs
  m.learnVariants all.flatten autoBuild o

end Verif.Model
