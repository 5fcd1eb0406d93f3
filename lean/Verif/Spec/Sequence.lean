import Verif.Model.Sequence
import Verif.Spec.Tokens

/-!
# Specification: paths of a transducer and what is required of the solver
-/
namespace Verif.Spec

open Verif.Model

/-- `ts` is a walk along transitions from state `q` to state `q'`. -/
def Walk (trs : List Tr) : Nat → List Tr → Nat → Prop
  | q, [], q' => q = q'
  | q, t :: ts, q' => t ∈ trs ∧ t.src = q ∧ Walk trs t.dst ts q'

/-- `ts` is a walk from the start state to a final state. -/
def Accepting (f : Fst) (ts : List Tr) : Prop :=
  ∃ q ∈ f.finals, Walk f.trs 0 ts q

/-- The output labels of a walk, without epsilon. -/
def outputs (ts : List Tr) : List Nat := (ts.map Tr.olabel).filter (· ≠ 0)

/-- Every transition leads to a later state. -/
def Forward (f : Fst) : Prop := ∀ t ∈ f.trs, t.src < t.dst

/-- What the properties need of the solver (rustfst): its paths are accepted by the transducer, and if
at least one path is asked for and there is one, it returns one. -/
structure SolverOk (solve : Fst → Nat → List FstPath) : Prop where
  sound : ∀ f n π, π ∈ solve f n → ∃ ts, Accepting f ts ∧ π.olabels = outputs ts
  complete : ∀ f n ts, 1 ≤ n → Forward f → Accepting f ts → solve f n ≠ []

/-- All walks of at most `n` transitions from a state, with the state they lead to. -/
def walks (trs : List Tr) : Nat → Nat → List (List Tr × Nat)
  | 0, q => [([], q)]
  | n + 1, q => ([], q) :: (trs.filter (·.src == q)).flatMap fun t =>
      (walks trs n t.dst).map fun (ts, q') => (t :: ts, q')

/-- A reference solver: of all accepted paths (at most as long as the number of states), the `n`
cheapest, in order of cost. -/
def refSolver (f : Fst) (n : Nat) : List FstPath :=
  (((((walks f.trs (f.finals.foldr max 0) 0).filter fun w => f.finals.contains w.2).map fun w =>
    ({ weight := (w.1.map Tr.cost).sum, olabels := outputs w.1 } : FstPath))).insertionSort
      fun a b => a.weight ≤ b.weight).take n

end Verif.Spec
