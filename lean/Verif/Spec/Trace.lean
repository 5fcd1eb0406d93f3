import Verif.Model.Trace
import Verif.Spec.Resources

/-!
# Specification: what has been printed when a run panics
-/
namespace Verif.Spec

open Verif.Model

/-- The run panics after it has printed `s`. -/
def PanicsAfter (t : Trace Ending) (s : List Char) : Prop := ∃ e, t = ⟨s, .error e⟩

/-- The options ask for a single thread. -/
def OneThread (c : CommandLine) : Prop := Given c .singleThread ∨ Given c .interactive

end Verif.Spec
