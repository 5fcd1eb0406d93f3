/-!
# Common conventions of the model

A Rust panic is an explicit error value.  Everything that may panic returns `Res α`.
-/
namespace Verif

/-- The ways in which the modelled code can panic (debug profile of rustc: arithmetic
overflow panics; in the release profile it wraps around instead). -/
inductive Panic where
  /-- `slice[i]` or `slice.get(i).unwrap()` out of range -/
  | index
  /-- arithmetic overflow or underflow of an unsigned integer -/
  | overflow
  /-- `% 0` or `/ 0` on integers -/
  | divZero
  /-- `.expect(..)`/`.unwrap()` on `None`/`Err` -/
  | expect
  /-- `assert!(..)` failed -/
  | assertion
  /-- explicit `panic!(..)` -/
  | explicit
  /-- not a panic: what the code does then is not modelled (only used for runs of the command line
  tool at a level of debugging above 1, see `CommandLine.debugLevel`) -/
  | unmodelled
  deriving DecidableEq, Repr

/-- Result of a Rust computation that may panic. -/
abbrev Res (α : Type) := Except Panic α

/-- Results can be compared (used to evaluate the model on concrete inputs). -/
instance instDecidableEqRes {α : Type} [DecidableEq α] : DecidableEq (Res α)
  | .ok a, .ok b => if h : a = b then isTrue (h ▸ rfl) else isFalse (fun e => h (by cases e; rfl))
  | .error a, .error b =>
    if h : a = b then isTrue (h ▸ rfl) else isFalse (fun e => h (by cases e; rfl))
  | .ok _, .error _ => isFalse (fun e => by cases e)
  | .error _, .ok _ => isFalse (fun e => by cases e)

end Verif
