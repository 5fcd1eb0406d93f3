import Verif.Model.Python

/-!
# Weights and the attributes of vocabulary parameters in Python (`bindings/python/src/lib.rs`)
-/
namespace Verif.Model

/-- `Weights`, with any floating point numbers.  Models bindings/python/src/lib.rs:10-14,
src/types.rs:38-54. -/
structure PyWeights where
  ld : EFloat
  lcs : EFloat
  pre : EFloat
  suf : EFloat
  case : EFloat
  deriving DecidableEq

/-- `default`.  Models src/types.rs:56-66. -/
def PyWeights.default : PyWeights := ⟨.fin (1 / 2), .fin (1 / 8), .fin (1 / 8), .fin (1 / 8), .fin (1 / 8)⟩

/-- The keyword arguments and attributes of `Weights` (and any other). -/
inductive PyWeightKey where
  | ld | lcs | prefix | suffix | case
  | other (s : List Char)
  deriving DecidableEq

/-- One keyword argument; a value that cannot be converted is passed over.  Models
bindings/python/src/lib.rs:23-50. -/
def PyWeights.set (f64 : Rounding) (w : PyWeights) (k : PyWeightKey) (v : PyVal) : PyWeights :=
  match k with
  | .ld => (v.asF64 f64).elim w fun q => { w with ld := q }
  | .lcs => (v.asF64 f64).elim w fun q => { w with lcs := q }
  | .prefix => (v.asF64 f64).elim w fun q => { w with pre := q }
  | .suffix => (v.asF64 f64).elim w fun q => { w with suf := q }
  | .case => (v.asF64 f64).elim w fun q => { w with case := q }
  | .other _ => w

/-- `new`.  Models bindings/python/src/lib.rs:18-54. -/
def newWeights (f64 : Rounding) (kwargs : List (PyWeightKey × PyVal)) : PyWeights :=
  kwargs.foldl (fun w a => w.set f64 a.1 a.2) .default

/-- `to_dict`.  Models bindings/python/src/lib.rs:104-112 and the getters at 56-75. -/
def PyWeights.toDict (w : PyWeights) : List (PyWeightKey × PyVal) :=
  [(.ld, .float w.ld), (.lcs, .float w.lcs), (.prefix, .float w.pre), (.suffix, .float w.suf),
   (.case, .float w.case)]

/-- An assignment to an attribute; an exception if the value does not convert.  The class has a `__dict__`,
so other attributes can be set but mean nothing.  Models bindings/python/src/lib.rs:10, 77-102. -/
def PyWeights.assign (f64 : Rounding) (w : PyWeights) (k : PyWeightKey) (v : PyVal) : Option PyWeights :=
  match k with
  | .ld => (v.asF64 f64).map fun q => { w with ld := q }
  | .lcs => (v.asF64 f64).map fun q => { w with lcs := q }
  | .prefix => (v.asF64 f64).map fun q => { w with pre := q }
  | .suffix => (v.asF64 f64).map fun q => { w with suf := q }
  | .case => (v.asF64 f64).map fun q => { w with case := q }
  | .other _ => some w

/-- An assignment to an attribute of `VocabParams`.  There are attributes for the columns and the index only;
others can be set but mean nothing.  Models bindings/python/src/lib.rs:448, 531-545. -/
def assignVocab (p : VocabParams) (k : PyVocabKey) (v : PyVal) : Option VocabParams :=
  match k with
  | .textColumn => (v.asUnsigned 255).map fun n => { p with textColumn := n }
  | .freqColumn =>
    match v with
    | .none => some { p with freqColumn := Option.none }
    | v => (v.asUnsigned 255).map fun n => { p with freqColumn := some n }
  | .index => (v.asUnsigned 255).map fun n => { p with index := n }
  | .freqhandling | .vocabtype | .other _ => some p

end Verif.Model
