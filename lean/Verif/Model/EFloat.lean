import Verif.Model.Float

/-!
# Floating point numbers with infinities and NaN

Used for the scores of sequences, where the code takes logarithms of numbers that may be zero.
Overflow of a finite operation is not modelled (rational numbers are not bounded).
-/
namespace Verif.Model

/-- A floating point number: finite, infinite, or not a number. -/
inductive EFloat where
  | nan
  | negInf
  | fin (x : Rat)
  | posInf
  deriving DecidableEq

namespace EFloat

/-- `a > b`, false if one is NaN. -/
def gt : EFloat → EFloat → Bool
  | .fin a, .fin b => a > b
  | .fin _, .negInf => true
  | .posInf, .fin _ => true
  | .posInf, .negInf => true
  | _, _ => false

/-- `a + b` -/
def add (r : Rounding) : EFloat → EFloat → EFloat
  | .fin a, .fin b => .fin (r.rnd (a + b))
  | .fin _, .negInf => .negInf
  | .negInf, .fin _ => .negInf
  | .negInf, .negInf => .negInf
  | .fin _, .posInf => .posInf
  | .posInf, .fin _ => .posInf
  | .posInf, .posInf => .posInf
  | _, _ => .nan

/-- `w * a` for a finite `w` -/
def scale (r : Rounding) (w : Rat) : EFloat → EFloat
  | .nan => .nan
  | .fin a => .fin (r.rnd (w * a))
  | .negInf => if w > 0 then .negInf else if w < 0 then .posInf else .nan
  | .posInf => if w > 0 then .posInf else if w < 0 then .negInf else .nan

/-- An infinity of the sign of `a` times that of a zero divisor (`neg`: it is −0); 0 / 0 is NaN. -/
def divZero (neg : Bool) : EFloat → EFloat
  | .nan => .nan
  | .fin a => if a = 0 then .nan else if (a < 0) ≠ (neg = true) then .negInf else .posInf
  | .negInf => if neg then .posInf else .negInf
  | .posInf => if neg then .negInf else .posInf

/-- `a / b`; if `b` is zero, `neg` tells whether it is −0. -/
def div (r : Rounding) (neg : Bool) (a : EFloat) : EFloat → EFloat
  | .nan => .nan
  | .fin b =>
    if b = 0 then divZero neg a
    else
      match a with
      | .nan => .nan
      | .fin a => .fin (r.rnd (a / b))
      | .negInf => if b > 0 then .negInf else .posInf
      | .posInf => if b > 0 then .posInf else .negInf
  | _ =>
    match a with
    | .fin _ => .fin 0
    | _ => .nan

/-- Natural logarithm; `ln` gives it (rounded) for positive numbers. -/
def log (ln : Rat → Rat) : EFloat → EFloat
  | .nan => .nan
  | .negInf => .nan
  | .fin a => if a > 0 then .fin (ln a) else if a = 0 then .negInf else .nan
  | .posInf => .posInf

/-- Rounding (conversion to a smaller format). -/
def round (r : Rounding) : EFloat → EFloat
  | .fin a => .fin (r.rnd a)
  | a => a

end EFloat

end Verif.Model
