import Verif.Model.Base

/-!
# Model of `NGram` (src/types.rs)
-/
namespace Verif.Model

/-- `NGram`.  Models src/types.rs:370-377. -/
inductive NGram where
  | empty
  | uni (a : Nat)
  | bi (a b : Nat)
  | tri (a b c : Nat)
  | quad (a b c d : Nat)
  | quint (a b c d e : Nat)
  deriving DecidableEq, Repr

namespace NGram

/-- `from_list`; `none` is the `Err`.  Models src/types.rs:380-390. -/
def fromList : List Nat → Option NGram
  | [] => some .empty
  | [a] => some (.uni a)
  | [a, b] => some (.bi a b)
  | [a, b, c] => some (.tri a b c)
  | [a, b, c, d] => some (.quad a b c d)
  | [a, b, c, d, e] => some (.quint a b c d e)
  | _ => none

/-- `from_option_list`; `none` is the `Err`.  Models src/types.rs:392-404. -/
def fromOptionList : List (Option Nat) → Option NGram
  | [] => some .empty
  | [some a] => some (.uni a)
  | [some a, some b] => some (.bi a b)
  | [some a, some b, some c] => some (.tri a b c)
  | [some a, some b, some c, some d] => some (.quad a b c d)
  | [some a, some b, some c, some d, some e] => some (.quint a b c d e)
  | _ => none

/-- `to_vec`.  Models src/types.rs:406-427. -/
def toVec : NGram → List Nat
  | .empty => []
  | .uni x => [x]
  | .bi x y => [x, y]
  | .tri x y z => [x, y, z]
  | .quad a b c d => [a, b, c, d]
  | .quint a b c d e => [a, b, c, d, e]

/-- `len`.  Models src/types.rs:433-442. -/
def len : NGram → Nat
  | .empty => 0
  | .uni _ => 1
  | .bi _ _ => 2
  | .tri _ _ _ => 3
  | .quad _ _ _ _ => 4
  | .quint _ _ _ _ _ => 5

/-- `push`: new value and returned flag.  Models src/types.rs:444-468. -/
def push (self : NGram) (item : Nat) : NGram × Bool :=
  match self with
  | .empty => (.uni item, true)
  | .uni x => (.bi x item, true)
  | .bi x y => (.tri x y item, true)
  | .tri x y z => (.quad x y z item, true)
  | .quad a b c d => (.quint a b c d item, true)
  | .quint a b c d e => (.quint a b c d e, false)

/-- `first`.  Models src/types.rs:470-479. -/
def first : NGram → Option Nat
  | .empty => none
  | .uni x => some x
  | .bi x _ => some x
  | .tri x _ _ => some x
  | .quad x _ _ _ => some x
  | .quint x _ _ _ _ => some x

/-- `pop_first`: new value and returned n-gram.  Models src/types.rs:481-505. -/
def popFirst : NGram → NGram × NGram
  | .empty => (.empty, .empty)
  | .uni x => (.empty, .uni x)
  | .bi x y => (.uni y, .uni x)
  | .tri x y z => (.bi y z, .uni x)
  | .quad a b c d => (.tri b c d, .uni a)
  | .quint a b c d e => (.quad b c d e, .uni a)

/-- `pop_last`: new value and returned n-gram.  Models src/types.rs:507-531. -/
def popLast : NGram → NGram × NGram
  | .empty => (.empty, .empty)
  | .uni x => (.empty, .uni x)
  | .bi x y => (.uni x, .uni y)
  | .tri x y z => (.bi x y, .uni z)
  | .quad a b c d => (.tri a b c, .uni d)
  | .quint a b c d e => (.quad a b c d, .uni e)

end NGram

end Verif.Model
