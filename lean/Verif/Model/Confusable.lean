import Verif.Model.Float
import Verif.Model.Base

/-!
# Model of `src/confusables.rs`
-/
namespace Verif.Model

/-- `EditInstruction` of the crate sesdiff, the variants used in src/confusables.rs:52-93. -/
inductive EditInstr where
  | insertion (s : List Char)
  | deletion (s : List Char)
  | identity (s : List Char)
  | insertionOptions (v : List (List Char))
  | deletionOptions (v : List (List Char))
  | identityOptions (v : List (List Char))
  deriving DecidableEq, Repr

/-- `Confusable`.  Models src/confusables.rs:5-11. -/
structure Confusable where
  script : List EditInstr
  weight : Rat
  strictbegin : Bool
  strictend : Bool

/-- `Confusable::new`; `parse` is `EditScript::from_str` of sesdiff, and the inner `none` is the
error it returns.  `get(0..1)` and `get(l - 1..)` fail if the first or last character takes more
than one byte, or if there is none.  Models src/confusables.rs:14-43. -/
def Confusable.new (parse : List Char → Option (List EditInstr)) (editscript : List Char)
    (weight : Rat) : Res (Option Confusable) :=
  match editscript.head?, editscript.getLast? with
  | some a, some z =>
    if a.utf8Size > 1 ∨ z.utf8Size > 1 then .error .expect
    else
      let strictbegin := a == '^'
      let strictend := z == '$'
      let inner := if strictbegin then editscript.tail else editscript
      let inner := if strictend then inner.dropLast else inner
      .ok ((parse inner).map fun script => { script, weight, strictbegin, strictend })
  | _, _ => .error .expect

/-- How an identity is compared, depending on the position `matches` in a pattern of `l`
instructions.  Models src/confusables.rs:57-66 (and 79-99 for the options). -/
def identityFits (pos l : Nat) (s sref : List Char) : Bool :=
  if pos == 0 && pos == l - 1 then s == sref
  else if pos == 0 then s.isSuffixOf sref
  else if pos == l - 1 then s.isPrefixOf sref
  else s == sref

/-- Does an instruction of the script fit the instruction of the pattern at position `pos`.
Models src/confusables.rs:51-103. -/
def EditInstr.fits (pos l : Nat) : EditInstr → EditInstr → Bool
  | .insertion s, .insertion sref => s.isSuffixOf sref
  | .deletion s, .deletion sref => s.isSuffixOf sref
  | .identity s, .identity sref => identityFits pos l s sref
  | .insertionOptions v, .insertion sref => v.any fun s => s.isSuffixOf sref
  | .deletionOptions v, .deletion sref => v.any fun s => s.isSuffixOf sref
  | .identityOptions v, .identity sref => v.any fun s => identityFits pos l s sref
  | _, _ => false

/-- The loop of `found_in`: `i` is the position in the script (of `n` instructions), `pos` the
number of instructions matched so far.  Models src/confusables.rs:49-121. -/
def Confusable.foundLoop (c : Confusable) (n : Nat) : Nat → Nat → List EditInstr → Bool
  | _, _, [] => false
  | i, pos, refi :: rest =>
    match c.script[pos]? with
    | none => c.foundLoop n (i + 1) pos rest
    | some instr =>
      if instr.fits pos c.script.length refi then
        if pos + 1 == c.script.length then
          if c.strictend then i == n - 1 else true
        else c.foundLoop n (i + 1) (pos + 1) rest
      else if c.strictbegin then false
      else c.foundLoop n (i + 1) 0 rest

/-- `found_in`.  Models src/confusables.rs:46-123. -/
def Confusable.foundIn (c : Confusable) (refscript : List EditInstr) : Bool :=
  c.foundLoop refscript.length 0 0 refscript

end Verif.Model
