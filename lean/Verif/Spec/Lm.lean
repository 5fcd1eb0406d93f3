import Verif.Model.Sequence
import Verif.Spec.Rules

/-!
# Specification: language model scores
-/
namespace Verif.Spec

open Verif.Model

/-- The score of the transition from one token to the next, given counts for lists of tokens: the
logarithm of the count of the pair over that of the first token (1 if unknown); a constant if a token is
unknown or the pair was never seen; and the logarithm of the count itself if it exceeds that of the
first token. -/
def transition {T : Type} (count : List T → Option Nat) (x : TextExt) (a b : Option T) : EFloat :=
  match a, b with
  | some a, some b =>
    match count [a, b] with
    | none => .fin (x.f32.rnd SMOOTHING)
    | some joint =>
      let prior := (count [a]).getD 1
      if joint ≤ prior then
        .log x.ln32 (.div x.f32 false (.fin (x.f32.rnd joint)) (.fin (x.f32.rnd prior)))
      else .log x.ln32 (.fin (x.f32.rnd joint))
  | _, _ => .fin (x.f32.rnd SMOOTHING)

/-- The tokens of a text: free of spaces, and joined by single spaces they give the text. -/
def TokensOf (t : List Char) (ws : List (List Char)) : Prop :=
  ws ≠ [] ∧ (∀ w ∈ ws, ' ' ∉ w) ∧ [' '].intercalate ws = t

/-- The tokens of an entry: the ids of those of its text (2 if unknown), nothing if there are more than
five. -/
def ItemTokens (m : Vm) (id : Nat) (l : List (Option Nat)) : Prop :=
  ∃ v ws, m.decoder[id]? = some v ∧ TokensOf v.text ws ∧
    l = if ws.length ≤ 5 then ws.map fun w => some ((m.encoder.get? w).getD 2) else []

/-- The tokens of an output symbol: an unknown one for the id 0, or those of the entry. -/
def SymbolTokens (m : Vm) (o : OutputSymbol) (l : List (Option Nat)) : Prop :=
  (o.vocabId = 0 ∧ l = [none]) ∨ (o.vocabId ≠ 0 ∧ ItemTokens m o.vocabId l)

/-- The tokens of a boundary: none if it consists of blanks; otherwise those of the entry with its text
(without blanks around it), or an unknown one. -/
def BoundaryTokens (m : Vm) (isSpace : Char → Bool) (text : List Char) (l : List (Option Nat)) : Prop :=
  (Blank isSpace text ∧ l = []) ∨
  (∃ a s b, text = a ++ s ++ b ∧ Blank isSpace a ∧ Blank isSpace b ∧ Trimmed isSpace s ∧ s ≠ [] ∧
    ((m.encoder.get? s = none ∧ l = [none]) ∨ ∃ id, m.encoder.get? s = some id ∧ ItemTokens m id l))

end Verif.Spec
