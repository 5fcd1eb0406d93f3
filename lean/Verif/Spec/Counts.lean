import Verif.Spec.Reading
import Verif.Spec.Resources

/-!
# Specification: the language model that the files of a command line give
-/
namespace Verif.Spec

open Verif.Model

/-- What the sources add: text, frequency and parameters, in order. -/
abbrev Additions := List (List Char × Option Nat × VocabParams)

/-- A source has the text, or it is one of the markers. -/
def HasEntry (adds : Additions) (t : List Char) : Prop := Reserved t ∨ ∃ a ∈ adds, a.1 = t

/-- The text is part of the language model: the first source that has it is a language model; for a marker,
any source will do. -/
def InLm (adds : Additions) (t : List Char) : Prop :=
  ∃ a, adds.find? (fun a => a.1 = t) = some a ∧ (Reserved t ∨ a.2.2.vocabType.lm = true)

/-- The greatest frequency given. -/
def greatest (adds : Additions) (t : List Char) : Nat :=
  ((adds.filter fun a => a.1 = t).map fun a => a.2.1.getD 1).foldr max 0

/-- A token stands for itself if it is known, and otherwise for the unknown word. -/
def Stands (adds : Additions) (w u : List Char) : Prop :=
  (HasEntry adds w ∧ u = w) ∨ (¬ HasEntry adds w ∧ u = "<unk>".toList)

/-- The count of the tokens `ws`: the total frequency of the texts of the language model, of at most five
tokens, that consist of them; none if there is no such text. -/
def LmCount (adds : Additions) (ws : List (List Char)) (c : Option Nat) : Prop :=
  ∃ ts : List (List Char), ts.Nodup ∧
    (∀ t, t ∈ ts ↔ InLm adds t ∧ ∃ us, TokensOf t us ∧ us.length ≤ 5 ∧ List.Forall₂ (Stands adds) us ws) ∧
    c = if ts = [] then none else some (ts.map (greatest adds)).sum

/-- The tokens of a word; nothing if there are more than five. -/
def WordTokens (adds : Additions) (t : List Char) (l : List (Option (List Char))) : Prop :=
  ∃ us ws, TokensOf t us ∧ List.Forall₂ (Stands adds) us ws ∧ l = if us.length ≤ 5 then ws.map some else []

/-- The tokens of a separator: none if it consists of blanks; otherwise, without blanks around it, those of it
as a word if it is known, or an unknown one. -/
def SepTokens (adds : Additions) (isSpace : Char → Bool) (text : List Char) (l : List (Option (List Char))) :
    Prop :=
  (Blank isSpace text ∧ l = []) ∨
  (∃ a s b, text = a ++ s ++ b ∧ Blank isSpace a ∧ Blank isSpace b ∧ Trimmed isSpace s ∧ s ≠ [] ∧
    ((¬ HasEntry adds s ∧ l = [none]) ∨ (HasEntry adds s ∧ WordTokens adds s l)))

/-- The tokens of a stretch: an unknown one if nothing is suggested (or the marker `<bos>`), or those of the
chosen word; and those of the separator. -/
def StretchTokens (adds : Additions) (isSpace : Char → Bool) (a : Part Suggestion)
    (l : List (Option (List Char))) : Prop :=
  ∃ l1 l2, l = l1 ++ l2 ∧ SepTokens adds isSpace a.sep l2 ∧
    (((∀ c ∈ a.choice, c.2.word = "<bos>".toList) ∧ l1 = [none]) ∨
      ∃ c ∈ a.choice, c.2.word ≠ "<bos>".toList ∧ WordTokens adds c.2.word l1)

/-- The perplexity of a reading: minus the mean score of the transitions between the tokens, with markers
before the first and after the last. -/
def WordPerplexity (adds : Additions) (x : TextExt) (l : List (Part Suggestion)) (y : Rat) : Prop :=
  ∃ count : List (List Char) → Option Nat, (∀ ws, LmCount adds ws (count ws)) ∧
    ∃ ls tokens, ∃ ts : List Rat, List.Forall₂ (StretchTokens adds x.isSpace) l ls ∧
      tokens = some "<bos>".toList :: ls.flatten ++ [some "<eos>".toList] ∧
      List.zipWith (transition count x) tokens tokens.tail = ts.map .fin ∧
      y = -(ts.sum / ts.length)

end Verif.Spec
