import Verif.Spec.Resources
import Verif.Spec.Tool
import Verif.Spec.SimilarText
import Verif.Spec.Divided

/-!
# Specification: what is learned from texts
-/
namespace Verif.Spec

open Verif.Model

/-- The first of those with the same key, in order. -/
def firsts {α β : Type} [DecidableEq β] (key : α → β) : List α → List α
  | [] => []
  | a :: l => a :: (firsts key l).filter fun b => key b ≠ key a

/-- The variants of a word, with scores, given links (reference, variant and score): each variant counts
once, as it is first mentioned. -/
def variantsIn (ks : List (List Char × List Char × Rat)) (word : List Char) : List (List Char × Rat) :=
  firsts Prod.fst ((ks.filter fun k => k.1 = word).map fun k => (k.2.1, k.2.2))

/-- What is known about words after learning from findings (word that was found, text it was found for, and
score), in order: a text has been seen once more for each uninterrupted series of findings for it, and is a
variant of the words found for it. -/
def Lexis.learned (L : Lexis) (new : List (List Char × List Char × Rat)) : Lexis :=
  { L with
    freq := fun t => L.freq t + ((new.map fun k => k.2.1).destutter (· ≠ ·)).count t
    links := fun t => L.links t ++ ((proper new).filter fun k => k.2.1 = t).map fun k => (k.1, k.2.2)
    linked := fun t => L.linked t ∨ ∃ k ∈ proper new, k.1 = t ∨ k.2.1 = t }

/-- A round of learning: from what is known about words and the links there are, with findings as `found`
allows, to the same after learning, and the number of links made. -/
def Learns (found : Lexis → List (List Char) → List (List Char × List Char × Rat) → Prop)
    (lines : List (List Char)) (a b : Lexis × List (List Char × List Char × Rat)) (k : Nat) : Prop :=
  ∃ new, found a.1 lines new ∧ b = (a.1.learned new, a.2 ++ proper new) ∧ k = (proper new).length

/-- What is found when whole lines are learned: all suggestions for each line. -/
def FoundWhole (x : TextExt) (alphabet : Alphabet) (cfg : Config) (p : Params) (L : Lexis)
    (lines : List (List Char)) (new : List (List Char × List Char × Rat)) : Prop :=
  ∃ uss, List.Forall₂ (Suggestions x alphabet L cfg p) lines uss ∧
    new = (lines.zip uss).flatMap fun y => y.2.map fun u => (u.word, y.1, u.score)

/-- What is found when parts of lines are learned (offset, text, and the number of what was chosen for it):
for each part into which `divides` divides a line, given what is suggested for all texts, what was chosen, if
there is any. -/
def FoundParts (x : TextExt) (alphabet : Alphabet) (cfg : Config) (p : Params)
    (divides : (List Char → List Suggestion) → List Char → List (Nat × List Char × Option Nat) → Prop)
    (L : Lexis) (lines : List (List Char)) (new : List (List Char × List Char × Rat)) : Prop :=
  ∃ found rss, (∀ t, t ≠ [] → ShortEnough x alphabet p t → Suggestions x alphabet L cfg p t (found t)) ∧
    List.Forall₂ (divides found) lines rss ∧
    new = rss.flatten.filterMap fun r => r.2.2.bind fun i => (found r.2.1)[i]?.map fun u =>
      (u.word, r.2.1, u.score)

/-- The parts are the words of the text, and what is suggested first is chosen. -/
def InWords (isAlpha : Char → Bool) (text : List Char) (rs : List (Nat × List Char × Option Nat)) : Prop :=
  WordsOf isAlpha text (rs.map fun r => (r.1, r.2.1)) ∧ ∀ r ∈ rs, r.2.2 = some 0

/-- The line for a word: the word, and its variants with scores; nothing if it has none. -/
def learnedRow (showF : Rat → List Char) (ks : List (List Char × List Char × Rat)) (word : List Char) :
    List Char :=
  if variantsIn ks word = [] then [] else
    word ++ ((variantsIn ks word).flatMap fun v => '\t' :: v.1 ++ '\t' :: showF v.2) ++ ['\n']

/-- What is printed after learning: the lines for the words of the sources, in the order in which they are
first mentioned. -/
def LearnedText (showF : Rat → List Char) (as : List (List (List Char × Option Nat × VocabParams)))
    (s : Lexis × List (List Char × List Char × Rat)) (text : List Char) (ws : List FileWrite) : Prop :=
  ws = [] ∧ text = (firsts id (as.flatten.map Prod.fst)).flatMap (learnedRow showF s.2)

end Verif.Spec
