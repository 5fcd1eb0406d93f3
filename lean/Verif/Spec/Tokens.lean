import Verif.Model.Search

/-!
# Specification: a text as words and separators
-/
namespace Verif.Spec

open Verif.Model

/-- A word (possibly empty) with the separator after it (possibly empty). -/
abbrev Seg := List Char × List Char

/-- The text that words and separators make up. -/
def flat : List Seg → List Char
  | [] => []
  | (w, s) :: l => w ++ s ++ flat l

/-- `l` are the words and separators of `text`: words consist of alphabetic characters, separators of
others; only the first word and the last separator may be empty. -/
structure Segmented (isAlpha : Char → Bool) (text : List Char) (l : List Seg) : Prop where
  ne : l ≠ []
  text_eq : flat l = text
  words : ∀ p ∈ l, ∀ c ∈ p.1, isAlpha c = true
  seps : ∀ p ∈ l, ∀ c ∈ p.2, isAlpha c = false
  words_ne : ∀ p ∈ l.tail, p.1 ≠ []
  seps_ne : ∀ p ∈ l.dropLast, p.2 ≠ []

/-- The separators as spans of the text, which starts at byte `o`. -/
def boundariesFrom : Nat → List Seg → List Match
  | _, [] => []
  | o, (w, s) :: l =>
    { text := s, first := o + byteLen w, last := o + byteLen w + byteLen s } ::
      boundariesFrom (o + byteLen w + byteLen s) l

/-- The text of consecutive words with the separators between them. -/
def stretch : List Seg → List Char
  | [] => []
  | [(w, _)] => w
  | (w, s) :: p :: l => w ++ s ++ stretch (p :: l)

/-- The span of consecutive words, the first starting at byte `o`. -/
def spanAt (o : Nat) (l : List Seg) : Match :=
  { text := stretch l, first := o, last := o + byteLen (stretch l), n := l.length }

/-- The spans of all runs of `n` consecutive words that are not empty, in order; the text starts at
byte `o`. -/
def runsFrom (n : Nat) : Nat → List Seg → List Match
  | _, [] => []
  | o, p :: l =>
    (if n ≤ (p :: l).length ∧ stretch ((p :: l).take n) ≠ [] then [spanAt o ((p :: l).take n)]
      else []) ++ runsFrom n (o + byteLen (p.1 ++ p.2)) l

/-- The strength of a boundary.  -/
def IsStrength (last : Prop) (text : List Char) : Strength → Prop
  | .hard => last ∨ 1 < byteLen text
  | .weak => ¬ last ∧ byteLen text ≤ 1 ∧ (text = ['\''] ∨ text = ['-'] ∨ text = ['_'])
  | .normal => ¬ last ∧ byteLen text ≤ 1 ∧ text ≠ ['\''] ∧ text ≠ ['-'] ∧ text ≠ ['_']
  | .none => False

/-- The span's text is the text at its byte offsets. -/
def Faithful (text : List Char) (m : Match) : Prop :=
  ∃ a c, text = a ++ m.text ++ c ∧ m.first = byteLen a ∧ m.last = byteLen (a ++ m.text)

/-- Words and separators grouped into batches: a batch ends at the end of the text or at a separator of
more than one byte, but not at a separator at which the batch would not have a word.  `cur` is the batch
so far. -/
def batches : List Seg → List Seg → List (List Seg)
  | _, [] => []
  | cur, (w, s) :: rest =>
    if (rest = [] ∨ 1 < byteLen s) ∧ (cur ≠ [] ∨ w ≠ []) then (cur ++ [(w, s)]) :: batches [] rest
    else batches (cur ++ [(w, s)]) rest

/-- A batch: words and separators, at least one word not empty. -/
structure IsBatch (isAlpha : Char → Bool) (g : List Seg) : Prop where
  seg : Segmented isAlpha (flat g) g
  word : stretch g ≠ []

/-- `m` covers the words `s`, …, `e - 1` of the batch `g`, which starts at byte `o`. -/
structure Span (o : Nat) (g : List Seg) (s e : Nat) (m : Match) : Prop where
  lt : s < e
  le : e ≤ g.length
  text : m.text = stretch ((g.take e).drop s)
  first : m.first = o + byteLen (flat (g.take s))
  last : m.last = o + byteLen (stretch (g.take e))
  ne : m.first < m.last
  n : m.n = e - s

end Verif.Spec
