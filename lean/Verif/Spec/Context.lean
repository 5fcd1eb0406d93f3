import Verif.Spec.Counts
import Verif.Spec.RulesFile

/-!
# Specification: the context rules that files give, applied to words
-/
namespace Verif.Spec

open Verif.Model

/-! ## Rules in files -/

/-- A rule as it is written: patterns for consecutive words, a score, and tags with the offset and length of
their ranges. -/
structure WrittenRule where
  pattern : List Expr
  score : Rat
  tags : List (List Char × Nat × Nat)

/-- The words in a part of a pattern satisfy `word`, and the names of lexicons `lexicon`. -/
def TermNames (word lexicon : List Char → Prop) : Term → Prop
  | .lexicon name => lexicon name
  | .word w => word w
  | .not t => TermNames word lexicon t
  | _ => True

def ExprNames (word lexicon : List Char → Prop) : Expr → Prop
  | .parts t ts => ∀ u ∈ t :: ts, TermNames word lexicon u
  | .notGroup e => ExprNames word lexicon e

/-- The names in the rule are known: the words have an entry, and the names of lexicons stand for one of the
first 32 sources. -/
def NamesKnown (names : List (List Char)) (as : List Additions) (r : WrittenRule) : Prop :=
  ∀ e ∈ r.pattern, ExprNames (HasEntry as.flatten) (fun n => ∃ k < 32, IsLexicon names n k) e

/-- The request stands for the rule: fewer than 256 patterns, separated by `;`, tags that are not empty, each
with a range that ends before 256, or the whole rule if no range is given for it. -/
def CallFor (isSpace : Char → Bool) (c : RuleCall) (r : WrittenRule) : Prop :=
  ∃ ss os, List.Forall₂ (Writes isSpace) r.pattern ss ∧ (∀ s ∈ ss, ';' ∉ s) ∧ r.pattern ≠ [] ∧
    r.pattern.length < 256 ∧ c.pattern = [';'].intercalate ss ∧ r.score = c.score ∧ (∀ t ∈ c.tag, t ≠ []) ∧
    List.Forall₂ (OffsetText r.pattern.length) c.tagoffset os ∧ (∀ y ∈ os, y.1 + y.2 < 256) ∧
    r.tags = c.tag.zip (os ++ List.replicate (c.tag.length - os.length) (0, r.pattern.length))

/-- The rule in a line; none if the line cannot be read, is empty or is a comment. -/
def RuleLine (isSpace : Char → Bool) (parseFloat : List Char → Option Rat) :
    Option (List Char) → Option WrittenRule → Prop
  | none, r => r = none
  | some line, r => ∃ call, LineFor isSpace parseFloat line call ∧
      ((call = none ∧ r = none) ∨ ∃ c w, call = some c ∧ r = some w ∧ CallFor isSpace c w)

/-- The rules in files, in order. -/
def RulesIn (x : LoadExt) (files : List (List Char)) (rules : List WrittenRule) : Prop :=
  ∃ rss : List (List (Option WrittenRule)), List.Forall₂ (fun f rs => ∃ lines, x.file f = some lines ∧
      List.Forall₂ (RuleLine x.isSpace x.parseF32) lines rs) files rss ∧
    rules = rss.flatten.filterMap id

/-! ## Meaning -/

/-- Does the list have the word? -/
def HasWord (a : Additions) (t : List Char) : Prop := ∃ b ∈ a, b.1 = t

/-- Meaning of a part of a pattern for a word (none if it is not known), where the sources have the names
`names` and the words `as`.  The marker `<bos>` in a pattern stands for an unknown word. -/
def TermSays (names : List (List Char)) (as : List Additions) (w : Option (List Char)) : Term → Prop
  | .anything => True
  | .unknown => ∀ t, w = some t → ∀ a ∈ as, ¬ HasWord a t
  | .lexicon name => ∃ k a t, IsLexicon names name k ∧ as[k]? = some a ∧ w = some t ∧ HasWord a t
  | .word v => w.getD "<bos>".toList = v
  | .not t => ¬ TermSays names as w t

/-- Meaning of a pattern for a word. -/
def ExprSays (names : List (List Char)) (as : List Additions) (w : Option (List Char)) : Expr → Prop
  | .parts t ts => ∃ u ∈ t :: ts, TermSays names as w u
  | .notGroup e => ¬ ExprSays names as w e

/-- The patterns of the rule hold from position `b` on. -/
def WrittenRule.Fits (names : List (List Char)) (as : List Additions) (ws : List (Option (List Char)))
    (r : WrittenRule) (b : Nat) : Prop :=
  b + r.pattern.length ≤ ws.length ∧
    ∀ j e w, r.pattern[j]? = some e → ws[b + j]? = some w → ExprSays names as w e

/-- The tags that the rule gives to its `k`-th word, with the number of the word in the range of the tag. -/
def WrittenRule.tagsAt (r : WrittenRule) (k : Nat) : List (List Char × Nat) :=
  (r.tags.filter fun t => t.2.1 ≤ k ∧ k < t.2.1 + t.2.2).map fun t => (t.1, k - t.2.1)

/-- `A` (pairs of position and number of the rule, in order) are the applications of rules to a sequence of
length `n`: the rules fit, no word that takes part in one application (`takes`) is in the range of a later one,
and a rule that fits somewhere is left out only if a word of its range takes part in an application further to
the left or of an earlier rule. -/
structure Applications (n : Nat) (fits : Nat × Nat → Prop) (range takes : Nat × Nat → Nat → Prop)
    (A : List (Nat × Nat)) : Prop where
  valid : ∀ a ∈ A, a.1 < n ∧ fits a
  sorted : A.Pairwise Before
  once : ∀ a ∈ A, ∀ a' ∈ A, Before a a' → ∀ i, takes a i → ¬ range a' i
  greedy : ∀ p, p.1 < n → fits p → p ∈ A ∨ ∃ a ∈ A, Before a p ∧ ∃ i, takes a i ∧ range p i

/-- Position `i` is in the range of rule `a.2` applied at `a.1`. -/
def Spans (rules : List WrittenRule) (a : Nat × Nat) (i : Nat) : Prop :=
  ∃ r, rules[a.2]? = some r ∧ a.1 ≤ i ∧ i < a.1 + r.pattern.length

/-- Position `i` takes part in the application of rule `a.2` at `a.1`: it is in its range, and has a tag if the
rule has any. -/
def TakesPart (rules : List WrittenRule) (a : Nat × Nat) (i : Nat) : Prop :=
  ∃ r, rules[a.2]? = some r ∧ a.1 ≤ i ∧ i < a.1 + r.pattern.length ∧ (r.tags ≠ [] → r.tagsAt (i - a.1) ≠ [])

/-- The applications of written rules to words. -/
def Applied (names : List (List Char)) (as : List Additions) (rules : List WrittenRule)
    (ws : List (Option (List Char))) (A : List (Nat × Nat)) : Prop :=
  Applications ws.length (fun a => ∃ r, rules[a.2]? = some r ∧ r.Fits names as ws a.1) (Spans rules)
    (TakesPart rules) A

/-- The context score of words: 1 if no rule applies, and otherwise the mean of the scores of the rules in whose
applications the words take part (1 for those that do not). -/
def WordContext (names : List (List Char)) (as : List Additions) (rules : List WrittenRule)
    (ws : List (Option (List Char))) (y : Rat) : Prop :=
  ∃ A, Applied names as rules ws A ∧
    ((A = [] ∧ y = 1) ∨ (A ≠ [] ∧ ∃ scores : List Rat, scores.length = ws.length ∧
      (∀ a ∈ A, ∀ r, rules[a.2]? = some r → ∀ i, TakesPart rules a i → scores[i]? = some r.score) ∧
      (∀ i < ws.length, (∀ a ∈ A, ¬ TakesPart rules a i) → scores[i]? = some 1) ∧
      y = scores.sum / ws.length))

/-- The tags of words: those of the application they take part in. -/
def WordTags (names : List (List Char)) (as : List Additions) (rules : List WrittenRule)
    (ws : List (Option (List Char))) (tags : List (List (List Char × Nat))) : Prop :=
  ∃ A, Applied names as rules ws A ∧ tags.length = ws.length ∧
    (∀ a ∈ A, ∀ r, rules[a.2]? = some r → ∀ i, TakesPart rules a i →
      tags[i]? = some (r.tagsAt (i - a.1))) ∧
    (∀ i < ws.length, (∀ a ∈ A, ¬ TakesPart rules a i) → tags[i]? = some [])

/-- The word chosen for a stretch; none if nothing is suggested (or the marker `<bos>`). -/
def Part.word (a : Part Suggestion) : Option (List Char) :=
  match a.choice with
  | none => none
  | some c => if c.2.word = "<bos>".toList then none else some c.2.word

/-- The names of the tags of a match, with the numbers in their sequences. -/
def TagNames (tags : List (List Char)) (m : Match) (ns : List (List Char × Nat)) : Prop :=
  List.Forall₂ (fun t n => Resolves tags t n.1) m.tag ns ∧ m.seqnr = ns.map Prod.snd

end Verif.Spec
