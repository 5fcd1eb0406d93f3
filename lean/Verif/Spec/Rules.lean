import Verif.Model.Sequence

/-!
# Specification: context rules

What a pattern means, how it is written, and where a list of rules applies.
-/
namespace Verif.Spec

open Verif.Model

/-! ## Patterns -/

mutual
/-- Meaning of a pattern at position `i` of a sequence of words, each given by its vocabulary id (0 for
an unknown word) and the set of its lexicons. -/
def Holds (sequence : List (Nat × Nat)) (i : Nat) : PatternMatch → Prop
  | .any => True
  | .noLexicon => ∃ w, sequence[i]? = some w ∧ (w.1 = 0 ∨ ∀ k, w.2.testBit k = false)
  | .vocab id => ∃ w, sequence[i]? = some w ∧ w.1 = id
  | .fromLexicon k => ∃ w, sequence[i]? = some w ∧ w.2.testBit k = true
  | .not p => ¬ Holds sequence i p
  | .disjunction ps => HoldsAny sequence i ps

/-- One of the patterns holds. -/
def HoldsAny (sequence : List (Nat × Nat)) (i : Nat) : List PatternMatch → Prop
  | [] => False
  | p :: ps => Holds sequence i p ∨ HoldsAny sequence i ps
end

mutual
/-- All lexicons mentioned have an index below 32. -/
def Small : PatternMatch → Prop
  | .fromLexicon k => k < 32
  | .not p => Small p
  | .disjunction ps => SmallAll ps
  | _ => True

def SmallAll : List PatternMatch → Prop
  | [] => True
  | p :: ps => Small p ∧ SmallAll ps
end

/-! ## Written patterns -/

/-- A part of a disjunction: `?`, `^`, a lexicon, a word, or the negation of such a part. -/
inductive Term where
  | anything
  | unknown
  | lexicon (name : List Char)
  | word (w : List Char)
  | not (t : Term)

/-- A written pattern: one part or several parts separated by `|`, or a negation with parentheses. -/
inductive Expr where
  | parts (t : Term) (ts : List Term)
  | notGroup (e : Expr)

/-- Blanks. -/
def Blank (isSpace : Char → Bool) (s : List Char) : Prop := ∀ c ∈ s, isSpace c = true

/-- A text without blanks at its ends. -/
def Trimmed (isSpace : Char → Bool) (s : List Char) : Prop :=
  (∀ c, s.head? = some c → isSpace c = false) ∧ ∀ c, s.getLast? = some c → isSpace c = false

/-- Words that can be written in a pattern. -/
def Writable (isSpace : Char → Bool) (w : List Char) : Prop :=
  w ≠ [] ∧ Trimmed isSpace w ∧ '|' ∉ w ∧ w ≠ ['?'] ∧ w ≠ ['^'] ∧ w.head? ≠ some '!' ∧
    w.head? ≠ some '@' ∧ w.head? ≠ some '('

/-- `s` is a way to write the part `t`; blanks may be added around parts and after `!`. -/
inductive WritesTerm (isSpace : Char → Bool) : Term → List Char → Prop
  | anything {a b} : Blank isSpace a → Blank isSpace b → WritesTerm isSpace .anything (a ++ ['?'] ++ b)
  | unknown {a b} : Blank isSpace a → Blank isSpace b → WritesTerm isSpace .unknown (a ++ ['^'] ++ b)
  | lexicon {a b name} : Blank isSpace a → Blank isSpace b → '|' ∉ name → name ≠ [] →
      (∀ c, name.getLast? = some c → isSpace c = false) →
      WritesTerm isSpace (.lexicon name) (a ++ '@' :: name ++ b)
  | word {a b w} : Blank isSpace a → Blank isSpace b → Writable isSpace w →
      WritesTerm isSpace (.word w) (a ++ w ++ b)
  | not {a t s} : Blank isSpace a → WritesTerm isSpace t s → WritesTerm isSpace (.not t) (a ++ '!' :: s)

/-- Ways to write several parts separated by `|`. -/
inductive WritesParts (isSpace : Char → Bool) : Term → List Term → List Char → Prop
  | one {t s} : WritesTerm isSpace t s → WritesParts isSpace t [] s
  | more {t t' ts s s'} : WritesTerm isSpace t s → WritesParts isSpace t' ts s' →
      WritesParts isSpace t (t' :: ts) (s ++ '|' :: s')

/-- Ways to write a pattern. -/
inductive Writes (isSpace : Char → Bool) : Expr → List Char → Prop
  | parts {t ts s} : WritesParts isSpace t ts s → Writes isSpace (.parts t ts) s
  | notGroup {a b e s} : Blank isSpace a → Blank isSpace b → Writes isSpace e s →
      Writes isSpace (.notGroup e) (a ++ ['!', '('] ++ s ++ [')'] ++ b)

/-- The lexicon a name stands for: the first one with that path or with that name after a `/`. -/
def IsLexicon (lexicons : List (List Char)) (name : List Char) (k : Nat) : Prop :=
  (∃ l, lexicons[k]? = some l ∧ (l = name ∨ ('/' :: name) <:+ l)) ∧
    ∀ j < k, ∀ l, lexicons[j]? = some l → l ≠ name ∧ ¬ ('/' :: name) <:+ l

/-- All names in a part are known: words of the vocabulary, and lexicons with an index below 32. -/
def Known (lexicons : List (List Char)) (encoder : HMap (List Char) Nat) : Term → Prop
  | .lexicon name => ∃ k < 32, IsLexicon lexicons name k
  | .word w => ∃ id, encoder.get? w = some id
  | .not t => Known lexicons encoder t
  | _ => True

def KnownAll (lexicons : List (List Char)) (encoder : HMap (List Char) Nat) : Expr → Prop
  | .parts t ts => ∀ u ∈ t :: ts, Known lexicons encoder u
  | .notGroup e => KnownAll lexicons encoder e

/-- Meaning of a part for a word: its id (0 if unknown) and the set of its lexicons. -/
def TermFits (lexicons : List (List Char)) (encoder : HMap (List Char) Nat) (id lexs : Nat) :
    Term → Prop
  | .anything => True
  | .unknown => id = 0 ∨ ∀ k, lexs.testBit k = false
  | .lexicon name => ∃ k, IsLexicon lexicons name k ∧ lexs.testBit k = true
  | .word w => encoder.get? w = some id
  | .not t => ¬ TermFits lexicons encoder id lexs t

/-- Meaning of a written pattern. -/
def ExprFits (lexicons : List (List Char)) (encoder : HMap (List Char) Nat) (id lexs : Nat) :
    Expr → Prop
  | .parts t ts => ∃ u ∈ t :: ts, TermFits lexicons encoder id lexs u
  | .notGroup e => ¬ ExprFits lexicons encoder id lexs e

/-! ## Rules -/

/-- A rule that cannot overflow: small lexicon indices, the tags end within 8 bits, and so does the
pattern. -/
structure RuleOk (rule : ContextRule) : Prop where
  small : ∀ p ∈ rule.pattern, Small p
  tags : ∀ y ∈ rule.tagoffset, y.1 + y.2 < 256
  len : rule.pattern.length ≤ 256

/-- The pattern of the rule holds from position `b` on. -/
def FitsAt (rule : ContextRule) (sequence : List (Nat × Nat)) (b : Nat) : Prop :=
  b + rule.pattern.length ≤ sequence.length ∧
    ∀ j p, rule.pattern[j]? = some p → Holds sequence (b + j) p

/-- What a rule assigns to the `k`-th word of its pattern: its score, without a tag if it has none, and
otherwise once for each tag whose range contains the word, with the number of the word in that range. -/
def assigned (rule : ContextRule) (k : Nat) : List PatternMatchResult :=
  if rule.tag = [] then [⟨rule.score, none, k⟩]
  else ((rule.tag.zip rule.tagoffset).filter fun y => y.2.1 ≤ k ∧ k < y.2.1 + y.2.2).map
    fun y => ⟨rule.score, some y.1, k - y.2.1⟩

/-- Position `i` is in the range of the rule applied at `b`. -/
def Covers (a : Nat × ContextRule) (i : Nat) : Prop := a.1 ≤ i ∧ i < a.1 + a.2.pattern.length

/-- The rule leaves no word of its pattern without a result. -/
def Full (rule : ContextRule) : Prop := ∀ k < rule.pattern.length, assigned rule k ≠ []

/-- The rule fits and no position in its range has a result. -/
def Applies (rule : ContextRule) (sequence : List (Nat × Nat)) (b : Nat)
    (results : List (List PatternMatchResult)) : Prop :=
  FitsAt rule sequence b ∧ ∀ i, Covers (b, rule) i → results[i]? = some []

/-- The application of rule `a.2` at position `a.1` has `i` in its range. -/
def InRange (rules : List ContextRule) (a : Nat × Nat) (i : Nat) : Prop :=
  ∃ rule, rules[a.2]? = some rule ∧ Covers (a.1, rule) i

/-- Further to the left, or at the same position with an earlier rule. -/
def Before (a b : Nat × Nat) : Prop := a.1 < b.1 ∨ (a.1 = b.1 ∧ a.2 < b.2)

/-- The application of rule `a.2` at position `a.1` has `i` in its range and gives it a result. -/
def Marked (rules : List ContextRule) (a : Nat × Nat) (i : Nat) : Prop :=
  ∃ rule, rules[a.2]? = some rule ∧ Covers (a.1, rule) i ∧ assigned rule (i - a.1) ≠ []

/-- `A` (pairs of position and rule, in order) are the applications of the rules to the sequence: they
fit, no word that takes part in one of them (`takes`) is in the range of a later one, and a rule that
fits somewhere is left out only if a word of its range takes part in an application further to the left
or of an earlier rule. -/
structure Greedy (takes : Nat × Nat → Nat → Prop) (rules : List ContextRule)
    (sequence : List (Nat × Nat)) (A : List (Nat × Nat)) : Prop where
  fits : ∀ a ∈ A, a.1 < sequence.length ∧
    ∃ rule, rules[a.2]? = some rule ∧ FitsAt rule sequence a.1
  sorted : A.Pairwise Before
  once : ∀ a ∈ A, ∀ a' ∈ A, Before a a' → ∀ i, takes a i → ¬ InRange rules a' i
  greedy : ∀ p rule, p.1 < sequence.length → rules[p.2]? = some rule → FitsAt rule sequence p.1 →
    p ∈ A ∨ ∃ a ∈ A, Before a p ∧ ∃ i, takes a i ∧ InRange rules p i

/-- The characters with a meaning in patterns are not blanks. -/
def MarksOk (isSpace : Char → Bool) : Prop :=
  ∀ c ∈ ['?', '^', '@', '!', '(', ')', '|'], isSpace c = false

end Verif.Spec
