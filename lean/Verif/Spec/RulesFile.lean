import Verif.Model.RulesFile
import Verif.Spec.Rules
import Mathlib.Data.Nat.Digits.Defs

/-!
# Specification: adding context rules
-/
namespace Verif.Spec

open Verif.Model

/-- A request to add a rule. -/
structure RuleCall where
  pattern : List Char
  score : Rat
  tag : List (List Char)
  tagoffset : List (List Char)

/-- All requests, one after another; the flags say which were accepted. -/
def addAll (env : RuleEnv) : RuleBook → List RuleCall → Res (RuleBook × List Bool)
  | b, [] => .ok (b, [])
  | b, c :: cs => do
    let (b, ok) ← b.add env c.pattern c.score c.tag c.tagoffset
    let (b, oks) ← addAll env b cs
    return (b, ok :: oks)

/-- The accepted requests. -/
def accepted (calls : List RuleCall) (flags : List Bool) : List RuleCall :=
  ((calls.zip flags).filter fun y => y.2).map fun y => y.1

/-- Requests up to the first that is not accepted. -/
def addUntilError (env : RuleEnv) : RuleBook → List RuleCall → Res (RuleBook × Bool)
  | b, [] => .ok (b, true)
  | b, c :: cs => do
    let (b, ok) ← b.add env c.pattern c.score c.tag c.tagoffset
    if ok then addUntilError env b cs else return (b, false)

/-- The index stands for the name. -/
def Resolves (tags : List (List Char)) (i : Nat) (name : List Char) : Prop := tags[i]? = some name

/-- `s` are the decimal digits of a number below 256. -/
def Decimal (s : List Char) (v : Nat) : Prop :=
  ∃ ds : List Nat, ds ≠ [] ∧ (∀ d ∈ ds, d < 10) ∧ s = ds.map Nat.digitChar ∧
    v = Nat.ofDigits 10 ds.reverse ∧ v < 256

/-- `s` denotes the offset and the length of a tag of a rule with `n` words: `offset:length`, where both
numbers may be left out. -/
inductive OffsetText (n : Nat) : List Char → Nat × Nat → Prop
  | both {s t b l} : Decimal s b → Decimal t l → OffsetText n (s ++ ':' :: t) (b, l)
  | begin {s b} : Decimal s b → b ≤ n → OffsetText n (s ++ [':']) (b, n - b)
  | beginOnly {s b} : Decimal s b → b ≤ n → OffsetText n s (b, n - b)
  | length {t l} : Decimal t l → OffsetText n (':' :: t) (0, l)
  | neither : OffsetText n [':'] (0, n)

/-- The pattern has the meaning of the expression. -/
def Means (env : RuleEnv) (p : PatternMatch) (e : Expr) : Prop :=
  Small p ∧ ∀ sequence i w, sequence[i]? = some w →
    (Holds sequence i p ↔ ExprFits env.lexicons env.encoder w.1 w.2 e)

/-- A list separated by `;`, where blanks do not count. -/
inductive ListText (isSpace : Char → Bool) : List Char → List (List Char) → Prop
  | blank {a} : Blank isSpace a → ';' ∉ a → ListText isSpace a []
  | name {a n b} : Blank isSpace a → Blank isSpace b → Trimmed isSpace n → n ≠ [] →
      ';' ∉ a ++ n ++ b → ListText isSpace (a ++ n ++ b) [n]
  | blankMore {a s ns} : Blank isSpace a → ';' ∉ a → ListText isSpace s ns →
      ListText isSpace (a ++ ';' :: s) ns
  | nameMore {a n b s ns} : Blank isSpace a → Blank isSpace b → Trimmed isSpace n → n ≠ [] →
      ';' ∉ a ++ n ++ b → ListText isSpace s ns → ListText isSpace (a ++ n ++ b ++ ';' :: s) (n :: ns)

/-- The columns for tags and offsets: none, tags, or both (further columns do not count). -/
inductive Columns (isSpace : Char → Bool) :
    List (List Char) → List (List Char) → List (List Char) → Prop
  | none : Columns isSpace [] [] []
  | tags {t tag} : ListText isSpace t tag → Columns isSpace [t] tag []
  | both {t o tag off rest} : ListText isSpace t tag → ListText isSpace o off →
      Columns isSpace (t :: o :: rest) tag off

/-- The request a line stands for; none for empty lines and comments. -/
inductive LineFor (isSpace : Char → Bool) (parseFloat : List Char → Option Rat) :
    List Char → Option RuleCall → Prop
  | empty : LineFor isSpace parseFloat [] none
  | comment {s} : LineFor isSpace parseFloat ('#' :: s) none
  | rule {pattern score v cols tag off} : pattern ≠ [] → '\t' ∉ pattern → pattern.head? ≠ some '#' →
      '\t' ∉ score → parseFloat score = some v → (∀ c ∈ cols, '\t' ∉ c) → Columns isSpace cols tag off →
      tag.length = off.length →
      LineFor isSpace parseFloat (['\t'].intercalate (pattern :: score :: cols))
        (some ⟨pattern, v, tag, off⟩)
  | oneTag {pattern score v cols name} : pattern ≠ [] → '\t' ∉ pattern → pattern.head? ≠ some '#' →
      '\t' ∉ score → parseFloat score = some v → (∀ c ∈ cols, '\t' ∉ c) →
      Columns isSpace cols [name] [] →
      LineFor isSpace parseFloat (['\t'].intercalate (pattern :: score :: cols))
        (some ⟨pattern, v, [name], [['0', ':']]⟩)

end Verif.Spec
