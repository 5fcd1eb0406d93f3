import Verif.Model.Search

/-!
# Adding context rules, and reading them from a file

The rules and the names of the tags, fields `context_rules` and `tags` of `VariantModel`.  Reading lines
from the file, and parsing floats, are foreign.
-/
namespace Verif.Model

/-- The fields `context_rules` and `tags`.  Models src/lib.rs:82-84. -/
structure RuleBook where
  rules : List ContextRule
  tags : List (List Char)

/-- What rules are parsed with: `char::is_whitespace`, the lexicons and the words.  Models the parameters
of src/search.rs:413-417. -/
structure RuleEnv where
  isSpace : Char → Bool
  lexicons : List (List Char)
  encoder : HMap (List Char) Nat

/-- The value of a decimal digit. -/
def digit? (c : Char) : Option Nat :=
  if '0' ≤ c ∧ c ≤ '9' then some (c.toNat - '0'.toNat) else none

/-- The digits of a decimal number, `none` if one of them is none or the value exceeds `max`. -/
def parseDigits (max : Nat) : Nat → List Char → Option Nat
  | v, [] => some v
  | v, c :: cs =>
    match digit? c with
    | none => none
    | some d => if v * 10 + d ≤ max then parseDigits max (v * 10 + d) cs else none

/-- `str::parse` for unsigned integers (with maximum `max`): digits, at least one, possibly after a
plus sign. -/
def parseUnsigned (max : Nat) : List Char → Option Nat
  | [] => none
  | '+' :: [] => none
  | '+' :: cs => parseDigits max 0 cs
  | cs => parseDigits max 0 cs

/-- The index of a tag, which is added if it is new; `as u16` truncates.  Models src/lib.rs:686-698. -/
def tagIndex (tags : List (List Char)) (tag : List Char) : List (List Char) × Nat :=
  match tags.findIdx? (· == tag) with
  | some i => (tags, i % 65536)
  | none => (tags ++ [tag], tags.length % 65536)

/-- The indices of the tags of a rule.  Models src/lib.rs:680-700. -/
def tagIndices : List (List Char) → List (List Char) → List (List Char) × List Nat
  | tags, [] => (tags, [])
  | tags, t :: ts =>
    let (tags, i) := tagIndex tags t
    let (tags, is) := tagIndices tags ts
    (tags, i :: is)

/-- A tag offset; the second component says that a number is not one.  The default length is a
subtraction of 8-bit numbers.  Models src/lib.rs:709-743. -/
def parseOffset (len : Nat) (s : List Char) : Res ((Nat × Nat) × Bool) :=
  let fields := splitChar ':' s
  let first : Nat × Bool :=
    match fields[0]? with
    | none => (0, false)
    | some [] => (0, false)
    | some t =>
      match parseUnsigned 255 t with
      | some v => (v, false)
      | none => (0, true)
  let rest : Res ((Nat × Nat) × Bool) :=
    if first.1 > len % 256 then .error .overflow
    else .ok ((first.1, len % 256 - first.1), first.2)
  match fields[1]? with
  | none => rest
  | some [] => rest
  | some t =>
    match parseUnsigned 255 t with
    | some v => .ok ((first.1, v), first.2)
    | none => .ok ((first.1, 0), true)

/-- All tag offsets.  Models src/lib.rs:707-748. -/
def parseOffsets (len : Nat) : List (List Char) → Res (List (Nat × Nat) × Bool)
  | [] => .ok ([], false)
  | s :: ss => do
    let (o, e) ← parseOffset len s
    let (os, e') ← parseOffsets len ss
    return (o :: os, e || e')

/-- `add_contextrule`; the second component is false for an error, which can leave new tags behind.
Models src/lib.rs:658-764. -/
def RuleBook.add (env : RuleEnv) (b : RuleBook) (pattern : List Char) (score : Rat)
    (tag tagoffset : List (List Char)) : Res (RuleBook × Bool) :=
  match ((splitChar ';' pattern).map (trim env.isSpace)).mapM
      (PatternMatch.parse env.isSpace env.lexicons env.encoder) with
  | none => .ok (b, false)
  | some pattern =>
    let (tags, is) := tagIndices b.tags tag
    let b := { b with tags }
    if tag.any (·.isEmpty) then .ok (b, false)
    else do
      let (os, e) ← parseOffsets pattern.length tagoffset
      if e then return (b, false)
      let os := os ++ List.replicate (is.length - os.length) (0, pattern.length % 256)
      if pattern.isEmpty then return (b, true)
      else return ({ b with rules := b.rules ++ [⟨pattern, score, is, os⟩] }, true)

/-- The fields of a column that lists tags or offsets.  Models src/lib.rs:603-616, 618-631. -/
def listField (isSpace : Char → Bool) : Option (List Char) → List (List Char)
  | none => []
  | some s => ((splitChar ';' s).map (trim isSpace)).filter fun w => !w.isEmpty

/-- One line of `read_contextrules`; the second component is false for an error.  Models
src/lib.rs:580-648. -/
def RuleBook.readLine (env : RuleEnv) (parseFloat : List Char → Option Rat) (b : RuleBook)
    (line : List Char) : Res (RuleBook × Bool) :=
  if line.isEmpty ∨ line.head? = some '#' then .ok (b, true)
  else
    match splitChar '\t' line with
    | pattern :: score :: rest =>
      if pattern.isEmpty then .ok (b, true)
      else
        match parseFloat score with
        | none => .ok (b, false)
        | some score =>
          let tag := listField env.isSpace rest[0]?
          let tagoffset := listField env.isSpace rest[1]?
          if tag.length = 1 ∧ tagoffset.length = 0 then b.add env pattern score tag [['0', ':']]
          else if tag.length ≠ tagoffset.length then .ok (b, false)
          else b.add env pattern score tag tagoffset
    | _ => .ok (b, false)

/-- `read_contextrules`, from the lines of the file (`none` for lines that are not text, which are
skipped); it ends at the first error.  Models src/lib.rs:570-656. -/
def RuleBook.read (env : RuleEnv) (parseFloat : List Char → Option Rat) :
    RuleBook → List (Option (List Char)) → Res (RuleBook × Bool)
  | b, [] => .ok (b, true)
  | b, none :: lines => RuleBook.read env parseFloat b lines
  | b, some line :: lines => do
    let (b, ok) ← b.readLine env parseFloat line
    if ok then RuleBook.read env parseFloat b lines else return (b, false)

end Verif.Model
