import Verif.Model.RulesFile
import Verif.Model.Learn
import Verif.Model.EFloat

/-!
# Reading alphabets, lexicons and variant lists; thresholds; the cache

Lines of a file are `none` where they cannot be read (not text); the code skips those.  Parsing of
floats is foreign (`parseF32`, `parseF64`).
-/
namespace Verif.Model

/-! ## The cache -/

/-- `Cache`; `visited` is a hash set.  Models src/cache.rs:5-9. -/
structure Cache where
  visited : List Nat
  maxSize : Nat
  deriving DecidableEq

/-- `new`.  Models src/cache.rs:12-17. -/
def Cache.new (maxSize : Nat) : Cache := ⟨[], maxSize⟩

/-- `clear`.  Models src/cache.rs:19-21. -/
def Cache.clear (c : Cache) : Cache := { c with visited := [] }

/-- `check`.  Models src/cache.rs:23-27. -/
def Cache.check (c : Cache) : Cache :=
  if c.maxSize > 0 ∧ c.visited.length > c.maxSize then { c with visited := [] } else c

/-! ## The alphabet -/

/-- One field of a line.  Models src/lib.rs:380-391. -/
def alphabetField (isSpace : Char → Bool) (x : List Char) : Option (List Char) :=
  if x = ['\\', 's'] then some [' ']
  else if x = ['\\', 't'] then some ['\t']
  else if x = ['\\', 'n'] then some ['\n']
  else if (trim isSpace x).isEmpty then none
  else some (trim isSpace x)

/-- `read_alphabet`, from the alphabet there is.  Models src/lib.rs:369-396. -/
def readAlphabet (isSpace : Char → Bool) : Alphabet → List (Option (List Char)) → Alphabet
  | alphabet, [] => alphabet
  | alphabet, none :: lines => readAlphabet isSpace alphabet lines
  | alphabet, some line :: lines =>
    readAlphabet isSpace
      (if line.isEmpty then alphabet
        else alphabet ++ [(splitChar '\t' line).filterMap (alphabetField isSpace)]) lines

/-! ## Thresholds -/

/-- `DistanceThreshold`, as parsed: a ratio can be infinite or no number.  Models
src/types.rs:75-83. -/
inductive ParsedThreshold where
  | ratio (x : EFloat)
  | ratioWithLimit (x : EFloat) (limit : Nat)
  | absolute (x : Nat)
  deriving DecidableEq

/-- `num >= 0.0 && num <= 1.0`, false for what is not a number.  Models src/types.rs:102. -/
def inUnit : EFloat → Bool
  | .fin x => decide (0 ≤ x ∧ x ≤ 1)
  | _ => false

/-- `from_str`.  Models src/types.rs:88-107. -/
def parseThreshold (parseF32 : List Char → Option EFloat) (s : List Char) : Option ParsedThreshold :=
  if ';' ∈ s then
    match splitChar ';' s with
    | [a, b] =>
      match parseF32 a, parseUnsigned 255 b with
      | some ratio, some limit => some (.ratioWithLimit ratio limit)
      | _, _ => none
    | _ => none
  else
    match parseUnsigned 255 s with
    | some num => some (.absolute num)
    | none =>
      match parseF32 s with
      | some num => if inUnit num then some (.ratio num) else none
      | none => none

/-! ## Lexicons -/

/-- The frequency of a line.  Models src/lib.rs:544-555. -/
def vocabFreq (params : VocabParams) (fields : List (List Char)) : Res Nat :=
  match params.freqColumn with
  | none => .ok 1
  | some c =>
    match parseUnsigned (2 ^ 32 - 1) (fields[c]?.getD ['1']) with
    | none => .error .expect
    | some f => .ok f

/-- One line of `read_vocabulary`.  Models src/lib.rs:539-557. -/
def Vm.readVocabLine (m : Vm) (params : VocabParams) (line : List Char) : Res Vm :=
  if line.isEmpty then .ok m
  else
    let fields := splitChar '\t' line
    match fields[params.textColumn]? with
    | none => .error .expect
    | some text => do
      let freq ← vocabFreq params fields
      let m := if params.freqColumn.isSome ∧ params.vocabType.check .INDEXED then
        { m with haveFreq := true } else m
      let (m, _) ← m.addToVocabulary text (some freq) params
      return m

/-- The lines of `read_vocabulary`.  Models src/lib.rs:537-559. -/
def Vm.readVocabLines (params : VocabParams) : Vm → List (Option (List Char)) → Res Vm
  | m, [] => .ok m
  | m, none :: lines => Vm.readVocabLines params m lines
  | m, some line :: lines => do
    let m ← m.readVocabLine params line
    Vm.readVocabLines params m lines

/-- `read_vocabulary`.  Models src/lib.rs:519-568. -/
def Vm.readVocabulary (m : Vm) (filename : List Char) (params : VocabParams)
    (lines : List (Option (List Char))) : Res Vm := do
  let m ← m.readVocabLines { params with index := m.lexicons.length % 256 } lines
  return { m with lexicons := m.lexicons ++ [filename] }

/-! ## Variant lists -/

/-- The frequency of the reference of a line, and what is known about the file: whether it has
frequencies, if that has been decided.  The subtraction panics for a single field (without overflow
checks the line panics as well, since there is no second field).  Models src/lib.rs:815-844. -/
def variantFreq (fields : List (List Char)) : Option Bool → Res (Option Bool × Option Nat)
  | none =>
    if fields.length < 2 then .error .overflow
    else if (fields.length - 2) % 3 = 0 then
      match fields[1]? with
      | none => .error .expect
      | some f =>
        match parseUnsigned (2 ^ 32 - 1) f with
        | some freq => .ok (some true, some freq)
        | none => .ok (none, none)
    else .ok (some false, none)
  | some true =>
    match fields[1]? with
    | none => .error .expect
    | some f =>
      match parseUnsigned (2 ^ 32 - 1) f with
      | some freq => .ok (some true, some freq)
      | none => .error .expect
  | some false => .ok (some false, none)

/-- The variants of a line with frequencies; what is left after the last three is ignored.  Models
src/lib.rs:849-869. -/
def Vm.addWithFreq (parseF64 : List Char → Option Rat) (params : VocabParams) (refId : Nat) :
    Vm → List (List Char) → Res Vm
  | m, variant :: score :: freq :: rest =>
    match parseF64 score with
    | none => .error .expect
    | some score =>
      match parseUnsigned (2 ^ 32 - 1) freq with
      | none => .error .expect
      | some freq => do
        let (m, _) ← m.addVariant refId variant score (some freq) params
        Vm.addWithFreq parseF64 params refId m rest
  | m, _ => .ok m

/-- The variants of a line without frequencies; a field left over is ignored.  Models
src/lib.rs:871-887. -/
def Vm.addWithoutFreq (parseF64 : List Char → Option Rat) (params : VocabParams) (refId : Nat) :
    Vm → List (List Char) → Res Vm
  | m, variant :: score :: rest =>
    match parseF64 score with
    | none => .error .expect
    | some score => do
      let (m, _) ← m.addVariant refId variant score none params
      Vm.addWithoutFreq parseF64 params refId m rest
  | m, _ => .ok m

/-- One line of `read_variants`.  Models src/lib.rs:806-889. -/
def Vm.readVariantLine (parseF64 : List Char → Option Rat) (params variantParams : VocabParams)
    (m : Vm) (hasFreq : Option Bool) (line : List Char) : Res (Vm × Option Bool) :=
  if line.isEmpty then .ok (m, hasFreq)
  else
    let fields := splitChar '\t' line
    match fields with
    | [] => .error .expect
    | reference :: _ => do
      let (hasFreq, freq) ← variantFreq fields hasFreq
      let (m, refId) ← m.addToVocabulary reference freq params
      let m ← if hasFreq = some true then m.addWithFreq parseF64 variantParams refId (fields.drop 2)
        else m.addWithoutFreq parseF64 variantParams refId (fields.drop 1)
      return (m, hasFreq)

/-- The lines of `read_variants`.  Models src/lib.rs:803-891. -/
def Vm.readVariantLines (parseF64 : List Char → Option Rat) (params variantParams : VocabParams) :
    Vm → Option Bool → List (Option (List Char)) → Res Vm
  | m, _, [] => .ok m
  | m, hasFreq, none :: lines => Vm.readVariantLines parseF64 params variantParams m hasFreq lines
  | m, hasFreq, some line :: lines => do
    let (m, hasFreq) ← m.readVariantLine parseF64 params variantParams hasFreq line
    Vm.readVariantLines parseF64 params variantParams m hasFreq lines

/-- `read_variants`.  Models src/lib.rs:772-897. -/
def Vm.readVariants (m : Vm) (parseF64 : List Char → Option Rat) (filename : List Char)
    (params : Option VocabParams) (transparent : Bool) (lines : List (Option (List Char))) : Res Vm := do
  let params := { params.getD {} with index := m.lexicons.length % 256 }
  let variantParams := if transparent then
    { params with vocabType := params.vocabType.union .TRANSPARENT } else params
  let m ← m.readVariantLines parseF64 params variantParams none lines
  return { m with lexicons := m.lexicons ++ [filename] }

end Verif.Model
