import Verif.Model.Trace

/-!
# From the text of a file to its lines

`BufRead::lines` of the standard library, as used in src/lib.rs:374-375, 419-420, 535-537, 575-577, 802-803 and
src/bin/analiticcl.rs:378-380, 428-430, 495-497, 574-576, 1009-1011.  A text is a list of characters in which
`none` stands for bytes that are not UTF-8.
-/
namespace Verif.Model

/-- The text of a file. -/
abbrev RawText := List (Option Char)

/-- `read_until(b'\n')`: what is read, with the newline, and what is left. -/
def readUntilNewline : RawText → RawText × RawText
  | [] => ([], [])
  | c :: t =>
    if c = some '\n' then ([c], t)
    else (c :: (readUntilNewline t).1, (readUntilNewline t).2)

/-- Removing the last element if it is the given character. -/
def popIf (c : Char) (t : RawText) : RawText × Bool :=
  if t.getLast? = some (some c) then (t.dropLast, true) else (t, false)

/-- Removing a newline at the end, and then a carriage return. -/
def stripEnd (t : RawText) : RawText :=
  let (u, popped) := popIf '\n' t
  if popped then (popIf '\r' u).1 else u

/-- The line, if it is UTF-8. -/
def validLine : RawText → Option (List Char)
  | [] => some []
  | none :: _ => none
  | some c :: t => (validLine t).map (c :: ·)

/-- `lines()`; at most `fuel` lines. -/
def textLinesLoop : Nat → RawText → List (Option (List Char))
  | 0, _ => []
  | fuel + 1, t =>
    if (readUntilNewline t).1.isEmpty then []
    else validLine (stripEnd (readUntilNewline t).1) :: textLinesLoop fuel (readUntilNewline t).2

/-- The lines of a text. -/
def textLines (t : RawText) : List (Option (List Char)) := textLinesLoop t.length t

/-- The tool with files and standard input given as texts. -/
def ToolExt.onTexts (x : ToolExt) (file : List Char → Option RawText) (stdin : RawText) : ToolExt :=
  { x with load := { x.load with file := fun f => (file f).map textLines }, stdin := textLines stdin }

end Verif.Model
