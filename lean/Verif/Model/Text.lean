import Verif.Model.Base

/-!
# Text

A Rust `&str` is the list of its `char`s (Unicode scalar values).  Offsets in the code are in
bytes of the UTF-8 encoding.
-/
namespace Verif.Model

/-- Length in bytes of a text (`str::len`). -/
def byteLen : List Char → Nat
  | [] => 0
  | c :: cs => c.utf8Size + byteLen cs

/-- `rest.get(..n)`: the prefix of exactly `n` bytes; `None` if `n` is beyond the end or not on a
character boundary.  (`self.get(bytepos..bytepos + n)` for a text whose part from `bytepos` on is
`rest`.) -/
def takeBytes : List Char → Nat → Option (List Char)
  | [], n => if n = 0 then some [] else none
  | c :: cs, n =>
    if n = 0 then some []
    else if c.utf8Size ≤ n then (takeBytes cs (n - c.utf8Size)).map (c :: ·)
    else none

end Verif.Model
