/-!
# Specification: JSON texts (RFC 8259)

A number is represented by the characters it is written with.
-/
namespace Verif.Spec

/-- A JSON value. -/
inductive Json where
  | str (s : List Char)
  | num (w : List Char)
  | arr (l : List Json)
  | obj (l : List (List Char × Json))

/-- White space. -/
def Ws (w : List Char) : Prop := ∀ c ∈ w, c = ' ' ∨ c = '\n' ∨ c = '\t' ∨ c = '\r'

/-- The characters with an escape of two characters. -/
def shortEscapes : List (Char × Char) :=
  [('"', '"'), ('\\', '\\'), ('/', '/'), ('b', '\x08'), ('f', '\x0c'), ('n', '\n'), ('r', '\r'),
    ('t', '\t')]

/-- The value of a hexadecimal digit. -/
def Hex (c : Char) (v : Nat) : Prop :=
  ('0' ≤ c ∧ c ≤ '9' ∧ v = c.toNat - '0'.toNat) ∨ ('a' ≤ c ∧ c ≤ 'f' ∧ v = c.toNat - 'a'.toNat + 10) ∨
    ('A' ≤ c ∧ c ≤ 'F' ∧ v = c.toNat - 'A'.toNat + 10)

/-- Four hexadecimal digits. -/
def Hex4 (w : List Char) (v : Nat) : Prop :=
  ∃ a b c d x y z u, w = [a, b, c, d] ∧ Hex a x ∧ Hex b y ∧ Hex c z ∧ Hex d u ∧
    v = 4096 * x + 256 * y + 16 * z + u

/-- `StrText s w`: the characters `w` between quotes denote the string `s`. -/
inductive StrText : List Char → List Char → Prop
  | nil : StrText [] []
  | plain {c s w} : c ≠ '"' → c ≠ '\\' → 0x20 ≤ c.toNat → StrText s w → StrText (c :: s) (c :: w)
  | short {e c s w} : (e, c) ∈ shortEscapes → StrText s w → StrText (c :: s) ('\\' :: e :: w)
  | unicode {h n s w} : Hex4 h n → n.isValidChar → StrText s w →
      StrText (Char.ofNat n :: s) ('\\' :: 'u' :: h ++ w)
  | surrogates {h n h' n' s w} : Hex4 h n → Hex4 h' n' → 0xd800 ≤ n → n < 0xdc00 → 0xdc00 ≤ n' →
      n' < 0xe000 → StrText s w →
      StrText (Char.ofNat (0x10000 + (n - 0xd800) * 1024 + (n' - 0xdc00)) :: s)
        ('\\' :: 'u' :: h ++ '\\' :: 'u' :: h' ++ w)

/-- Digits, at least one. -/
def Digits (w : List Char) : Prop := w ≠ [] ∧ ∀ c ∈ w, '0' ≤ c ∧ c ≤ '9'

/-- A number. -/
def NumText (w : List Char) : Prop :=
  ∃ sign int frac exp : List Char, w = sign ++ int ++ frac ++ exp ∧
    (sign = [] ∨ sign = ['-']) ∧
    (Digits int ∧ (int.head? = some '0' → int = ['0'])) ∧
    (frac = [] ∨ ∃ d, Digits d ∧ frac = '.' :: d) ∧
    (exp = [] ∨ ∃ e s d, (e = 'e' ∨ e = 'E') ∧ (s = [] ∨ s = ['-'] ∨ s = ['+']) ∧ Digits d ∧
      exp = e :: s ++ d)

mutual

/-- `Value j w`: the characters `w` denote the value `j`. -/
inductive Value : Json → List Char → Prop
  | str {s w} : StrText s w → Value (.str s) ('"' :: w ++ ['"'])
  | num {w} : NumText w → Value (.num w) w
  | arrEmpty {a} : Ws a → Value (.arr []) ('[' :: a ++ [']'])
  | arr {j js t u} : Elem j t → MoreElems js u → Value (.arr (j :: js)) ('[' :: t ++ u ++ [']'])
  | objEmpty {a} : Ws a → Value (.obj []) ('{' :: a ++ ['}'])
  | obj {m ms t u} : Member m t → MoreMembers ms u → Value (.obj (m :: ms)) ('{' :: t ++ u ++ ['}'])

/-- A value between white space. -/
inductive Elem : Json → List Char → Prop
  | mk {j a w b} : Ws a → Value j w → Ws b → Elem j (a ++ w ++ b)

/-- Values after the first one. -/
inductive MoreElems : List Json → List Char → Prop
  | nil : MoreElems [] []
  | cons {j js t u} : Elem j t → MoreElems js u → MoreElems (j :: js) (',' :: t ++ u)

/-- A name and a value. -/
inductive Member : List Char × Json → List Char → Prop
  | mk {k j a w b t} : Ws a → StrText k w → Ws b → Elem j t →
      Member (k, j) (a ++ '"' :: w ++ '"' :: b ++ ':' :: t)

/-- Members after the first one. -/
inductive MoreMembers : List (List Char × Json) → List Char → Prop
  | nil : MoreMembers [] []
  | cons {m ms t u} : Member m t → MoreMembers ms u → MoreMembers (m :: ms) (',' :: t ++ u)

end

end Verif.Spec
