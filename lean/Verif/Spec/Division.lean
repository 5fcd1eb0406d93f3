import Verif.Spec.Tokens

/-!
# Specification: dividing a text into stretches of words at least cost
-/
namespace Verif.Spec

open Verif.Model

/-- Whether variants are looked up for consecutive words: for one word always, for more unless the first
variant of each word has a perfect distance score (`found` are the variants of a text). -/
def LookedUp {α : Type} (found : List Char → List α → Prop) (dist : α → Rat) (r : List Seg) : Prop :=
  r.length = 1 ∨ ∃ p ∈ r, p.1 ≠ [] ∧ ∃ vs, found p.1 vs ∧ ∀ v ∈ vs.head?, dist v < 1

/-- `Division found dist score n o g l c`: the words and separators `g`, which start at byte `o`, can be
divided into the stretches `l` of up to `n` words (offset, text, and which of its variants was chosen) at
cost `c`.  A variant costs the number of words plus what its score lacks to 1, a word without variants
costs 2, and a word that is left out 100. -/
inductive Division {α : Type} (found : List Char → List α → Prop) (dist score : α → Rat) (n : Nat) :
    Nat → List Seg → List (Nat × List Char × Option Nat) → Rat → Prop
  | done {o} : Division found dist score n o [] [] 0
  | skip {o w s g l c} : Division found dist score n (o + byteLen (w ++ s)) g l c →
      Division found dist score n o ((w, s) :: g) l (100 + c)
  | variant {o r g l c vs i v} : r.length ≤ n → stretch r ≠ [] → LookedUp found dist r →
      found (stretch r) vs → vs[i]? = some v → Division found dist score n (o + byteLen (flat r)) g l c →
      Division found dist score n o (r ++ g) ((o, stretch r, some i) :: l) (r.length + (1 - score v) + c)
  | unknown {o w s g l c} : w ≠ [] → found w [] → Division found dist score n (o + byteLen (w ++ s)) g l c →
      Division found dist score n o ((w, s) :: g) ((o, w, none) :: l) (2 + c)

/-- A division that is as cheap as any other, as far as can be told if costs are off by a fraction `e` (and
by `e` per word). -/
def Cheapest {α : Type} (e : Rat) (found : List Char → List α → Prop) (dist score : α → Rat) (n : Nat) (o : Nat)
    (g : List Seg) (l : List (Nat × List Char × Option Nat)) : Prop :=
  ∃ c, Division found dist score n o g l c ∧
    ∀ l' c', Division found dist score n o g l' c' → c ≤ c' + e * (c + c' + g.length)

/-- A division that is cheaper than all others by more than that. -/
def ClearlyCheapest {α : Type} (e : Rat) (found : List Char → List α → Prop) (dist score : α → Rat) (n : Nat)
    (o : Nat) (g : List Seg) (l : List (Nat × List Char × Option Nat)) : Prop :=
  ∃ c, Division found dist score n o g l c ∧
    ∀ l' c', Division found dist score n o g l' c' → l' ≠ l → c + e * (c + c' + g.length) < c'

/-- The batches with the offsets at which they begin. -/
def placed : Nat → List (List Seg) → List (Nat × List Seg)
  | _, [] => []
  | o, g :: gs => (o, g) :: placed (o + byteLen (flat g)) gs

end Verif.Spec
