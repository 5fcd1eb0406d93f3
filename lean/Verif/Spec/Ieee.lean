import Verif.Model.Ieee
import Verif.Spec.Similar

/-!
# Specification: floating point numbers, and what is computed with them
-/
namespace Verif.Spec

open Verif.Model

/-- A number of the binary format with `prec` places and the least normal exponent `emin` (with subnormal
numbers, and no greatest one). -/
def IsNumber (prec : Nat) (emin : Int) (y : Rat) : Prop :=
  ∃ n e : Int, |n| < 2 ^ prec ∧ emin - (prec - 1) ≤ e ∧ y = n * 2 ^ e

/-- A number of the format whose last place is even, as it is written with that exponent. -/
def IsEvenNumber (prec : Nat) (emin : Int) (y : Rat) : Prop :=
  ∃ n e : Int, Even n ∧ |n| ≤ 2 ^ prec ∧ (2 ^ (prec - 1) ≤ |n| ∨ e = emin - (prec - 1)) ∧
    emin - (prec - 1) ≤ e ∧ y = n * 2 ^ e

/-- The results of operations are the numbers that are nearest to the exact ones; if there are two, the even one
of them. -/
structure NearestNumber (prec : Nat) (emin : Int) (x y : Rat) : Prop where
  number : IsNumber prec emin y
  nearest : ∀ z, IsNumber prec emin z → |y - x| ≤ |z - x|
  tie : ∀ z, IsNumber prec emin z → |y - x| = |z - x| → z ≠ y → IsEvenNumber prec emin y

/-- The mean that the similarity score stands for. -/
def exactScore (w : Weights) (len : Nat) (d : Distance) : Rat :=
  (w.ld * (if d.ld ≤ len then 1 - (d.ld : Rat) / len else 0) + w.lcs * (d.lcs / len) + w.pre * (d.prefixlen / len) +
      w.suf * (d.suffixlen / len) + if d.samecase then w.case else 0) /
    (w.ld + w.lcs + w.pre + w.suf + w.case)

/-- The mean that the score of a word for a text stands for. -/
def ExactScore (x : TextExt) (alphabet : Alphabet) (w : Weights) (text word : List Char) (e : Rat) : Prop :=
  ∃ qs ns d, Encodes alphabet (alphabet.length + 1) text qs ∧ Encodes alphabet (alphabet.length + 1) word ns ∧
    IsDistance x.isLower w qs text ns word d ∧ e = exactScore w qs.length d

/-- The mean, with weight `fw`, of a score and the frequency `n` relative to the greatest one, `top`. -/
def exactOverall (fw : Rat) (top : Nat) (e : Rat) (n : Nat) : Rat := (e + fw * (n / top)) / (1 + fw)

end Verif.Spec
