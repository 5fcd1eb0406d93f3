import Verif.Spec.Candidate
import Verif.Spec.BagDiff
import Verif.Spec.RunTotal
import Verif.Spec.Shown

/-!
# Specification: the words that are similar to a text
-/
namespace Verif.Spec

open Verif.Model

/-- The largest distance that a threshold allows for a text of `len` symbols: a ratio counts the symbols
(as computed in `f32`, and with an upper limit, which is 12 if none is given); a number counts up to half
of them. -/
def Allowed (r : Rounding) (len : Nat) : DistanceThreshold → Nat → Prop
  | .ratio q, n => IsGreatest {k : Nat | k = 0 ∨ k ≤ 12 ∧ (k : Rat) ≤ r.rnd (r.rnd len * q)} n
  | .ratioWithLimit q l, n => IsGreatest {k : Nat | k = 0 ∨ k ≤ l ∧ (k : Rat) ≤ r.rnd (r.rnd len * q)} n
  | .absolute l, n => IsGreatest {k : Nat | k ≤ l ∧ 2 * k ≤ len} n

/-- A sum as it is computed, from left to right. -/
def roundedSum (r : Rounding) : List Rat → Rat
  | [] => 0
  | a :: l => l.foldl (fun s b => r.rnd (s + b)) a

/-- The score for distances to a text of `len` symbols: the mean, with the given weights, of how much of
the text is not edited, of the lengths of common substring, prefix and suffix relative to that of the
text, and of whether the case is the same; as it is computed. -/
def ScoreOf (r : Rounding) (w : Weights) (len : Nat) (d : Distance) (s : Rat) : Prop :=
  ∃ kept, ((d.ld ≤ len ∧ kept = r.rnd (1 - r.rnd (d.ld / len))) ∨ (len < d.ld ∧ kept = 0)) ∧
    s = r.rnd (roundedSum r [r.rnd (w.ld * kept), r.rnd (w.lcs * r.rnd (d.lcs / len)),
        r.rnd (w.pre * r.rnd (d.prefixlen / len)), r.rnd (w.suf * r.rnd (d.suffixlen / len)),
        if d.samecase then w.case else 0] /
      roundedSum r [w.ld, w.lcs, w.pre, w.suf, w.case])

/-- The word is within reach of the text, with this score: they differ in few enough symbols, have one in
common, and are within the edit distance. -/
def Near (x : TextExt) (alphabet : Alphabet) (w : Weights) (p : Params) (text word : List Char)
    (s : Rat) : Prop :=
  ∃ a b qs ns d na ne, Encodes alphabet alphabet.length text a ∧ Encodes alphabet alphabet.length word b ∧
    Encodes alphabet (alphabet.length + 1) text qs ∧ Encodes alphabet (alphabet.length + 1) word ns ∧
    Allowed x.f32 qs.length p.maxAnagramDistance na ∧ bagDiff a b ≤ na ∧ (∃ y ∈ a, y ∈ b) ∧
    IsDistance x.isLower w qs text ns word d ∧
    Allowed x.f32 qs.length p.maxEditDistance ne ∧ d.ld ≤ ne ∧ ScoreOf x.f64 w qs.length d s

/-- The word is similar to the text, with this score: it is within reach, and the score reaches the
threshold. -/
def Similar (x : TextExt) (alphabet : Alphabet) (w : Weights) (p : Params) (text word : List Char)
    (s : Rat) : Prop :=
  Near x alphabet w p text word s ∧ p.scoreThreshold ≤ s

/-- The text is short enough for the search: with the allowed distance at most 255 symbols. -/
def ShortEnough (x : TextExt) (alphabet : Alphabet) (p : Params) (text : List Char) : Prop :=
  ∃ qs n, Encodes alphabet (alphabet.length + 1) text qs ∧
    Allowed x.f32 qs.length p.maxAnagramDistance n ∧ qs.length + n ≤ 255

/-- The frequency of a word is the greatest one given for it; 1 where none is given. -/
def WordFreq (as : List (List (List Char × Option Nat × VocabParams))) (t : List Char) (n : Nat) : Prop :=
  IsGreatest {k | ∃ a ∈ as.flatten, a.1 = t ∧ a.2.1.getD 1 = k} n

/-- A word of the lexicons that is similar to a text, with its score and its frequency. -/
structure Hit where
  word : List Char
  score : Rat
  freq : Nat

/-- Its frequency relative to the greatest one, as it is computed. -/
def Hit.relFreq (r : Rounding) (top : Nat) (u : Hit) : Rat := r.rnd (r.rnd u.freq / r.rnd top)

/-- The score that counts: with frequency ranking the mean, with weight `fw`, of the score and the relative
frequency, as it is computed. -/
def Hit.overall (r : Rounding) (fw : Rat) (top : Nat) (u : Hit) : Rat :=
  if fw = 0 then u.score
  else r.rnd (r.rnd (u.score + r.rnd (fw * u.relFreq r top)) / r.rnd (1 + fw))

/-- `u` is not worse than `v`: without frequency ranking, frequencies count between words with the same
score. -/
def Hit.NotWorse (r : Rounding) (fw : Rat) (top : Nat) (u v : Hit) : Prop :=
  if fw = 0 then v.score < u.score ∨ v.score = u.score ∧ v.relFreq r top ≤ u.relFreq r top
  else v.overall r fw top ≤ u.overall r fw top

/-- All words of the lexicons (`as`) that are similar to the text, best first; `top` is the greatest
frequency of a word within reach. -/
structure Ranked (x : TextExt) (alphabet : Alphabet)
    (as : List (List (List Char × Option Nat × VocabParams))) (w : Weights) (p : Params)
    (text : List Char) (top : Nat) (hits : List Hit) : Prop where
  nodup : (hits.map Hit.word).Nodup
  mem : ∀ u, u ∈ hits ↔
    ¬ Reserved u.word ∧ Similar x alphabet w p text u.word u.score ∧ WordFreq as u.word u.freq
  greatest : hits ≠ [] → IsGreatest {n | ∃ t s, ¬ Reserved t ∧ Near x alphabet w p text t s ∧ WordFreq as t n} top
  order : hits.Pairwise (Hit.NotWorse x.f64 p.freqWeight top)

/-- The columns for a word: the word, its score, an empty one, and with `--output-lexmatch` the names of the
lexicons (`as`, with names `names`) that have it. -/
def HitColumn (x : ToolExt) (c : CommandLine) (names : List (List Char))
    (as : List (List (List Char × Option Nat × VocabParams))) (p : Params) (top : Nat) (u : Hit)
    (col : List Char) : Prop :=
  ∃ lex, ((¬ Given c .outputLexmatch ∧ lex = []) ∨
      (Given c .outputLexmatch ∧ ∃ has : List Char × List (List Char × Option Nat × VocabParams) → Bool,
        (∀ n, has n = true ↔ ∃ a ∈ n.2, a.1 = u.word) ∧
        lex = '\t' :: '"' :: [';'].intercalate (((names.zip as).filter has).map Prod.fst) ++ ['"'])) ∧
    col = '\t' :: u.word ++ '\t' :: x.showF (u.overall x.text.f64 p.freqWeight top) ++ '\t' :: lex

/-- The columns for a text: best first, the words of the lexicons (`as`, with names `names`) that are similar
to it, as far as they are shown. -/
def SimilarColumns (x : ToolExt) (c : CommandLine) (alphabet : Alphabet) (names : List (List Char))
    (as : List (List (List Char × Option Nat × VocabParams))) (w : Weights) (p : Params)
    (text : List Char) (cols : List (List Char)) : Prop :=
  ∃ (top : Nat) (hits : List Hit),
    Ranked x.text alphabet as w p text top hits ∧
    List.Forall₂ (HitColumn x c names as p top)
      (shown x.text.f64 p.maxMatches p.cutoffThreshold (Hit.overall x.text.f64 p.freqWeight top)
        Hit.score hits)
      cols

/-- The row of a query: the text and the columns for it. -/
def SimilarRow (x : ToolExt) (c : CommandLine) (alphabet : Alphabet) (names : List (List Char))
    (as : List (List (List Char × Option Nat × VocabParams))) (w : Weights) (p : Params)
    (text row : List Char) : Prop :=
  ∃ cols, SimilarColumns x c alphabet names as w p text cols ∧ row = text ++ cols.flatten ++ ['\n']

end Verif.Spec
