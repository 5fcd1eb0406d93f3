import Verif.Spec.Choice
import Verif.Spec.Division
import Verif.Spec.Lm
import Mathlib.Order.Bounds.Basic

/-!
# Specification: the best of the cheapest readings of a batch
-/
namespace Verif.Spec

open Verif.Model

/-- What is required of the solver here: its paths are paths of the transducer, all different if the
transitions are, at most `n`; and a path is left out only if there are `n` that are no more expensive.  Where
paths have one transition, the first is a cheapest. -/
def SolverBest (solve : Fst → Nat → List FstPath) : Prop :=
  ∀ f n, ∃ tss : List (List Tr),
    solve f n = tss.map (fun ts => { weight := (ts.map Tr.cost).sum, olabels := outputs ts }) ∧
    (∀ ts ∈ tss, Accepting f ts) ∧ (f.trs.Nodup → tss.Nodup) ∧ tss.length ≤ n ∧
    (f.states = 2 → ∀ ts ∈ tss.head?, ∀ ts' ∈ tss, (ts.map Tr.cost).sum ≤ (ts'.map Tr.cost).sum) ∧
    (Forward f → ∀ ts, Accepting f ts → ts ∉ tss →
      tss.length = n ∧ ∀ ts' ∈ tss, (ts'.map Tr.cost).sum ≤ (ts.map Tr.cost).sum)

/-- A stretch of a reading: where it begins, its text, which of its variants is chosen, and the separator
after it. -/
structure Part (V : Type) where
  offset : Nat
  text : List Char
  choice : Option (Nat × V)
  sep : List Char

/-- `Reading found dist score n o g l c`: the words and separators `g`, which start at byte `o`, can be read as
the stretches `l` of up to `n` words at cost `c`.  A variant costs the number of words plus what its score
lacks to 1, a word without variants costs 2, and a word that is left out 100. -/
inductive Reading {V : Type} (found : List Char → List V → Prop) (dist score : V → Rat) (n : Nat) :
    Nat → List Seg → List (Part V) → Rat → Prop
  | done {o} : Reading found dist score n o [] [] 0
  | skip {o w s g l c} : Reading found dist score n (o + byteLen (w ++ s)) g l c →
      Reading found dist score n o ((w, s) :: g) l (100 + c)
  | variant {o r w s g l c vs i v} : r.length + 1 ≤ n → stretch (r ++ [(w, s)]) ≠ [] →
      LookedUp found dist (r ++ [(w, s)]) → found (stretch (r ++ [(w, s)])) vs → vs[i]? = some v →
      Reading found dist score n (o + byteLen (flat (r ++ [(w, s)]))) g l c →
      Reading found dist score n o (r ++ [(w, s)] ++ g)
        (⟨o, stretch (r ++ [(w, s)]), some (i, v), s⟩ :: l) ((r.length + 1 : Nat) + (1 - score v) + c)
  | unknown {o w s g l c} : w ≠ [] → found w [] → Reading found dist score n (o + byteLen (w ++ s)) g l c →
      Reading found dist score n o ((w, s) :: g) (⟨o, w, none, s⟩ :: l) (2 + c)

/-! ## The choice -/

/-- How readings are compared: what is found for a stretch, with scores, the longest stretch, whether there is
a language model, perplexity and context score of a reading, and weights and logarithm for the mean. -/
structure Scoring (V : Type) where
  found : List Char → List V → Prop
  dist : V → Rat
  score : V → Rat
  width : Nat
  lm : Bool
  perplexity : List (Part V) → Rat → Prop
  context : List (Part V) → Rat → Prop
  mix : Mix
  ln : Rat → Rat

/-- Perplexity (1 if it does not count), cost and context score of a reading. -/
structure HasMerit {V : Type} (S : Scoring V) (o : Nat) (g : List Seg) (l : List (Part V)) (a : Merit) :
    Prop where
  perplexity : if S.lm = true then S.perplexity l a.perplexity else a.perplexity = 1
  cost : Reading S.found S.dist S.score S.width o g l a.cost
  context : S.context l a.context

/-- `rs` are the `n` cheapest readings (all, if there are fewer), with their merits. -/
structure CheapReadings {V : Type} (S : Scoring V) (o : Nat) (g : List Seg) (n : Nat)
    (rs : List (List (Part V) × Merit)) : Prop where
  merits : ∀ r ∈ rs, HasMerit S o g r.1 r.2
  distinct : (rs.map Prod.fst).Nodup
  atMost : rs.length ≤ n
  others : ∀ l c, Reading S.found S.dist S.score S.width o g l c → l ∉ rs.map Prod.fst →
    rs.length = n ∧ ∀ r ∈ rs, r.2.cost ≤ c

/-- The values that those of readings of `k` words are compared to: the least perplexity (at most 999999), the
least cost (at most 2 for each word but one) and the greatest context score. -/
structure BestMerit {V : Type} (S : Scoring V) (k : Nat) (rs : List (List (Part V) × Merit)) (best : Merit) :
    Prop where
  perplexity : if S.lm = true then
    IsLeast {y | y = 999999 ∨ ∃ r ∈ rs, y = r.2.perplexity} best.perplexity else best.perplexity = 1
  cost : IsLeast {y | y = ((k - 1 : Nat) : Rat) * 2 ∨ ∃ r ∈ rs, y = r.2.cost} best.cost
  context : IsGreatest {y | ∃ r ∈ rs, y = r.2.context} best.context

/-- The logarithm of `best / a`, as a floating point number. -/
def lnRatio (ln : Rat → Rat) (best a : Rat) : EFloat :=
  if a = 0 then (if best = 0 then .nan else .posInf)
  else if 0 < best / a then .fin (ln (best / a)) else if best = 0 then .negInf else .nan

/-- The weighted mean of the logarithms of how the reading compares to the best values; infinite or not a number
if the logarithm for the perplexity is. -/
def overallMerit {V : Type} (S : Scoring V) (best a : Merit) : EFloat :=
  match lnRatio S.ln best.perplexity a.perplexity with
  | .fin y => .fin ((S.mix.lm * y + S.mix.variant * S.ln (best.cost / a.cost) +
      S.mix.context * S.ln (a.context / best.context)) / (S.mix.lm + S.mix.variant + S.mix.context))
  | y => y

/-- The reading `l` of a batch is chosen: it is one of the `n` cheapest, and none of these has a higher overall
score (unless its score is not a number); for a batch of one word it is a cheapest. -/
def ChosenReading {V : Type} (S : Scoring V) (n o : Nat) (g : List Seg) (l : List (Part V)) : Prop :=
  ∃ rs a, CheapReadings S o g n rs ∧ (l, a) ∈ rs ∧ (g.length = 1 → ∀ r ∈ rs, a.cost ≤ r.2.cost) ∧
    (g.length ≠ 1 → ∃ best, BestMerit S g.length rs best ∧ (overallMerit S best a ≠ .nan →
      ∀ r ∈ rs, (overallMerit S best r.2).gt (overallMerit S best a) = false))

/-! ## Language model -/

/-- The tokens of a stretch: an unknown one if there is no variant, or those of the chosen entry; and those of
the separator. -/
def PartTokens (vm : Vm) (isSpace : Char → Bool) (a : Part VariantResult) (l : List (Option Nat)) : Prop :=
  ∃ l1 l2, l = l1 ++ l2 ∧ BoundaryTokens vm isSpace a.sep l2 ∧
    (((∀ v ∈ a.choice, v.2.vocabId = 0) ∧ l1 = [none]) ∨
      ∃ v ∈ a.choice, v.2.vocabId ≠ 0 ∧ ItemTokens vm v.2.vocabId l1)

/-- The perplexity: minus the mean score of the transitions between the tokens, with a marker (0) before the
first and one (1) after the last. -/
def Perplexity (vm : Vm) (x : TextExt) (l : List (Part VariantResult)) (y : Rat) : Prop :=
  ∃ ls tokens, ∃ ts : List Rat, List.Forall₂ (PartTokens vm x.isSpace) l ls ∧
    tokens = some 0 :: ls.flatten ++ [some 1] ∧
    List.zipWith (transition (fun l => (NGram.fromList l).bind vm.ngrams.get?) x) tokens tokens.tail =
      ts.map .fin ∧
    y = -(ts.sum / ts.length)

/-! ## Context rules -/

/-- The chosen entry, with its lexicons; 0 if there is none. -/
def Part.entry (vm : Vm) (a : Part VariantResult) : Nat × Nat :=
  match a.choice with
  | none => (0, 0)
  | some (_, v) =>
    (v.vocabId, if v.vocabId = 0 then 0 else (vm.decoder[v.vocabId]?.map VocabValue.lexindex).getD 0)

/-- The context score: 1 if no rule applies; otherwise the mean of the scores of the rules in whose
applications the stretches take part (1 for those that do not). -/
def ContextScore (vm : Vm) (rules : List ContextRule) (l : List (Part VariantResult)) (y : Rat) : Prop :=
  ∃ A, Greedy (Marked rules) rules (l.map (Part.entry vm)) A ∧
    ((A = [] ∧ y = 1) ∨ (A ≠ [] ∧ ∃ scores : List Rat, scores.length = l.length ∧
      (∀ a ∈ A, ∀ rule, rules[a.2]? = some rule → ∀ i, Marked rules a i → scores[i]? = some rule.score) ∧
      (∀ i < l.length, (∀ a ∈ A, ¬ Marked rules a i) → scores[i]? = some 1) ∧
      y = scores.sum / l.length))

/-! ## Search in text -/

/-- The weights: only the cost counts if there is neither a language model nor rules. -/
def mixOf (vm : Vm) (cfg : TextConfig) (p : TextParams) : Mix :=
  if (vm.haveLm = false ∨ p.lmWeight = 0) ∧ (cfg.contextRules = [] ∨ p.contextrulesWeight = 0) then
    ⟨0, 1, 0⟩
  else ⟨p.lmWeight, p.variantmodelWeight, p.contextrulesWeight⟩

/-- The variants of a text. -/
abbrev VariantsOf (vm : Vm) (x : TextExt) (cfg : TextConfig) (p : TextParams) (t : List Char)
    (vs : List VariantResult) : Prop :=
  vm.findVariants x.toExt cfg.toConfig p.variant t = .ok vs

/-- How a search in text compares readings. -/
def scoringOf (vm : Vm) (x : TextExt) (cfg : TextConfig) (p : TextParams) : Scoring VariantResult :=
  { found := VariantsOf vm x cfg p
    dist := VariantResult.distScore
    score := VariantResult.score x.f64 p.variant.freqWeight
    width := p.maxNgram
    lm := vm.haveLm && decide (0 < p.lmWeight)
    perplexity := Perplexity vm x
    context := ContextScore vm cfg.contextRules
    mix := mixOf vm cfg p
    ln := x.ln64 }

/-- The match shows the stretch, with all variants of its text. -/
def ShowsPart (vm : Vm) (x : TextExt) (cfg : TextConfig) (p : TextParams) (a : Part VariantResult) (m : Match) : Prop :=
  m.text = a.text ∧ m.first = a.offset ∧ m.last = a.offset + byteLen a.text ∧
    m.selected = a.choice.map Prod.fst ∧ ∃ vs, m.variants = some vs ∧ VariantsOf vm x cfg p a.text vs ∧
      ∀ c ∈ a.choice, vs[c.1]? = some c.2

end Verif.Spec
