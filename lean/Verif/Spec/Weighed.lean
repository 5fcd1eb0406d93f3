import Verif.Spec.Reading
import Verif.Spec.Route

/-!
# Specification: readings of a batch, compared in floating point
-/
namespace Verif.Spec

open Verif.Model

/-- Numbers added one by one, rounded each time. -/
def summed (r : Rounding) (l : List Rat) : Rat := l.foldl (fun s y => r.rnd (s + y)) 0

/-- What is required of the solver here: its paths are paths of the transducer, all different if the
transitions are, and at most `n`; and a path is left out only if there are `n` whose sums are no greater, but for
the tolerance `τ`.  Where all paths have one transition, the first is a cheapest. -/
def SolverLeast (r : Rounding) (τ : Rat) (solve : Fst → Nat → List FstPath) : Prop :=
  ∀ f n, ∃ tss : List (List Tr),
    solve f n = tss.map (fun ts => { weight := added r (ts.map Tr.cost), olabels := outputs ts }) ∧
    (∀ ts ∈ tss, Accepting f ts) ∧ (f.trs.Nodup → tss.Nodup) ∧ tss.length ≤ n ∧
    (f.states = 2 → ∀ ts ∈ tss.head?, ∀ ts' ∈ tss, added r (ts.map Tr.cost) ≤ added r (ts'.map Tr.cost)) ∧
    (Forward f → ∀ ts, Accepting f ts → ts ∉ tss →
      tss.length = n ∧ ∀ ts' ∈ tss, added r (ts'.map Tr.cost) ≤ added r (ts.map Tr.cost) + τ)

/-- `Priced r found dist score n o g l cs`: the words and separators `g`, which start at byte `o`, can be read as
the stretches `l` of up to `n` words, and `cs` are the costs of these and of the words that are left out, as
they are computed. -/
inductive Priced {V : Type} (r : Rounding) (found : List Char → List V → Prop) (dist score : V → Rat) (n : Nat) :
    Nat → List Seg → List (Part V) → List Rat → Prop
  | done {o} : Priced r found dist score n o [] [] []
  | skip {o w s g l cs} : Priced r found dist score n (o + byteLen (w ++ s)) g l cs →
      Priced r found dist score n o ((w, s) :: g) l (100 :: cs)
  | variant {o ws w s g l cs vs i v} : ws.length + 1 ≤ n → stretch (ws ++ [(w, s)]) ≠ [] →
      LookedUp found dist (ws ++ [(w, s)]) → found (stretch (ws ++ [(w, s)])) vs → vs[i]? = some v →
      Priced r found dist score n (o + byteLen (flat (ws ++ [(w, s)]))) g l cs →
      Priced r found dist score n o (ws ++ [(w, s)] ++ g)
        (⟨o, stretch (ws ++ [(w, s)]), some (i, v), s⟩ :: l)
        (r.rnd (r.rnd (ws.length + 1 : Nat) + r.rnd (1 - r.rnd (score v))) :: cs)
  | unknown {o w s g l cs} : w ≠ [] → found w [] → Priced r found dist score n (o + byteLen (w ++ s)) g l cs →
      Priced r found dist score n o ((w, s) :: g) (⟨o, w, none, s⟩ :: l) (r.rnd (r.rnd (1 : Nat) + 1) :: cs)

/-- What is computed for a reading. -/
structure Figures where
  perplexity : EFloat
  cost : Rat
  context : Rat

/-- How readings are compared: what is found for a stretch, with scores, the longest stretch, whether there is
a language model, perplexity and context score of a reading, and the overall score, given the best figures;
costs can be off by `τ`. -/
structure Weighing (V : Type) where
  r : Rounding
  τ : Rat
  found : List Char → List V → Prop
  dist : V → Rat
  score : V → Rat
  width : Nat
  lm : Bool
  perplexity : List (Part V) → EFloat → Prop
  context : List (Part V) → Rat → Prop
  overall : Figures → Figures → EFloat

/-- The figures of a reading; the perplexity is 0 if it does not count. -/
structure HasFigures {V : Type} (S : Weighing V) (o : Nat) (g : List Seg) (l : List (Part V)) (a : Figures) :
    Prop where
  perplexity : if S.lm = true then S.perplexity l a.perplexity else a.perplexity = .fin 0
  cost : ∃ cs, Priced S.r S.found S.dist S.score S.width o g l cs ∧ a.cost = added S.r cs
  context : S.context l a.context

/-- `rs` are the `n` readings with the least sums of costs (all, if there are fewer), with their figures. -/
structure LeastReadings {V : Type} (S : Weighing V) (o : Nat) (g : List Seg) (n : Nat)
    (rs : List (List (Part V) × Figures)) : Prop where
  figures : ∀ r ∈ rs, HasFigures S o g r.1 r.2
  distinct : (rs.map Prod.fst).Nodup
  atMost : rs.length ≤ n
  others : ∀ l cs, Priced S.r S.found S.dist S.score S.width o g l cs → l ∉ rs.map Prod.fst →
    rs.length = n ∧ ∀ r ∈ rs, r.2.cost ≤ added S.r cs + S.τ

/-- The figures that those of readings of `k` words are compared to: the least perplexity (at most 999999; of
those that are numbers), the least cost (at most 2 for each word but one) and the greatest context score. -/
structure BestFigures {V : Type} (S : Weighing V) (k : Nat) (rs : List (List (Part V) × Figures)) (best : Figures) :
    Prop where
  perplexity : (best.perplexity = .fin 999999 ∨ ∃ r ∈ rs, best.perplexity = r.2.perplexity) ∧
    best.perplexity ≠ .nan ∧ best.perplexity.gt (.fin 999999) = false ∧
    ∀ r ∈ rs, r.2.perplexity ≠ .nan → best.perplexity.gt r.2.perplexity = false
  cost : IsLeast {y | y = S.r.rnd (S.r.rnd (k - 1 : Nat) * 2) ∨ ∃ r ∈ rs, y = r.2.cost} best.cost
  context : IsGreatest {y | y = 0 ∨ ∃ r ∈ rs, y = r.2.context} best.context

/-- Both are numbers or infinite, and the first is not greater. -/
def AtMost (a b : EFloat) : Prop := a ≠ .nan ∧ b ≠ .nan ∧ a.gt b = false

/-- No figure is worse. -/
structure AsGood (a b : Figures) : Prop where
  perplexity : AtMost a.perplexity b.perplexity
  cost : a.cost ≤ b.cost
  context : b.context ≤ a.context

/-- No perplexity is below 0, and no context score. -/
def NoneNegative {V : Type} (rs : List (List (Part V) × Figures)) : Prop :=
  ∀ r ∈ rs, (EFloat.fin 0).gt r.2.perplexity = false ∧ 0 ≤ r.2.context

/-- The reading `l` of a batch is not beaten.  It is one of the `n` cheapest.  None of these has a higher overall
score (comparisons with what is not a number are false).  Suppose that no perplexity and no context score is negative.
If one is as good in all respects, the overall scores are then the same or there is none, and it comes after `l`.  For
a batch of one word `l` is a cheapest. -/
def Unbeaten {V : Type} (S : Weighing V) (n o : Nat) (g : List Seg) (l : List (Part V)) : Prop :=
  ∃ l1 a l2 best, LeastReadings S o g n (l1 ++ (l, a) :: l2) ∧
    BestFigures S g.length (l1 ++ (l, a) :: l2) best ∧
    (∀ r ∈ l1 ++ l2, (S.overall best r.2).gt (S.overall best a) = false) ∧
    (NoneNegative (l1 ++ (l, a) :: l2) → ∀ r ∈ l1, ¬ AsGood r.2 a) ∧
    (NoneNegative (l1 ++ (l, a) :: l2) → ∀ r ∈ l2, AsGood r.2 a →
      S.overall best r.2 = S.overall best a ∨ S.overall best a = .nan ∨
      S.overall best r.2 = .nan ∧ S.overall best a = .negInf) ∧
    (g.length = 1 → ∀ r ∈ l1 ++ l2, a.cost ≤ r.2.cost)

/-! ## Language model -/

/-- Minus the mean, as it is computed. -/
def minusMean (x : TextExt) (ts : List EFloat) : EFloat :=
  (ts.foldl (fun (s : EFloat) t => s.add x.f32 t) (.fin 0)).scale x.f64 (x.f64.rnd (-1 / (ts.length : Rat)))

/-- The perplexity as it is computed: minus the mean score of the transitions between the tokens, with a marker
(0) before the first and one (1) after the last. -/
def ComputedPerplexity (vm : Vm) (x : TextExt) (l : List (Part VariantResult)) (y : EFloat) : Prop :=
  ∃ ls tokens, List.Forall₂ (PartTokens vm x.isSpace) l ls ∧
    tokens = some 0 :: ls.flatten ++ [some 1] ∧
    y = minusMean x (List.zipWith (transition (fun l => (NGram.fromList l).bind vm.ngrams.get?) x) tokens tokens.tail)

/-! ## Context rules -/

/-- The context score as it is computed: 1 if no rule applies; otherwise the mean of the scores of the rules in
whose applications the stretches take part (1 for those that do not). -/
def ComputedContext (vm : Vm) (x : TextExt) (rules : List ContextRule) (l : List (Part VariantResult)) (y : Rat) :
    Prop :=
  ∃ A, Greedy (Marked rules) rules (l.map (Part.entry vm)) A ∧
    ((A = [] ∧ y = 1) ∨ (A ≠ [] ∧ ∃ scores : List Rat, scores.length = l.length ∧
      (∀ a ∈ A, ∀ rule, rules[a.2]? = some rule → ∀ i, Marked rules a i → scores[i]? = some rule.score) ∧
      (∀ i < l.length, (∀ a ∈ A, ¬ Marked rules a i) → scores[i]? = some 1) ∧
      y = x.f64.rnd (summed x.f32 scores / l.length)))

/-! ## Search in text -/

/-- The overall score as it is computed: the logarithm of how the cost compares to the best; or, if there is a
language model or there are rules, and they count, the weighted mean of this and the logarithms of how perplexity
and context score compare to the best. -/
def computedOverall (vm : Vm) (x : TextExt) (cfg : TextConfig) (p : TextParams) (best a : Figures) : EFloat :=
  let ln := EFloat.log x.ln64
  let cost := ln (.div x.f64 false (.fin best.cost) (.fin a.cost))
  let context := ln (.div x.f64 false (.fin a.context) (.fin best.context))
  let perplexity := if vm.haveLm = true ∧ 0 < p.lmWeight then ln (.div x.f64 true best.perplexity a.perplexity) else .fin 0
  if (vm.haveLm = true ∧ p.lmWeight ≠ 0) ∨ (cfg.contextRules ≠ [] ∧ p.contextrulesWeight ≠ 0) then
    .div x.f64 false
      (((perplexity.scale x.f64 p.lmWeight).add x.f64 (cost.scale x.f64 p.variantmodelWeight)).add x.f64
        (context.scale x.f64 p.contextrulesWeight))
      (.fin (x.f64.rnd (x.f64.rnd (p.lmWeight + p.variantmodelWeight) + p.contextrulesWeight)))
  else cost

/-- How a search in text compares readings, if the solver is off by `τ` at most. -/
def weighingOf (vm : Vm) (x : TextExt) (τ : Rat) (cfg : TextConfig) (p : TextParams) : Weighing VariantResult :=
  { r := x.f32
    τ := τ
    found := VariantsOf vm x cfg p
    dist := VariantResult.distScore
    score := VariantResult.score x.f64 p.variant.freqWeight
    width := p.maxNgram
    lm := vm.haveLm && decide (0 < p.lmWeight)
    perplexity := ComputedPerplexity vm x
    context := ComputedContext vm x cfg.contextRules
    overall := computedOverall vm x cfg p }

end Verif.Spec
