import Verif.Spec.Rules
import Verif.Spec.Route

/-!
# Specification: how a reading of a batch is scored and tagged
-/
namespace Verif.Spec

open Verif.Model

/-! ## Scores -/

/-- The weights of language model, variant model and context rules. -/
structure Mix where
  lm : Rat
  variant : Rat
  context : Rat

/-- What a candidate has: perplexity (low is good), cost (low is good), context score (high is good). -/
structure Merit where
  perplexity : Rat
  cost : Rat
  context : Rat

/-- The weighted mean of the logarithms of how the candidate compares to the best values. -/
def mixed (ln : Rat → Rat) (w : Mix) (best a : Merit) : Rat :=
  (w.lm * ln (best.perplexity / a.perplexity) + w.variant * ln (best.cost / a.cost) +
    w.context * ln (a.context / best.context)) / (w.lm + w.variant + w.context)

/-- `a` is at least as good as `b` in every respect that counts. -/
def NoWorse (w : Mix) (a b : Merit) : Prop :=
  (0 < w.lm → a.perplexity ≤ b.perplexity) ∧ (0 < w.variant → a.cost ≤ b.cost) ∧
    (0 < w.context → b.context ≤ a.context)

/-- `a` is better than `b` in some respect that counts. -/
def Better (w : Mix) (a b : Merit) : Prop :=
  (0 < w.lm ∧ a.perplexity < b.perplexity) ∨ (0 < w.variant ∧ a.cost < b.cost) ∨
    (0 < w.context ∧ b.context < a.context)

/-! ## Tags -/

/-- The entry that was selected for a match, with its lexicons; 0 if there is none. -/
def chosenEntry (vm : Vm) (m : Match) : Nat × Nat :=
  match m.selected.bind fun i => m.variants.bind fun vs => vs[i]? with
  | none => (0, 0)
  | some v =>
    (v.vocabId, if v.vocabId = 0 then 0 else (vm.decoder[v.vocabId]?.map VocabValue.lexindex).getD 0)

/-- The tags that a rule gives to the `k`-th word of its pattern, with the number of the word in the
range of the tag. -/
def tagsGiven (rule : ContextRule) (k : Nat) : List (Nat × Nat) :=
  ((rule.tag.zip rule.tagoffset).filter fun y => y.2.1 ≤ k ∧ k < y.2.1 + y.2.2).map
    fun y => (y.1, k - y.2.1)

/-- The matches have the tags that the rules give to the entries selected for them: those of the rule
application they take part in, none if there is none. -/
def Tagged (vm : Vm) (rules : List ContextRule) (ms : List Match) : Prop :=
  ∃ A, Greedy (Marked rules) rules (ms.map (chosenEntry vm)) A ∧
    ∀ (i : Nat) m, ms[i]? = some m →
      (∀ a ∈ A, ∀ rule, rules[a.2]? = some rule → Marked rules a i →
        m.tag = (tagsGiven rule (i - a.1)).map Prod.fst ∧
        m.seqnr = (tagsGiven rule (i - a.1)).map Prod.snd) ∧
      ((∀ a ∈ A, ¬ Marked rules a i) → m.tag = [] ∧ m.seqnr = [])

end Verif.Spec
