import Verif.Spec.Similar
import Verif.Spec.Confusable
import Mathlib.Data.List.Destutter

/-!
# Specification: what is suggested for a text, with links between words and confusables
-/
namespace Verif.Spec

open Verif.Model

/-- What is known about words: which are looked up, their frequencies and whether these count, which are
errors only (transparent), of which words they are variants (with scores), and which take part in this as
variant or as reference. -/
structure Lexis where
  indexed : List Char → Prop
  freq : List Char → Nat
  counted : Bool
  transparent : List Char → Bool
  links : List Char → List (List Char × Rat)
  linked : List Char → Prop

/-- The two texts have the same symbols. -/
def Anagram (alphabet : Alphabet) (text word : List Char) : Prop :=
  ∃ a b, Encodes alphabet alphabet.length text a ∧ Encodes alphabet alphabet.length word b ∧ a.Perm b

/-- The word is considered for the text, with this score: it is looked up and within reach; and if the search
stops at exact matches and there are words with the same symbols, it is one of these. -/
structure Reached (x : TextExt) (alphabet : Alphabet) (L : Lexis) (w : Weights) (p : Params)
    (text word : List Char) (s : Rat) : Prop where
  indexed : L.indexed word
  near : Near x alphabet w p text word s
  exact : p.stopCriterion = .stopAtExactMatch → (∃ t, L.indexed t ∧ Anagram alphabet text t) →
    Anagram alphabet text word

/-- A word that is suggested, with its score, its frequency, and the word it was found by, if another. -/
structure Suggestion where
  word : List Char
  score : Rat
  freq : Rat
  via : Option (List Char)

/-- The score that counts: with frequency ranking the mean, with weight `fw`, of score and frequency, as it
is computed. -/
def Suggestion.overall (r : Rounding) (fw : Rat) (u : Suggestion) : Rat :=
  if fw = 0 then u.score else r.rnd (r.rnd (u.score + r.rnd (fw * u.freq)) / r.rnd (1 + fw))

/-- `u` is not worse than `v`: without frequency ranking, frequencies count between equal scores. -/
def Suggestion.NotWorse (r : Rounding) (fw : Rat) (u v : Suggestion) : Prop :=
  if fw = 0 then v.score < u.score ∨ v.score = u.score ∧ v.freq ≤ u.freq
  else v.overall r fw ≤ u.overall r fw

/-- The weight of a difference (edit script): the product of the weights of the confusables found in it, as
it is computed. -/
def Factor (r : Rounding) (cs : List Confusable) (script : List EditInstr) (f : Rat) : Prop :=
  ∃ found : Confusable → Bool, (∀ c, found c = true ↔ Found c script) ∧
    f = ((cs.filter found).map Confusable.weight).foldl (fun a b => r.rnd (a * b)) 1

/-- The frequency that counts for a word. -/
def Lexis.count (L : Lexis) (r : Rounding) (t : List Char) : Rat :=
  if L.counted then r.rnd (L.freq t) else 1

/-- The words that are considered for the text and reach the threshold; `top` is the greatest frequency of a
word that is considered. -/
structure Scored (x : TextExt) (alphabet : Alphabet) (L : Lexis) (w : Weights) (p : Params)
    (text : List Char) (base : List Suggestion) (top : Rat) : Prop where
  nodup : (base.map Suggestion.word).Nodup
  mem : ∀ u, u ∈ base ↔ Reached x alphabet L w p text u.word u.score ∧ p.scoreThreshold ≤ u.score ∧
    u.freq = L.count x.f64 u.word ∧ u.via = none
  greatest : base ≠ [] →
    IsGreatest {f | ∃ t s, Reached x alphabet L w p text t s ∧ f = L.count x.f64 t} top

/-- The score is multiplied by a factor that depends on the word. -/
def Suggestion.weighted (r : Rounding) (factor : List Char → Rat) (u : Suggestion) : Suggestion :=
  { u with score := r.rnd (u.score * factor u.word) }

/-- A word and the words it is a variant of: these with the score multiplied by that of the link, and with
the smaller of the frequencies; then the word itself, unless it is an error. -/
def Suggestion.followed (r : Rounding) (L : Lexis) (u : Suggestion) : List Suggestion :=
  ((L.links u.word).map fun l =>
    ⟨l.1, r.rnd (u.score * l.2), min (r.rnd (L.freq l.1)) u.freq, some u.word⟩) ++
  if L.transparent u.word then [] else [u]

/-- What a query gives: the words that reach the threshold (`base`), weighted if confusables come first
(`weighted`); with the words they are variants of, if any word that is considered has links (`all`); in
order (`ranked`), without those that repeat the word before; the first of these (`kept`), weighted and put
in order again if confusables come last (`final`); and of these the ones that are close to the best. -/
structure Suggested (x : TextExt) (alphabet : Alphabet) (L : Lexis) (cfg : Config) (p : Params)
    (text : List Char) (factor : List Char → Rat) (top : Rat)
    (base weighted all ranked kept final res : List Suggestion) : Prop where
  factors : ∀ t, Factor x.f64 cfg.confusables (cfg.editScript text t) (factor t)
  scored : Scored x alphabet L cfg.weights p text base top
  early : cfg.confusables ≠ [] ∧ cfg.confusablesBeforePruning = true →
    weighted = base.map (Suggestion.weighted x.f64 factor)
  notEarly : ¬ (cfg.confusables ≠ [] ∧ cfg.confusablesBeforePruning = true) → weighted = base
  linked : (∃ t s, Reached x alphabet L cfg.weights p text t s ∧ L.linked t) →
    all = weighted.flatMap (Suggestion.followed x.f64 L)
  notLinked : ¬ (∃ t s, Reached x alphabet L cfg.weights p text t s ∧ L.linked t) → all = weighted
  perm : ranked.Perm (all.map fun u => { u with freq := x.f64.rnd (u.freq / top) })
  order : ranked.Pairwise (Suggestion.NotWorse x.f64 p.freqWeight)
  first : kept = firstOnes p.maxMatches (Suggestion.overall x.f64 p.freqWeight) Suggestion.score
    (ranked.destutter fun u v => u.word ≠ v.word)
  late : cfg.confusables ≠ [] ∧ cfg.confusablesBeforePruning = false →
    final.Perm (kept.map (Suggestion.weighted x.f64 factor)) ∧
      final.Pairwise (Suggestion.NotWorse x.f64 p.freqWeight)
  notLate : ¬ (cfg.confusables ≠ [] ∧ cfg.confusablesBeforePruning = false) → final = kept
  result : res = closeOnes x.f64 p.cutoffThreshold (Suggestion.overall x.f64 p.freqWeight) final

/-- The suggestions for a text. -/
def Suggestions (x : TextExt) (alphabet : Alphabet) (L : Lexis) (cfg : Config) (p : Params)
    (text : List Char) (res : List Suggestion) : Prop :=
  ∃ factor top base weighted all ranked kept final,
    Suggested x alphabet L cfg p text factor top base weighted all ranked kept final res

/-- This is what a model knows about words, as far as it matters: about those that are looked up, and the
frequencies of those they are variants of. -/
structure Describes (m : Vm) (L : Lexis) : Prop where
  indexed : ∀ t, L.indexed t ↔ ∃ v ∈ m.decoder, v.text = t ∧ v.vocabtype.check .INDEXED = true
  counted : L.counted = m.haveFreq
  freq : ∀ v ∈ m.decoder, v.vocabtype.check .INDEXED = true → L.freq v.text = v.frequency
  transparent : ∀ v ∈ m.decoder, v.vocabtype.check .INDEXED = true →
    L.transparent v.text = v.vocabtype.check .TRANSPARENT
  linked : ∀ v ∈ m.decoder, v.vocabtype.check .INDEXED = true →
    (L.linked v.text ↔ v.variants.isSome = true)
  links : ∀ v ∈ m.decoder, v.vocabtype.check .INDEXED = true →
    List.Forall₂ (fun r l => ∃ id t, r = .variantOf id l.2 ∧ m.decoder[id]? = some t ∧ t.text = l.1 ∧
        L.freq t.text = t.frequency)
      ((v.variants.getD []).filter fun | .variantOf _ _ => true | .referenceFor _ _ => false)
      (L.links v.text)

/-- The result is the suggestion, with numbers of entries for the words. -/
structure SuggestedBy (m : Vm) (r : VariantResult) (u : Suggestion) : Prop where
  word : ∃ v, m.decoder[r.vocabId]? = some v ∧ v.text = u.word
  score : r.distScore = u.score
  freq : r.freqScore = u.freq
  via : (r.via = none ∧ u.via = none) ∨
    ∃ i v, r.via = some i ∧ m.decoder[i]? = some v ∧ u.via = some v.text

end Verif.Spec
