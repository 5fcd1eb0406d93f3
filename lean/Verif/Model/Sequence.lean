import Verif.Model.Search
import Verif.Model.EFloat

/-!
# Model of the search in running text: `find_all_matches`, `most_likely_sequence`, context rules and
language model scores (`src/lib.rs`)
-/
namespace Verif.Model

/-- `SearchParameters` as far as `find_all_matches` uses them (weights are `f32`).  `consolidate_matches`
is not read by the library.  Models src/types.rs:110-170. -/
structure TextParams where
  variant : Params
  maxNgram : Nat
  maxSeq : Nat
  singleThread : Bool
  variantmodelWeight : Rat
  lmWeight : Rat
  contextrulesWeight : Rat
  unicodeoffsets : Bool

/-! ## The transducer -/

/-- A transition of the transducer.  Models src/lib.rs:2221-2224, 2257-2260, 2274. -/
structure Tr where
  src : Nat
  ilabel : Nat
  olabel : Nat
  cost : Rat
  dst : Nat
  deriving DecidableEq

/-- A transducer with states `0`, …, `states - 1`, of which `0` is the start state. -/
structure Fst where
  states : Nat
  finals : List Nat
  trs : List Tr

/-- `OutputSymbol`.  Models src/search.rs:134-149. -/
structure OutputSymbol where
  vocabId : Nat
  matchIndex : Nat
  variantIndex : Option Nat
  boundaryIndex : Nat
  symbol : Nat
  deriving DecidableEq

/-- A path returned by the solver: weight and output labels without epsilon (0).
Models src/lib.rs:2323-2335 (`FstPath` of the crate rustfst). -/
structure FstPath where
  weight : Rat
  olabels : List Nat

/-- What the search in text depends on outside the modelled code, on top of `Ext`: two tables of
characters, logarithms in both formats, the solver (`shortest_path_with_config` and `paths_iter` of
rustfst), and the order in which the worker threads process `n` segments. -/
structure TextExt extends Ext where
  isAlpha : Char → Bool
  isSpace : Char → Bool
  ln32 : Rat → Rat
  ln64 : Rat → Rat
  solve : Fst → Nat → List FstPath
  sched : Nat → List Nat
  sched_perm : ∀ n, (sched n).Perm (List.range n)

/-- The part of the model that the search in text uses on top of `Config`. -/
structure TextConfig extends Config where
  contextRules : List ContextRule

/-- The loop for the boundaries before and after a match, from index `i` on.
Models src/lib.rs:2161-2167. -/
def adjacentLoop (m : Match) : Nat → List Match → Option Nat → Option Nat → Option Nat × Option Nat
  | _, [], prev, next => (prev, next)
  | i, boundary :: rest, prev, next =>
    if m.first = boundary.last then adjacentLoop m (i + 1) rest (some i) next
    else if m.last = boundary.first then adjacentLoop m (i + 1) rest prev (some i)
    else adjacentLoop m (i + 1) rest prev next

/-- Previous state, next boundary and number of tokens of a match.  State `i + 1` belongs to boundary
`i`.  Models src/lib.rs:2156-2179. -/
def transitionOf (m : Match) (boundaries : List Match) : Res (Nat × Nat × Nat) :=
  match adjacentLoop m 0 boundaries none none with
  | (_, none) => .error .expect
  | (some prev, some next) => if prev > next then .error .overflow else .ok (prev + 1, next, next - prev)
  | (none, some next) => .ok (0, next, next + 1)

/-- The transitions of the variants of a match, from variant `vi` on.
Models src/lib.rs:2182-2226. -/
def variantTrs (x : TextExt) (fw : Rat) (matchIndex src next n : Nat) :
    Nat → List VariantResult → List OutputSymbol → List Tr → List OutputSymbol × List Tr
  | _, [], syms, trs => (syms, trs)
  | vi, v :: vs, syms, trs =>
    let cost := x.f32.rnd (x.f32.rnd n + x.f32.rnd (1 - x.f32.rnd (v.score x.f64 fw)))
    variantTrs x fw matchIndex src next n (vi + 1) vs
      (syms ++ [({ vocabId := v.vocabId, matchIndex, variantIndex := some vi, boundaryIndex := next, symbol := syms.length } : OutputSymbol)])
      (trs ++ [({ src, ilabel := matchIndex + 1, olabel := syms.length, cost, dst := next + 1 } : Tr)])

/-- The transitions of one match.  Models src/lib.rs:2151-2262. -/
def matchTrs (x : TextExt) (fw : Rat) (boundaries : List Match) (matchIndex : Nat) (m : Match)
    (syms : List OutputSymbol) (trs : List Tr) : Res (List OutputSymbol × List Tr) := do
  let (src, next, n) ← transitionOf m boundaries
  match m.variants with
  | some (v :: vs) => return variantTrs x fw matchIndex src next n 0 (v :: vs) syms trs
  | _ =>
    if n = 1 then
      return (syms ++ [({ vocabId := 0, matchIndex, variantIndex := none, boundaryIndex := next, symbol := syms.length } : OutputSymbol)],
        trs ++ [({ src, ilabel := matchIndex + 1, olabel := syms.length, cost := x.f32.rnd (x.f32.rnd n + 1), dst := next + 1 } : Tr)])
    else return (syms, trs)

/-- The transitions of all matches from index `matchIndex` on.  Models src/lib.rs:2151-2263. -/
def matchesTrs (x : TextExt) (fw : Rat) (boundaries : List Match) :
    Nat → List Match → List OutputSymbol → List Tr → Res (List OutputSymbol × List Tr)
  | _, [], syms, trs => .ok (syms, trs)
  | i, m :: ms, syms, trs => do
    let (syms, trs) ← matchTrs x fw boundaries i m syms trs
    matchesTrs x fw boundaries (i + 1) ms syms trs

/-- The failsafe transitions.  Models src/lib.rs:2266-2276. -/
def epsilonTrs (k : Nat) : List Tr :=
  (List.range k).map fun i => { src := i, ilabel := 0, olabel := 0, cost := 100, dst := i + 1 }

/-- The final states.  Models src/lib.rs:2115-2125. -/
def finalStates (endOffset : Nat) : Nat → List Match → List Nat
  | _, [] => []
  | i, b :: bs =>
    (if b.first = endOffset ∨ b.last = endOffset then [i + 1] else []) ++
      finalStates endOffset (i + 1) bs

/-- The dummy first output symbol.  Models src/lib.rs:2140-2148. -/
def dummySymbol : OutputSymbol :=
  { vocabId := 0, matchIndex := 0, variantIndex := none, boundaryIndex := 0, symbol := 0 }

/-- The transducer and the output symbols.  Models src/lib.rs:2104-2276. -/
def buildFst (x : TextExt) (fw : Rat) (matches_ boundaries : List Match) (endOffset : Nat) :
    Res (Fst × List OutputSymbol) :=
  let finals := finalStates endOffset 0 boundaries
  if finals.isEmpty then .error .explicit
  else do
    let (syms, trs) ← matchesTrs x fw boundaries 0 matches_ [dummySymbol] []
    return ({ states := boundaries.length + 1, finals, trs := trs ++ epsilonTrs boundaries.length },
      syms)

/-! ## Language model scores -/

/-- src/search.rs:4 -/
def SMOOTHING : Rat := -13815510557964274 / 1000000000000000

/-- Popping the items of an n-gram until it is empty; an n-gram has at most five, so that six rounds
suffice.  Models src/lib.rs:2597-2602, 2610-2615. -/
def drain : Nat → NGram → List (Option Nat)
  | 0, _ => []
  | fuel + 1, ngram =>
    match ngram.popFirst with
    | (_, .empty) => []
    | (rest, unigram) => unigram.first :: drain fuel rest

/-- The tokens of a vocabulary item; none if it has too many.  Models src/lib.rs:2596-2603. -/
def Vm.itemTokens (m : Vm) (id : Nat) : Res (List (Option Nat)) := do
  let (ngram, _) ← m.intoNgram id none
  match ngram with
  | some ngram => return drain 6 ngram
  | none => return []

/-- The tokens of an output symbol.  Models src/lib.rs:2592-2604. -/
def Vm.wordTokens (m : Vm) (o : OutputSymbol) : Res (List (Option Nat)) :=
  if o.vocabId = 0 then pure [none] else m.itemTokens o.vocabId

/-- The tokens of a boundary.  Models src/lib.rs:2607-2621. -/
def Vm.boundaryTokens (m : Vm) (isSpace : Char → Bool) (text : List Char) : Res (List (Option Nat)) :=
  if trim isSpace text ≠ [] then
    match m.encoder.get? (trim isSpace text) with
    | some id => m.itemTokens id
    | none => pure [none]
  else pure []

/-- The tokens of the output symbols with their boundaries.  Models src/lib.rs:2587-2622. -/
def Vm.symbolTokens (m : Vm) (isSpace : Char → Bool) (boundaries : List Match) :
    List OutputSymbol → Res (List (Option Nat))
  | [] => .ok []
  | o :: os =>
    match boundaries[o.boundaryIndex]? with
    | none => .error .expect
    | some next => do
      let l1 ← m.wordTokens o
      let l2 ← m.boundaryTokens isSpace next.text
      let rest ← m.symbolTokens isSpace boundaries os
      return l1 ++ l2 ++ rest

/-- The score of one transition.  Models src/lib.rs:2637-2666 (the increment of `logprob`). -/
def Vm.transitionScore (m : Vm) (x : TextExt) (prior next : Option Nat) : EFloat :=
  match NGram.fromOptionList [prior, next], NGram.fromOptionList [prior] with
  | some bigram, some prior =>
    let priorcount := (m.ngrams.get? prior).getD 1
    match m.ngrams.get? bigram with
    | some jointcount =>
      if priorcount < jointcount then .log x.ln32 (.fin (x.f32.rnd jointcount))
      else .log x.ln32 (.div x.f32 false (.fin (x.f32.rnd jointcount)) (.fin (x.f32.rnd priorcount)))
    | none => .fin (x.f32.rnd SMOOTHING)
  | _, _ => .fin (x.f32.rnd SMOOTHING)

/-- The loop of `lm_score_tokens` over adjacent tokens: log-probability and number of transitions.
Models src/lib.rs:2636-2667. -/
def Vm.lmTokensLoop (m : Vm) (x : TextExt) : List (Option Nat) → EFloat → Nat → EFloat × Nat
  | a :: b :: rest, logprob, n =>
    m.lmTokensLoop x (b :: rest) (logprob.add x.f32 (m.transitionScore x a b)) (n + 1)
  | _, logprob, n => (logprob, n)

/-- `lm_score_tokens`; the empty list underflows, and one token gives −∞ · 0, not a number.
Models src/lib.rs:2632-2674. -/
def Vm.lmScoreTokens (m : Vm) (x : TextExt) (tokens : List (Option Nat)) : Res (EFloat × EFloat) :=
  if tokens = [] then .error .overflow
  else
    let (logprob, n) := m.lmTokensLoop x tokens (.fin 0) 0
    if n = 0 then .ok (logprob, .nan)
    else .ok (logprob, logprob.scale x.f64 (x.f64.rnd (-1 / n)))

/-- `lm_score`.  Models src/lib.rs:2580-2628. -/
def Vm.lmScore (m : Vm) (x : TextExt) (syms : List OutputSymbol) (boundaries : List Match) :
    Res (EFloat × EFloat) := do
  let tokens ← m.symbolTokens x.isSpace boundaries syms
  m.lmScoreTokens x (some BOS :: tokens ++ [some EOS])

/-! ## Context rules -/

/-- Vocabulary id and lexicon index of an output symbol.  Models src/lib.rs:2505-2519. -/
def Vm.symbolLexindex (m : Vm) (o : OutputSymbol) : Nat × Nat :=
  if o.vocabId = 0 then (o.vocabId, 0)
  else
    match m.decoder[o.vocabId]? with
    | some v => (o.vocabId, v.lexindex)
    | none => (o.vocabId, 0)

/-- The loop over the rules at one position.  Models src/lib.rs:2528-2554. -/
def rulesLoop (sequence : List (Nat × Nat)) (b : Nat) :
    List ContextRule → List (List PatternMatchResult) → Bool →
    Res (List (List PatternMatchResult) × Bool)
  | [], results, found => .ok (results, found)
  | rule :: rules, results, found => do
    let (results, hit) ← rule.apply sequence b results
    rulesLoop sequence b rules results (found || hit)

/-- The loop over the positions.  Models src/lib.rs:2527-2555. -/
def positionsLoop (rules : List ContextRule) (sequence : List (Nat × Nat)) :
    List Nat → List (List PatternMatchResult) → Bool → Res (List (List PatternMatchResult) × Bool)
  | [], results, found => .ok (results, found)
  | b :: bs, results, found => do
    let (results, found) ← rulesLoop sequence b rules results found
    positionsLoop rules sequence bs results found

/-- Sum of the scores of the positions (in `f32`).  Models src/lib.rs:2562-2571. -/
def sumScores (r : Rounding) (results : List (List PatternMatchResult)) : Rat :=
  results.foldl (fun s l => r.rnd (s + match l with
    | [] => 1
    | a :: _ => a.score)) 0

/-- `test_context_rules`.  Models src/lib.rs:2501-2576. -/
def Vm.testContextRules (m : Vm) (x : TextExt) (rules : List ContextRule)
    (syms : List OutputSymbol) : Res (Rat × List (List PatternMatchResult)) := do
  let sequence := syms.map m.symbolLexindex
  let (results, found) ← positionsLoop rules sequence (List.range sequence.length)
    (List.replicate sequence.length []) false
  if !found then return (1, results)
  else return (x.f64.rnd (sumScores x.f32 results / sequence.length), results)

/-! ## The best sequence -/

/-- `Sequence`.  Models src/search.rs:154-174. -/
structure Seqn where
  outputSymbols : List OutputSymbol
  variantCost : Rat
  perplexity : EFloat
  contextScore : Rat
  tags : List (List (Nat × Nat))

/-- The output symbols of a path.  Models src/lib.rs:2330-2335. -/
def lookupSymbols (syms : List OutputSymbol) : List Nat → Res (List OutputSymbol)
  | [] => .ok []
  | l :: ls =>
    match syms[l]? with
    | none => .error .expect
    | some o => do
      let os ← lookupSymbols syms ls
      return o :: os

/-- Tags and sequence numbers of the results.  Models src/lib.rs:2349-2363. -/
def tagsOf (results : List (List PatternMatchResult)) : List (List (Nat × Nat)) :=
  results.map fun l => l.filterMap fun p => p.tag.map fun t => (t, p.seqnr)

/-- One candidate sequence.  Models src/lib.rs:2323-2374. -/
def Vm.sequenceOf (m : Vm) (x : TextExt) (cfg : TextConfig) (p : TextParams)
    (boundaries : List Match) (syms : List OutputSymbol) (path : FstPath) : Res Seqn := do
  let os ← lookupSymbols syms path.olabels
  let perplexity ← if m.haveLm ∧ p.lmWeight > 0 then do
      let (_, perplexity) ← m.lmScore x os boundaries
      pure perplexity
    else pure (.fin 0)
  if cfg.contextRules.isEmpty then
    return { outputSymbols := os, variantCost := path.weight, perplexity, contextScore := 1, tags := [] }
  else do
    let (score, results) ← m.testContextRules x cfg.contextRules os
    return { outputSymbols := os, variantCost := path.weight, perplexity, contextScore := score, tags := tagsOf results }

/-- All candidate sequences.  Models src/lib.rs:2323-2375. -/
def Vm.sequencesOf (m : Vm) (x : TextExt) (cfg : TextConfig) (p : TextParams)
    (boundaries : List Match) (syms : List OutputSymbol) : List FstPath → Res (List Seqn)
  | [] => .ok []
  | path :: paths => do
    let s ← m.sequenceOf x cfg p boundaries syms path
    let rest ← m.sequencesOf x cfg p boundaries syms paths
    return s :: rest

/-- `best_lm_perplexity`, for the sequences in order.  Models src/lib.rs:2319, 2341-2343. -/
def bestPerplexity (l : List Seqn) : EFloat :=
  l.foldl (fun best s => if best.gt s.perplexity then s.perplexity else best) (.fin 999999)

/-- `best_variant_cost` for `k` boundaries.  Models src/lib.rs:2320, 2368-2370. -/
def bestCost (r : Rounding) (k : Nat) (l : List Seqn) : Rat :=
  l.foldl (fun best s => if s.variantCost < best then s.variantCost else best)
    (r.rnd (r.rnd (k - 1 : Nat) * 2))

/-- `best_context_score`.  Models src/lib.rs:2321, 2371-2373. -/
def bestContext (l : List Seqn) : Rat :=
  l.foldl (fun best s => if s.contextScore > best then s.contextScore else best) 0

/-- The combined score of a sequence.  A perplexity of zero is always −0 (it is a negative number
times +0), a cost or context score of zero is +0.  Models src/lib.rs:2388-2411. -/
def Vm.combinedScore (m : Vm) (x : TextExt) (cfg : TextConfig) (p : TextParams) (bestPp : EFloat)
    (bestCost bestCtx : Rat) (s : Seqn) : EFloat :=
  let lm : EFloat := if m.haveLm ∧ p.lmWeight > 0 then
    .log x.ln64 (.div x.f64 true bestPp s.perplexity) else .fin 0
  let var : EFloat := .log x.ln64 (.div x.f64 false (.fin bestCost) (.fin s.variantCost))
  let ctx : EFloat := .log x.ln64 (.div x.f64 false (.fin s.contextScore) (.fin bestCtx))
  if (!m.haveLm ∨ p.lmWeight = 0) ∧ (cfg.contextRules.isEmpty ∨ p.contextrulesWeight = 0) then var
  else
    ((lm.scale x.f64 p.lmWeight).add x.f64 (var.scale x.f64 p.variantmodelWeight)).add x.f64
      (ctx.scale x.f64 p.contextrulesWeight) |>.div x.f64 false
        (.fin (x.f64.rnd (x.f64.rnd (p.lmWeight + p.variantmodelWeight) + p.contextrulesWeight)))

/-- The loop for the best sequence.  Models src/lib.rs:2384-2425. -/
def selectBest (score : Seqn → EFloat) : List Seqn → Option (Seqn × EFloat) → Option (Seqn × EFloat)
  | [], best => best
  | s :: ss, none => selectBest score ss (some (s, score s))
  | s :: ss, some (b, bs) =>
    selectBest score ss (if (score s).gt bs then some (s, score s) else some (b, bs))

/-- The matches of the best sequence, from index `i` on.  Models src/lib.rs:2476-2494. -/
def resultMatches (matches_ : List Match) (tags : List (List (Nat × Nat))) :
    Nat → List OutputSymbol → Res (List Match)
  | _, [] => .ok []
  | i, o :: os =>
    match matches_[o.matchIndex]? with
    | none => .error .expect
    | some m => do
      let rest ← resultMatches matches_ tags (i + 1) os
      let m := { m with selected := o.variantIndex }
      let m := match tags[i]? with
        | some t => { m with tag := t.map Prod.fst, seqnr := t.map Prod.snd }
        | none => m
      return m :: rest

/-- `most_likely_sequence` (without the debug output).  Models src/lib.rs:2088-2495. -/
def Vm.mostLikelySequence (m : Vm) (x : TextExt) (cfg : TextConfig) (p : TextParams)
    (matches_ boundaries : List Match) (endOffset : Nat) : Res (List Match) := do
  let (fst, syms) ← buildFst x p.variant.freqWeight matches_ boundaries endOffset
  if syms.length = 1 then return matches_
  else do
    let seqs ← m.sequencesOf x cfg p boundaries syms (x.solve fst p.maxSeq)
    let score := m.combinedScore x cfg p (bestPerplexity seqs)
      (bestCost x.f32 boundaries.length seqs) (bestContext seqs)
    match selectBest score seqs none with
    | none => .error .expect
    | some (best, _) => resultMatches matches_ best.tags 0 best.outputSymbols

/-! ## Search in text -/

/-- Finding the variants of one segment.  Models src/lib.rs:1864-1880 (and 1883-1899). -/
def Vm.processSegment (m : Vm) (x : TextExt) (cfg : TextConfig) (p : TextParams) (order : Nat)
    (batch : List Match) (segment : Match) : Res Match :=
  if order = 1 || !redundantMatch segment batch then do
    let v ← m.findVariants x.toExt cfg.toConfig p.variant segment.text
    return { segment with variants := some v }
  else .ok segment

/-- Processing segments one after the other. -/
def processSeq (f : Match → Res Match) : List Match → Res (List Match)
  | [] => .ok []
  | s :: ss => do
    let s' ← f s
    let rest ← processSeq f ss
    return s' :: rest

/-- Processing segments in place, in the order of a schedule (each worker has exclusive access to its
segment and shares only data that do not change).  Models `par_iter_mut().for_each` in
src/lib.rs:1883-1899. -/
def processPar (f : Match → Res Match) : List Nat → List Match → Res (List Match)
  | [], segments => .ok segments
  | i :: is, segments =>
    match segments[i]? with
    | none => processPar f is segments
    | some s => do
      let s' ← f s
      processPar f is (segments.set i s')

/-- Gathering the segments of one batch, for `n` orders from `order` on.
Models src/lib.rs:1840-1903. -/
def Vm.gatherSegments (m : Vm) (x : TextExt) (cfg : TextConfig) (p : TextParams)
    (text : List Char) (boundaries : List Match) (b e : Nat) : Nat → Nat → List Match →
    Res (List Match)
  | _, 0, batch => .ok batch
  | order, n + 1, batch => do
    let segments ← findMatchNgrams text boundaries order b (some e)
    let f := m.processSegment x cfg p order batch
    let segments ← if p.singleThread then processSeq f segments
      else processPar f (x.sched segments.length) segments
    m.gatherSegments x cfg p text boundaries b e (order + 1) n (batch ++ segments)

/-- The matches of one batch.  Models src/lib.rs:1840-1933. -/
def Vm.batchMatches (m : Vm) (x : TextExt) (cfg : TextConfig) (p : TextParams)
    (text : List Char) (boundaries : List Match) (b e : Nat) : Res (List Match) := do
  let batch ← m.gatherSegments x cfg p text boundaries b e 1 p.maxNgram []
  if p.maxNgram > 1 ∨ m.haveLm ∨ !cfg.contextRules.isEmpty then
    m.mostLikelySequence x cfg p batch boundaries e
  else return batch.map fun s => { s with selected := some 0 }

/-- The loop over the boundaries: index, begin offset and begin index of the batch, matches so far.
The slice `text_current` of line 1823 is used in debug mode only but is always taken.
Models src/lib.rs:1821-1941. -/
def Vm.batchLoop (m : Vm) (x : TextExt) (cfg : TextConfig) (p : TextParams) (text : List Char)
    (boundaries : List Match) : List (Strength × Match) → Nat → Nat → Nat → List Match →
    Res (List Match)
  | [], _, _, _, acc => .ok acc
  | (strength, boundary) :: rest, i, b, bi, acc =>
    if strength = .hard ∧ boundary.first ≠ b then do
      let _ ← slice text b boundary.first
      let ms ← m.batchMatches x cfg p text ((boundaries.take (i + 1)).drop bi) b boundary.first
      m.batchLoop x cfg p text boundaries rest (i + 1) boundary.last (i + 1) (acc ++ ms)
    else m.batchLoop x cfg p text boundaries rest (i + 1) b bi acc

/-- `find_all_matches`.  Models src/lib.rs:1790-1957. -/
def Vm.findAllMatches (m : Vm) (x : TextExt) (cfg : TextConfig) (p : TextParams)
    (text : List Char) : Res (List Match) :=
  if text = [] then .ok []
  else if m.index.isEmpty then .ok []
  else do
    let boundaries ← findBoundaries x.isAlpha text
    let strengths := classifyBoundaries boundaries
    let ms ← m.batchLoop x cfg p text boundaries (strengths.zip boundaries) 0 0 0 []
    if p.unicodeoffsets then remapOffsets text ms else return ms

/-! ## Looking at a match -/

/-- `match_to_vocabvalue`.  Models src/lib.rs:2768-2774. -/
def Vm.matchToVocabvalue (m : Vm) (a : Match) : Res (Option VocabValue) := do
  match ← a.solution with
  | some r => return m.decoder[r.vocabId]?
  | none => return none

/-- `match_to_str`.  Models src/lib.rs:2758-2764. -/
def Vm.matchToStr (m : Vm) (a : Match) : Res (List Char) := do
  match ← m.matchToVocabvalue a with
  | some v => return v.text
  | none => return a.text

/-- The loop of `match_to_ngram`; `none` is the error.  Models src/lib.rs:2802-2811. -/
def Vm.partsToNgram (m : Vm) : List Match → NGram → Option NGram
  | [], ngram => some ngram
  | part :: parts, ngram =>
    match m.encoder.get? part.text with
    | some id => m.partsToNgram parts (ngram.push id).1
    | none => none

/-- `match_to_ngram`.  Models src/lib.rs:2794-2813. -/
def Vm.matchToNgram (m : Vm) (a : Match) (boundaries : List Match) : Res (Option NGram) := do
  let parts ← findMatchNgrams a.text (a.internalBoundaries boundaries) 1 0 none
  return m.partsToNgram parts .empty

end Verif.Model
