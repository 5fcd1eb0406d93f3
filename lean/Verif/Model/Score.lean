import Verif.Model.Nearest
import Verif.Model.Confusable
import Mathlib.Data.List.Sort

/-!
# Model of scoring and ranking (`score_and_rank`, `expand_variants`, `find_variants`)

`r` is the rounding of `f64` throughout.
-/
namespace Verif.Model

/-- `VariantResult`.  Models src/types.rs:326-332. -/
structure VariantResult where
  vocabId : Nat
  distScore : Rat
  freqScore : Rat
  via : Option Nat
  deriving DecidableEq

/-- `VariantResult::score`; the `f32` weight is converted exactly.  The weight −1, for which the code
divides by zero, is outside the model.  Models src/types.rs:335-341. -/
def VariantResult.score (r : Rounding) (fw : Rat) (x : VariantResult) : Rat :=
  if fw = 0 then x.distScore
  else r.rnd (r.rnd (x.distScore + r.rnd (fw * x.freqScore)) / r.rnd (1 + fw))

/-- `VariantResult::rank_cmp`, for numbers (`partial_cmp` is never `None`).
Models src/types.rs:344-366. -/
def VariantResult.rankCmp (r : Rounding) (fw : Rat) (a b : VariantResult) : Ordering :=
  if fw > 0 then
    if b.score r fw < a.score r fw then .lt
    else if b.score r fw > a.score r fw then .gt
    else .eq
  else if a.distScore > b.distScore then .lt
  else if a.distScore < b.distScore then .gt
  else if a.freqScore > b.freqScore then .lt
  else if a.freqScore < b.freqScore then .gt
  else .eq

/-- `rank_results`.  `sort_by` is a stable sort; the model sorts by insertion, which is stable too
(all stable sorts give the same list).  Models src/lib.rs:1667-1669. -/
def rankResults (r : Rounding) (fw : Rat) (l : List VariantResult) : List VariantResult :=
  l.insertionSort fun a b => (a.rankCmp r fw b != .gt) = true

/-- The part of the configuration of a model that scoring uses.  `editScript` is
`shortest_edit_script` of the crate sesdiff.  Models src/lib.rs:87, 94, 97. -/
structure Config where
  weights : Weights
  confusables : List Confusable
  confusablesBeforePruning : Bool
  editScript : List Char → List Char → List EditInstr

/-- `Weights::sum`.  Models src/types.rs:69-73. -/
def Weights.sum (r : Rounding) (w : Weights) : Rat :=
  r.rnd (r.rnd (r.rnd (r.rnd (w.ld + w.lcs) + w.pre) + w.suf) + w.case)

/-- The similarity score of a candidate.  Models src/lib.rs:1432-1453. -/
def similarity (r : Rounding) (w : Weights) (len : Nat) (d : Distance) : Rat :=
  let distanceScore := if d.ld > len then 0 else r.rnd (1 - r.rnd (d.ld / len))
  let lcsScore := r.rnd (d.lcs / len)
  let prefixScore := r.rnd (d.prefixlen / len)
  let suffixScore := r.rnd (d.suffixlen / len)
  r.rnd (r.rnd (r.rnd (r.rnd (r.rnd (r.rnd (w.ld * distanceScore) + r.rnd (w.lcs * lcsScore))
    + r.rnd (w.pre * prefixScore)) + r.rnd (w.suf * suffixScore))
    + (if d.samecase then w.case else 0)) / w.sum r)

/-- The scoring loop; returns the results, the maximum frequency and whether an instance has
references.  A sum of weights of 0 (with weights ≥ 0 then 0/0, NaN) is the panic of lines 1470-1476;
ids that are not in the vocabulary are skipped.  Models src/lib.rs:1429-1503. -/
def Vm.scoreLoop (m : Vm) (r : Rounding) (w : Weights) (len : Nat) (threshold : Rat) :
    List (Nat × Distance) → List VariantResult → Rat → Bool → Res (List VariantResult × Rat × Bool)
  | [], results, maxFreq, expandable => .ok (results, maxFreq, expandable)
  | (id, d) :: rest, results, maxFreq, expandable =>
    match m.decoder[id]? with
    | none => m.scoreLoop r w len threshold rest results maxFreq expandable
    | some item =>
      let score := similarity r w len d
      let freqScore := if m.haveFreq then r.rnd item.frequency else 1
      let maxFreq := if freqScore > maxFreq then freqScore else maxFreq
      let expandable := expandable || item.variants.isSome
      if w.sum r = 0 then .error .explicit
      else if score ≥ threshold then
        m.scoreLoop r w len threshold rest (results ++ [⟨id, score, freqScore, none⟩]) maxFreq
          expandable
      else m.scoreLoop r w len threshold rest results maxFreq expandable

/-- `compute_confusable_weight`.  Models src/lib.rs:1733-1757. -/
def Vm.confusableWeight (m : Vm) (r : Rounding) (cfg : Config) (input : List Char) (id : Nat) : Rat :=
  match m.decoder[id]? with
  | none => 1
  | some item =>
    let script := cfg.editScript input item.text
    cfg.confusables.foldl (fun w c => if c.foundIn script then r.rnd (w * c.weight) else w) 1

/-- `rescore_confusables`.  Models src/lib.rs:1656-1663. -/
def Vm.rescore (m : Vm) (r : Rounding) (cfg : Config) (input : List Char)
    (l : List VariantResult) : List VariantResult :=
  l.map fun x => { x with distScore := r.rnd (x.distScore * m.confusableWeight r cfg input x.vocabId) }

/-- The references of one result.  Models src/lib.rs:1690-1714. -/
def Vm.expandRefs (m : Vm) (r : Rounding) (x : VariantResult) :
    List VariantReference → Res (List VariantResult)
  | [] => .ok []
  | .referenceFor _ _ :: refs => m.expandRefs r x refs
  | .variantOf target s :: refs =>
    match m.decoder[target]? with
    | none => .error .expect
    | some t => do
      let rest ← m.expandRefs r x refs
      let freq := if r.rnd t.frequency < x.freqScore then r.rnd t.frequency else x.freqScore
      return ⟨target, r.rnd (x.distScore * s), freq, some x.vocabId⟩ :: rest

/-- `expand_variants`.  Models src/lib.rs:1677-1727. -/
def Vm.expandVariants (m : Vm) (r : Rounding) : List VariantResult → Res (List VariantResult)
  | [] => .ok []
  | x :: xs =>
    match m.decoder[x.vocabId]? with
    | none => .error .expect
    | some item => do
      let refs ← m.expandRefs r x (item.variants.getD [])
      let rest ← m.expandVariants r xs
      return refs ++ (if item.vocabtype.check .TRANSPARENT then [] else [x]) ++ rest

/-- Maximum frequency after expansion.  Models src/lib.rs:1513-1517. -/
def maxFreqOf (l : List VariantResult) (maxFreq : Rat) : Rat :=
  l.foldl (fun m x => if x.freqScore > m then x.freqScore else m) maxFreq

/-- Normalisation of the frequency scores.  Models src/lib.rs:1521-1525. -/
def normalizeFreq (r : Rounding) (maxFreq : Rat) (l : List VariantResult) : List VariantResult :=
  if maxFreq > 0 then l.map fun x => { x with freqScore := r.rnd (x.freqScore / maxFreq) } else l

/-- `dedup_by_key` on the vocabulary id: of adjacent results with the same id the first is kept. -/
def dedupIds : List VariantResult → List VariantResult
  | [] => []
  | a :: l =>
    match dedupIds l with
    | [] => [a]
    | b :: l' => if a.vocabId = b.vocabId then a :: l' else a :: b :: l'

/-- The scan for the cut-off points: first index greater than 0 with `dist_score` equal to
`cropped` seen before the first index with a smaller one, and that index (0 for none).
Models src/lib.rs:1559-1569. -/
def cutoffScan (cropped : Rat) : Nat → Nat → List VariantResult → Nat × Nat
  | _, early, [] => (early, 0)
  | i, early, x :: xs =>
    let early := if x.distScore = cropped ∧ early = 0 then i else early
    if x.distScore < cropped then (early, i) else cutoffScan cropped (i + 1) early xs

/-- Cropping to `max_matches`.  Models src/lib.rs:1536-1590. -/
def crop (r : Rounding) (fw : Rat) (maxMatches : Nat) (l : List VariantResult) :
    List VariantResult :=
  if maxMatches > 0 then
    match l[maxMatches - 1]?, l[maxMatches]? with
    | some last, some cropped =>
      if cropped.score r fw < last.score r fw then l.take maxMatches
      else
        let (early, late) := cutoffScan (cropped.score r fw) 0 0 l
        if early > 0 then l.take (early + 1)
        else if late > 0 then l.take (late + 1)
        else l
    | _, _ => l
  else l

/-- The scan for the first result (after the best) that is too far from the best; 0 for none.
Models src/lib.rs:1601-1609. -/
def cutoffIndex (r : Rounding) (fw limit : Rat) : Nat → List VariantResult → Nat
  | _, [] => 0
  | i, x :: xs => if x.score r fw ≤ limit then i else cutoffIndex r fw limit (i + 1) xs

/-- The cut-off threshold.  Models src/lib.rs:1597-1623. -/
def applyCutoff (r : Rounding) (fw threshold : Rat) (l : List VariantResult) :
    List VariantResult :=
  if threshold ≥ 1 then
    match l with
    | [] => []
    | best :: rest =>
      let cutoff := cutoffIndex r fw (r.rnd (best.score r fw / threshold)) 1 rest
      if cutoff > 0 then l.take cutoff else l
  else l

/-- From scored candidates to ranked results without duplicates (the first half after scoring).
Models src/lib.rs:1505-1533. -/
def Vm.rankExpanded (m : Vm) (r : Rounding) (cfg : Config) (input : List Char) (fw : Rat)
    (results : List VariantResult) (maxFreq : Rat) (expandable : Bool) :
    Res (List VariantResult) := do
  let results := if !cfg.confusables.isEmpty && cfg.confusablesBeforePruning then
    m.rescore r cfg input results else results
  let results ← if expandable then m.expandVariants r results else pure results
  let maxFreq := if expandable then maxFreqOf results maxFreq else maxFreq
  let results := rankResults r fw (normalizeFreq r maxFreq results)
  return if expandable then dedupIds results else results

/-- The second half: pruning, with the late rescoring in between.
Models src/lib.rs:1535-1623. -/
def Vm.prune (m : Vm) (r : Rounding) (cfg : Config) (p : Params) (input : List Char)
    (l : List VariantResult) : List VariantResult :=
  let l := crop r p.freqWeight p.maxMatches l
  let l := if !cfg.confusables.isEmpty && !cfg.confusablesBeforePruning then
    rankResults r p.freqWeight (m.rescore r cfg input l) else l
  applyCutoff r p.freqWeight p.cutoffThreshold l

/-- `score_and_rank`.  Models src/lib.rs:1405-1653. -/
def Vm.scoreAndRank (m : Vm) (r : Rounding) (cfg : Config) (p : Params) (input : List Char)
    (len : Nat) (instances : List (Nat × Distance)) : Res (List VariantResult) :=
  if len = 0 then .error .assertion
  else do
    let (results, maxFreq, expandable) ←
      m.scoreLoop r cfg.weights len p.scoreThreshold instances [] 0 false
    let l ← m.rankExpanded r cfg input p.freqWeight results maxFreq expandable
    return m.prune r cfg p input l

/-- `find_variants`.  Models src/lib.rs:972-1027. -/
def Vm.findVariants (m : Vm) (x : Ext) (cfg : Config) (p : Params) (input : List Char) :
    Res (List VariantResult) :=
  if m.index.isEmpty then .ok []
  else do
    let (normstring, variants) ← m.findCandidates x cfg.weights p input
    m.scoreAndRank x.f64 cfg p input normstring.length variants

end Verif.Model
