import Verif.Model.Vocab
import Verif.Model.Distance
import Verif.Model.Float

/-!
# Model of the candidate search: `find_nearest_anahashes` and `gather_instances`
-/
namespace Verif.Model

/-- `BTreeSet::insert` on a set kept as an ascending list. -/
def setInsert (v : Nat) : List Nat → List Nat
  | [] => [v]
  | x :: xs => if v < x then v :: x :: xs else if v = x then x :: xs else x :: setInsert v xs

/-- `StopCriterion`.  Models src/types.rs:307-313. -/
inductive StopCriterion where
  | exhaustive | stopAtExactMatch
  deriving DecidableEq, Repr

/-- Adding a value to the lookups under a key.  Models src/lib.rs:1194-1198, 1265-1269. -/
def pushLookup (lookups : HMap Nat (List Nat)) (key value : Nat) : HMap Nat (List Nat) :=
  lookups.insert key ((lookups.get? key).getD [] ++ [value])

/-- Scheduling the insertions from `value`, which has `charcount` symbols, at the distances
`i`, `i + 1`, … (`n` of them).  The number of symbols is a `u16`, the key its low 8 bits.
Models src/lib.rs:1192-1205 (with the focus) and 1257-1270 (with a deletion). -/
def schedule (value charcount : Nat) : Nat → Nat → HMap Nat (List Nat) → Res (HMap Nat (List Nat))
  | _, 0, lookups => .ok lookups
  | i, n + 1, lookups =>
    if charcount + i ≥ 65536 then .error .overflow
    else schedule value charcount (i + 1) n (pushLookup lookups ((charcount + i) % 256) value)

/-- Parameters of the deletion search.  Models src/lib.rs:1207-1213. -/
def nearestParams (maxDistance : Nat) : SearchParams :=
  { minDistance := none, maxDistance := some maxDistance, breadthfirst := true,
    allowDuplicates := false, allowEmptyLeaves := false }

/-- The loop over the deletions: values in the index are added to the result, and insertions from
every deletion are scheduled.  Models src/lib.rs:1222-1271. -/
def deletionLoop (index : HMap Nat AnaIndexNode) (charcount maxDistance : Nat) :
    List IterItem → List Nat → HMap Nat (List Nat) → Res (List Nat × HMap Nat (List Nat))
  | [], nearest, lookups => .ok (nearest, lookups)
  | (deletion, distance) :: items, nearest, lookups =>
    let nearest :=
      match index.get? deletion.value with
      | some _ => setInsert deletion.value nearest
      | none => nearest
    if distance > charcount ∨ distance > maxDistance then .error .overflow
    else do
      let lookups ← schedule deletion.value (charcount - distance) 1 (maxDistance - distance) lookups
      deletionLoop index charcount maxDistance items nearest lookups

/-- Does one of the scheduled values occur in the candidate.  Models src/lib.rs:1281-1288. -/
def containsAny (candidate : Nat) : List Nat → Res Bool
  | [] => .ok false
  | av :: avs => do
    if ← anaContains candidate av then return true else containsAny candidate avs

/-- The candidates of one number of symbols.  Models src/lib.rs:1280-1289. -/
def insertionCandidates (anavalues : List Nat) : List Nat → List Nat → Res (List Nat)
  | [], nearest => .ok nearest
  | candidate :: candidates, nearest => do
    if ← containsAny candidate anavalues then
      insertionCandidates anavalues candidates (setInsert candidate nearest)
    else insertionCandidates anavalues candidates nearest

/-- The loop over the lookups, in the order given.  Models src/lib.rs:1278-1291. -/
def lookupLoop (sortedindex : HMap Nat (List Nat)) :
    List (Nat × List Nat) → List Nat → Res (List Nat)
  | [], nearest => .ok nearest
  | (key, anavalues) :: lookups, nearest =>
    match sortedindex.get? key with
    | none => lookupLoop sortedindex lookups nearest
    | some candidates => do
      let nearest ← insertionCandidates anavalues candidates nearest
      lookupLoop sortedindex lookups nearest

/-- Whether the search stops at the anagrams of the query.  Models src/lib.rs:1160-1177. -/
def stopsEarly (m : Vm) (node : AnaIndexNode) (stop : StopCriterion) : Bool :=
  stop = .stopAtExactMatch && node.instances.any fun id => (m.decoder[id]?).isSome

/-- An iteration order of the map of lookups: any permutation of its entries. -/
structure LookupOrder where
  order : List (Nat × List Nat) → List (Nat × List Nat)
  perm : ∀ l, (order l).Perm l

/-- The part of `find_nearest_anahashes` after the test for the exact match; `nearest` is the result
so far.  Models src/lib.rs:1179-1308. -/
def Vm.exhaustiveSearch (m : Vm) (o : LookupOrder) (focus maxDistance : Nat) (nearest : List Nat) :
    Res (List Nat) := do
  let asz ← m.alphabetSize
  let (upper, charcount) ← alphabetUpperBound focus asz
  if upper + 1 ≥ 256 then .error .overflow
  else
    let lookups ← schedule focus charcount 1 maxDistance []
    if upper + 2 ≥ 256 then .error .overflow
    else
      let cfg := recursiveCfg (upper + 2) (nearestParams maxDistance)
      let items ← (iterCollect cfg (iterFuel (upper + 2) focus) (iterInit focus)).getD
        (.error .explicit)
      let (nearest, lookups) ← deletionLoop m.index charcount maxDistance items nearest lookups
      lookupLoop m.sortedindex (o.order lookups) nearest

/-- `find_nearest_anahashes`; the result is the set as an ascending list.
Models src/lib.rs:1143-1308. -/
def Vm.findNearestAnahashes (m : Vm) (o : LookupOrder) (focus maxDistance : Nat)
    (stop : StopCriterion) : Res (List Nat) :=
  match m.index.get? focus with
  | some node =>
    if stopsEarly m node stop then .ok [focus] else m.exhaustiveSearch o focus maxDistance [focus]
  | none => m.exhaustiveSearch o focus maxDistance []

/-- `Distance`.  Models src/types.rs:289-305. -/
structure Distance where
  ld : Nat
  lcs : Nat
  prefixlen : Nat
  suffixlen : Nat
  samecase : Bool
  deriving DecidableEq, Repr

/-- `Weights`.  Models src/types.rs:39-55. -/
structure Weights where
  ld : Rat
  lcs : Rat
  pre : Rat
  suf : Rat
  case : Rat

/-- The default weights.  Models src/types.rs:57-67. -/
def Weights.default : Weights := ⟨1/2, 1/8, 1/8, 1/8, 1/8⟩

/-- `samecase` in `gather_instances`; `isLower` is `char::is_lowercase`, a table of the standard
library.  Models src/lib.rs:1367-1377. -/
def sameCase (isLower : Char → Bool) (w : Weights) (text query : List Char) : Res Bool :=
  if w.case > 0 then
    match text.head?, query.head? with
    | some a, some b => .ok (isLower a == isLower b)
    | _, _ => .error .expect
  else .ok true

/-- The loop over the instances of one anagram value.  Models src/lib.rs:1333-1391. -/
def Vm.gatherNode (m : Vm) (isLower : Char → Bool) (w : Weights) (querystring : List Nat)
    (query : List Char) (maxEditDistance : Nat) : List Nat → Res (List (Nat × Distance))
  | [] => .ok []
  | id :: ids =>
    match m.decoder[id]? with
    | none => .error .expect
    | some item => do
      match ← damerauLevenshtein querystring item.norm maxEditDistance with
      | some ld =>
        let lcs ← inU16 (if w.lcs > 0 then longestCommonSubstringLength querystring item.norm else 0)
        let prefixlen ← inU16 (if w.pre > 0 then commonPrefixLength querystring item.norm else 0)
        let suffixlen ← inU16 (if w.suf > 0 then commonSuffixLength querystring item.norm else 0)
        let samecase ← sameCase isLower w item.text query
        let distance : Distance := { ld, lcs, prefixlen, suffixlen, samecase }
        let rest ← m.gatherNode isLower w querystring query maxEditDistance ids
        return (id, distance) :: rest
      | none => m.gatherNode isLower w querystring query maxEditDistance ids

/-- `gather_instances`.  Models src/lib.rs:1311-1402. -/
def Vm.gatherInstances (m : Vm) (isLower : Char → Bool) (w : Weights) (querystring : List Nat)
    (query : List Char) (maxEditDistance : Nat) : List Nat → Res (List (Nat × Distance))
  | [] => .ok []
  | anahash :: rest =>
    match m.index.get? anahash with
    | none => .error .expect
    | some node => do
      let l ← m.gatherNode isLower w querystring query maxEditDistance node.instances
      let l' ← m.gatherInstances isLower w querystring query maxEditDistance rest
      return l ++ l'

/-- `DistanceThreshold`; a ratio is a finite `f32`.  Models src/types.rs:76-84. -/
inductive DistanceThreshold where
  | ratio (x : Rat)
  | ratioWithLimit (x : Rat) (limit : Nat)
  | absolute (x : Nat)

/-- src/lib.rs:43, 46 (both maxima are 12) -/
def MAX_DISTANCE : Nat := 12

/-- The distance used for an input of `len` symbols; `r` is the rounding of `f32`.  The halving is in
`f64` and exact for every length that fits in memory.  Models src/lib.rs:982-995 and (for the edit
distance) 1001-1014. -/
def effectiveDistance (r : Rounding) (len : Nat) : DistanceThreshold → Nat
  | .ratio x => min (castU8 ⌊r.rnd (r.rnd len * x)⌋) MAX_DISTANCE
  | .ratioWithLimit x limit => min (castU8 ⌊r.rnd (r.rnd len * x)⌋) limit
  | .absolute x => min x (castU8 (len / 2 : Nat))

/-- What the search depends on outside the modelled code: rounding in both formats,
`char::is_lowercase`, and the iteration order of the map of lookups. -/
structure Ext where
  f32 : Rounding
  f64 : Rounding
  isLower : Char → Bool
  lookups : LookupOrder

/-- The parameters of `find_variants`.  Models src/types.rs:110-170 (the fields used there);
`freqWeight` is an `f32`. -/
structure Params where
  maxAnagramDistance : DistanceThreshold
  maxEditDistance : DistanceThreshold
  maxMatches : Nat
  scoreThreshold : Rat
  cutoffThreshold : Rat
  stopCriterion : StopCriterion
  freqWeight : Rat

/-- The first half of `find_variants`: the normalised input and the candidates with their distances.
Models src/lib.rs:977-1018. -/
def Vm.findCandidates (m : Vm) (x : Ext) (w : Weights) (p : Params) (input : List Char) :
    Res (List Nat × List (Nat × Distance)) := do
  let normstring ← normalizeToAlphabet m.alphabet input
  let hash ← anahash m.alphabet input
  let anahashes ← m.findNearestAnahashes x.lookups hash
    (effectiveDistance x.f32 normstring.length p.maxAnagramDistance) p.stopCriterion
  let variants ← m.gatherInstances x.isLower w normstring input
    (effectiveDistance x.f32 normstring.length p.maxEditDistance) anahashes
  return (normstring, variants)

end Verif.Model
