import Verif.Model.Anahash

/-! # Deletion iterators that the library offers but does not use for lookup -/
namespace Verif.Model

/-- `SearchParams::default()`.  Models src/anahash.rs:272-282. -/
def SearchParams.default : SearchParams :=
  { minDistance := none, maxDistance := none, breadthfirst := false, allowDuplicates := true,
    allowEmptyLeaves := true }

/-- Initial state of `iter_recursive_external_cache`: the values in the cache of the caller count as
visited.  Models src/anahash.rs:231-248, src/iterators.rs:126-146 (`VisitedMap::External`); the settings
are those of `recursiveCfg`. -/
def iterInitCached (value : Nat) (cache : List Nat) : IterState := ⟨[(⟨value, 0⟩, 0)], cache⟩

/-- All items that `next` yields until it returns `None`, and the values that count as visited then, which
are what the cache of the caller holds; as `iterCollect`.  Models src/iterators.rs:61-93, 153-235. -/
def iterCollectCache (cfg : IterCfg) : Nat → IterState → Option (Res (List IterItem × List Nat))
  | 0, _ => none
  | fuel + 1, s =>
    match iterStep cfg s with
    | .error e => some (.error e)
    | .ok .done => some (.ok ([], s.visited))
    | .ok (.again s') => iterCollectCache cfg fuel s'
    | .ok (.yield i s') =>
      match iterCollectCache cfg fuel s' with
      | some (.ok (is, cache)) => some (.ok (i :: is, cache))
      | r => r

end Verif.Model
