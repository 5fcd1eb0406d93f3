import Verif.Model.Score

/-!
# Model of what the level of debugging adds to `find_variants` and to reading an alphabet

The other models describe the levels 0 and 1, at which there are only messages.  Here the level is a
parameter.  The measurement of time (from level 2, src/lib.rs:1151-1156, 1297-1305) is not modelled: it
panics if the clock goes backwards.
-/
namespace Verif.Model

/-- The first string of a line of the alphabet.  Models src/lib.rs:351-356. -/
def firstString (alphabet : Alphabet) (charindex : Nat) : Res (List Char) :=
  match alphabet[charindex]? with
  | none => .error .expect
  | some line => match line.head? with
    | none => .error .expect
    | some s => .ok s

/-- The loop of `decompose_anavalue`.  Models src/lib.rs:348-358. -/
def decomposeLoop (alphabet : Alphabet) : List IterItem → Res (List (List Char))
  | [] => .ok []
  | x :: items => do
    let s ← firstString alphabet x.1.charindex
    let rest ← decomposeLoop alphabet items
    return s :: rest

/-- `decompose_anavalue`.  Models src/lib.rs:345-360. -/
def Vm.decomposeAnavalue (m : Vm) (av : Nat) : Res (List (List Char)) := do
  let asz ← m.alphabetSize
  let items ← iterAll av asz
  decomposeLoop m.alphabet items

/-- The message about a deletion.  Models src/lib.rs:1219-1230. -/
def Vm.showDeletion (m : Vm) (level deletion : Nat) : Res Unit :=
  if level ≥ 4 then do
    let _ ← m.decomposeAnavalue deletion
    return ()
  else .ok ()

/-- The loop over the deletions (`deletionLoop`), at a level of debugging.  Models src/lib.rs:1218-1271. -/
def Vm.deletionLoopAt (m : Vm) (level charcount maxDistance : Nat) :
    List IterItem → List Nat → HMap Nat (List Nat) → Res (List Nat × HMap Nat (List Nat))
  | [], nearest, lookups => .ok (nearest, lookups)
  | (deletion, distance) :: items, nearest, lookups => do
    m.showDeletion level deletion.value
    let nearest :=
      match m.index.get? deletion.value with
      | some _ => setInsert deletion.value nearest
      | none => nearest
    if distance > charcount ∨ distance > maxDistance then .error .overflow
    else do
      let lookups ← schedule deletion.value (charcount - distance) 1 (maxDistance - distance) lookups
      m.deletionLoopAt level charcount maxDistance items nearest lookups

/-- `exhaustiveSearch` at a level of debugging.  Models src/lib.rs:1179-1308. -/
def Vm.exhaustiveSearchAt (m : Vm) (level : Nat) (o : LookupOrder) (focus maxDistance : Nat)
    (nearest : List Nat) : Res (List Nat) := do
  let asz ← m.alphabetSize
  let (upper, charcount) ← alphabetUpperBound focus asz
  if upper + 1 ≥ 256 then .error .overflow
  else
    let lookups ← schedule focus charcount 1 maxDistance []
    if upper + 2 ≥ 256 then .error .overflow
    else
      let cfg := recursiveCfg (upper + 2) (nearestParams maxDistance)
      let items ← (iterCollect cfg (iterFuel (upper + 2) focus) (iterInit focus)).getD
        (.error .explicit)
      let (nearest, lookups) ← m.deletionLoopAt level charcount maxDistance items nearest lookups
      lookupLoop m.sortedindex (o.order lookups) nearest

/-- `find_nearest_anahashes` at a level of debugging.  Models src/lib.rs:1143-1308. -/
def Vm.findNearestAt (m : Vm) (level : Nat) (o : LookupOrder) (focus maxDistance : Nat)
    (stop : StopCriterion) : Res (List Nat) :=
  match m.index.get? focus with
  | some node =>
    if stopsEarly m node stop then .ok [focus]
    else m.exhaustiveSearchAt level o focus maxDistance [focus]
  | none => m.exhaustiveSearchAt level o focus maxDistance []

/-- `find_variants` at a level of debugging.  Models src/lib.rs:972-1027. -/
def Vm.findVariantsAt (m : Vm) (level : Nat) (x : Ext) (cfg : Config) (p : Params)
    (input : List Char) : Res (List VariantResult) :=
  if m.index.isEmpty then .ok []
  else do
    let normstring ← normalizeToAlphabet m.alphabet input
    let hash ← anahash m.alphabet input
    let anahashes ← m.findNearestAt level x.lookups hash
      (effectiveDistance x.f32 normstring.length p.maxAnagramDistance) p.stopCriterion
    let variants ← m.gatherInstances x.isLower cfg.weights normstring input
      (effectiveDistance x.f32 normstring.length p.maxEditDistance) anahashes
    m.scoreAndRank x.f64 cfg p input normstring.length variants

/-- The messages about the lines of the alphabet from the line with index `i` on; the index is cast to
a `u8`.  Models src/lib.rs:399-402. -/
def showLines (i : Nat) : Alphabet → Res Unit
  | [] => .ok ()
  | _ :: lines => do
    let _ ← character (i % 256)
    showLines (i + 1) lines

/-- The end of `read_alphabet`, at a level of debugging.  Models src/lib.rs:397-406. -/
def showAlphabet (level : Nat) (alphabet : Alphabet) : Res Unit :=
  if level ≥ 2 then showLines 0 alphabet else .ok ()

end Verif.Model
