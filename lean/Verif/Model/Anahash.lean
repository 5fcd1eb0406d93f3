import Verif.Model.Text

/-!
# Model of `src/anahash.rs` and `src/iterators.rs`
-/
namespace Verif.Model

/-- `PRIMES`.  Models src/types.rs:20-30. -/
def PRIMES : List Nat := [
  2, 3, 5, 7, 11, 13, 17, 19, 23, 29, 31, 37, 41, 43, 47, 53, 59, 61, 67, 71, 73, 79, 83, 89,
  97, 101, 103, 107, 109, 113, 127, 131, 137, 139, 149, 151, 157, 163, 167, 173, 179, 181, 191,
  193, 197, 199, 211, 223, 227, 229, 233, 239, 241, 251, 257, 263, 269, 271, 277, 281, 283,
  293, 307, 311, 313, 317, 331, 337, 347, 349, 353, 359, 367, 373, 379, 383, 389, 397, 401,
  409, 419, 421, 431, 433, 439, 443, 449, 457, 461, 463, 467, 479, 487, 491, 499, 503, 509,
  521, 523, 541, 547, 557, 563, 569, 571, 577, 587, 593, 599, 601, 607, 613, 617, 619, 631,
  641, 643, 647, 653, 659, 661, 673, 677, 683, 691, 701, 709, 719, 727, 733, 739, 743, 751,
  757, 761, 769, 773, 787, 797, 809, 811, 821, 823, 827, 829, 839, 853, 857, 859, 863, 877,
  881, 883, 887, 907, 911, 919, 929, 937, 941, 947, 953, 967, 971, 977, 983, 991, 997]

/-- `Alphabet = Vec<Vec<String>>`.  Models src/types.rs:35-37. -/
abbrev Alphabet := List (List (List Char))

/-- `AnaValue::character`; panics if the index is not in the table.
Models src/anahash.rs:141-143. -/
def character (seqnr : Nat) : Res Nat :=
  match PRIMES[seqnr]? with
  | some p => .ok p
  | none => .error .index

/-- `AnaValue::empty`.  Models src/anahash.rs:252-254. -/
def anaEmpty : Nat := 1

/-- `is_empty`.  Models src/anahash.rs:258-260. -/
def anaIsEmpty (v : Nat) : Bool := v = 1 || v = 0

/-- `insert`.  Models src/anahash.rs:146-152. -/
def anaInsert (self value : Nat) : Nat := if self = 0 then value else self * value

/-- `contains`; `%` by zero panics (zero is never larger than `self`).
Models src/anahash.rs:165-171. -/
def anaContains (self value : Nat) : Res Bool :=
  if value > self then .ok false
  else if value = 0 then .error .divZero
  else .ok (self % value = 0)

/-- `delete`.  Models src/anahash.rs:156-162. -/
def anaDelete (self value : Nat) : Res (Option Nat) :=
  match anaContains self value with
  | .error e => .error e
  | .ok true => .ok (some (self / value))
  | .ok false => .ok none

/-- Inner loop over the elements of one alphabet entry: number of characters of the first element
that the remaining text starts with.  Models src/anahash.rs:26-38 (and 61-72). -/
def matchElement (rest : List Char) : List (List Char) → Option Nat
  | [] => none
  | element :: elements =>
    match takeBytes rest (byteLen element) with
    | some slice => if slice = element then some element.length else matchElement rest elements
    | none => matchElement rest elements

/-- Loop `'abciter` over the alphabet: sequence number and number of characters of the first
element matching.  Models src/anahash.rs:25-39 (and 60-73). -/
def matchAlphabet (rest : List Char) : Alphabet → Nat → Option (Nat × Nat)
  | [], _ => none
  | chars :: alphabet, seqnr =>
    match matchElement rest chars with
    | some charlen => some (seqnr, charlen)
    | none => matchAlphabet rest alphabet (seqnr + 1)

/-- Main loop of `anahash` with the state `skip` and `hash`; `as CharIndexType` truncates to 8 bits;
`charlen - 1` underflows for an empty element.  Models src/anahash.rs:19-45. -/
def anahashLoop (alphabet : Alphabet) : List Char → Nat → Nat → Res Nat
  | [], _, hash => .ok hash
  | c :: cs, skip, hash =>
    if skip > 0 then anahashLoop alphabet cs (skip - 1) hash
    else
      match matchAlphabet (c :: cs) alphabet 0 with
      | some (seqnr, charlen) =>
        match character (seqnr % 256) with
        | .error e => .error e
        | .ok charvalue =>
          if charlen = 0 then .error .overflow
          else anahashLoop alphabet cs (charlen - 1) (anaInsert hash charvalue)
      | none =>
        match character (alphabet.length % 256) with
        | .error e => .error e
        | .ok charvalue => anahashLoop alphabet cs 0 (anaInsert hash charvalue)

/-- `anahash`.  Models src/anahash.rs:16-47. -/
def anahash (alphabet : Alphabet) (s : List Char) : Res Nat := anahashLoop alphabet s 0 anaEmpty

/-- Main loop of `normalize_to_alphabet`; `result` is built front to back.
`alphabet.len() as CharIndexType + 1` overflows at 255.  Models src/anahash.rs:53-78. -/
def normalizeLoop (alphabet : Alphabet) : List Char → Nat → Res (List Nat)
  | [], _ => .ok []
  | c :: cs, skip =>
    if skip > 0 then normalizeLoop alphabet cs (skip - 1)
    else
      match matchAlphabet (c :: cs) alphabet 0 with
      | some (seqnr, charlen) =>
        if charlen = 0 then .error .overflow
        else
          match normalizeLoop alphabet cs (charlen - 1) with
          | .error e => .error e
          | .ok result => .ok (seqnr % 256 :: result)
      | none =>
        if alphabet.length % 256 + 1 ≥ 256 then .error .overflow
        else
          match normalizeLoop alphabet cs 0 with
          | .error e => .error e
          | .ok result => .ok ((alphabet.length % 256 + 1) :: result)

/-- `normalize_to_alphabet`.  Models src/anahash.rs:50-80. -/
def normalizeToAlphabet (alphabet : Alphabet) (s : List Char) : Res (List Nat) :=
  normalizeLoop alphabet s 0

/-- `count_matches`.  The recursion of the code need not end; `fuel` bounds its depth and `none`
means that the bound was not enough.  Models src/anahash.rs:113-119. -/
def countMatches : Nat → Nat → Nat → Option (Res Nat)
  | 0, _, _ => none
  | fuel + 1, self, value =>
    match anaDelete self value with
    | .error e => some (.error e)
    | .ok (some result) =>
      match countMatches fuel result value with
      | some (.ok n) => some (.ok (1 + n))
      | r => r
    | .ok none => some (.ok 0)

/-! ## Iterators -/

/-- `DeletionResult`.  Models src/iterators.rs:38-41. -/
structure DeletionResult where
  value : Nat
  charindex : Nat
  deriving DecidableEq, Repr

/-- `DeletionIterator::next` on an iterator with `k = alphabet_size - iteration`; also returns the
new `k`.  Models src/iterators.rs:54-69. -/
def delNext (value : Nat) : Nat → Res (Option (DeletionResult × Nat))
  | 0 => .ok none
  | k + 1 =>
    if value = 1 then .ok none
    else
      match character k with
      | .error e => .error e
      | .ok c =>
        match anaDelete value c with
        | .error e => .error e
        | .ok (some result) => .ok (some (⟨result, k⟩, k))
        | .ok none => delNext value k

/-- All items of a `DeletionIterator` (`next` until `None`).  Models src/iterators.rs:54-69,
src/anahash.rs:207-209 (`iter_parents` with `k = alphabet_size`). -/
def delCollect (value : Nat) : Nat → Res (List DeletionResult)
  | 0 => .ok []
  | k + 1 =>
    if value = 1 then .ok []
    else
      match character k with
      | .error e => .error e
      | .ok c =>
        match anaDelete value c with
        | .error e => .error e
        | .ok (some result) =>
          match delCollect value k with
          | .error e => .error e
          | .ok rs => .ok (⟨result, k⟩ :: rs)
        | .ok none => delCollect value k

/-- Settings of a `RecurseDeletionIterator`.  Models src/iterators.rs:95-112. -/
structure IterCfg where
  alphabetSize : Nat
  singlebeam : Bool
  breadthfirst : Bool
  mindepth : Nat
  maxdepth : Option Nat
  emptyLeaves : Bool
  unique : Bool

/-- An item: deletion result and depth. -/
abbrev IterItem := DeletionResult × Nat

/-- Mutable state of a `RecurseDeletionIterator`; the front of the queue is the head of the list,
`visited` is the set of visited values.  Models src/iterators.rs:96, 111. -/
structure IterState where
  queue : List IterItem
  visited : List Nat

/-- What one pass of `next` does: end, continue with `self.next()`, or yield an item. -/
inductive IterStep where
  | done
  | again (s : IterState)
  | yield (i : IterItem) (s : IterState)

/-- `maxdepth.is_none() || depth < maxdepth`.  Models src/iterators.rs:161, 192. -/
def belowMax (cfg : IterCfg) (depth : Nat) : Bool :=
  match cfg.maxdepth with
  | none => true
  | some m => depth < m

/-- The end of both branches of `next`: skip or yield.  Models src/iterators.rs:177-184, 223-230. -/
def iterFinish (cfg : IterCfg) (node : DeletionResult) (depth : Nat) (s : IterState) : IterStep :=
  if depth < cfg.mindepth || (!cfg.emptyLeaves && anaIsEmpty node.value) then .again s
  else
    .yield (node, depth)
      { s with visited := if cfg.unique then node.value :: s.visited else s.visited }

/-- One pass of `next`, breadth first.  Models src/iterators.rs:156-187. -/
def iterStepBfs (cfg : IterCfg) (s : IterState) : Res IterStep :=
  match s.queue with
  | [] => .ok .done
  | (node, depth) :: queue =>
    if cfg.unique && s.visited.contains node.value then .ok (.again { s with queue := queue })
    else if belowMax cfg depth then
      match delCollect node.value cfg.alphabetSize with
      | .error e => .error e
      | .ok children =>
        let children :=
          if cfg.unique then children.filter (fun child => !s.visited.contains child.value)
          else children
        .ok (iterFinish cfg node depth
          { s with queue := queue ++ children.map (fun child => (child, depth + 1)) })
    else .ok (iterFinish cfg node depth { s with queue := queue })

/-- One pass of `next`, depth first.  Models src/iterators.rs:190-233. -/
def iterStepDfs (cfg : IterCfg) (s : IterState) : Res IterStep :=
  match s.queue.getLast? with
  | none => .ok .done
  | some (node, depth) =>
    let queue := s.queue.dropLast
    if belowMax cfg depth then
      if cfg.unique && s.visited.contains node.value then .ok (.again { s with queue := queue })
      else if cfg.singlebeam then
        match delNext node.value cfg.alphabetSize with
        | .error e => .error e
        | .ok (some (child, _)) =>
          .ok (iterFinish cfg node depth { s with queue := queue ++ [(child, depth + 1)] })
        | .ok none => .ok (iterFinish cfg node depth { s with queue := queue })
      else
        match delCollect node.value cfg.alphabetSize with
        | .error e => .error e
        | .ok children =>
          let children := children.reverse
          let children :=
            if cfg.unique then children.filter (fun child => !s.visited.contains child.value)
            else children
          .ok (iterFinish cfg node depth
            { s with queue := queue ++ children.map (fun child => (child, depth + 1)) })
    else .ok (iterFinish cfg node depth { s with queue := queue })

/-- One pass of `RecurseDeletionIterator::next`.  Models src/iterators.rs:153-235. -/
def iterStep (cfg : IterCfg) (s : IterState) : Res IterStep :=
  if cfg.breadthfirst then iterStepBfs cfg s else iterStepDfs cfg s

/-- All items that `next` yields until it returns `None`.  At most `fuel` passes are made; `none`
means that they did not suffice. -/
def iterCollect (cfg : IterCfg) : Nat → IterState → Option (Res (List IterItem))
  | 0, _ => none
  | fuel + 1, s =>
    match iterStep cfg s with
    | .error e => some (.error e)
    | .ok .done => some (.ok [])
    | .ok (.again s') => iterCollect cfg fuel s'
    | .ok (.yield i s') =>
      match iterCollect cfg fuel s' with
      | some (.ok is) => some (.ok (i :: is))
      | r => r

/-- Initial state: the root value at depth 0, nothing visited.
Models src/iterators.rs:126-146 (with an internal visited map). -/
def iterInit (value : Nat) : IterState := ⟨[(⟨value, 0⟩, 0)], []⟩

/-- Settings of `iter`.  Models src/anahash.rs:192-204. -/
def iterCfg (alphabetSize : Nat) : IterCfg :=
  { alphabetSize, singlebeam := true, breadthfirst := false, mindepth := 1, maxdepth := none,
    emptyLeaves := true, unique := false }

/-- `SearchParams`.  Models src/anahash.rs:264-270. -/
structure SearchParams where
  minDistance : Option Nat
  maxDistance : Option Nat
  breadthfirst : Bool
  allowDuplicates : Bool
  allowEmptyLeaves : Bool

/-- Settings of `iter_recursive`.  Models src/anahash.rs:212-228, src/iterators.rs:138. -/
def recursiveCfg (alphabetSize : Nat) (p : SearchParams) : IterCfg :=
  { alphabetSize, singlebeam := false, breadthfirst := p.breadthfirst,
    mindepth := p.minDistance.getD 1, maxdepth := p.maxDistance,
    emptyLeaves := p.allowEmptyLeaves, unique := !p.allowDuplicates }

/-- A number of passes that suffices (proved below for the uses in the library): the tree of
deletions has depth at most log₂ of the value and `alphabet_size` branches. -/
def iterFuel (alphabetSize value : Nat) : Nat := (alphabetSize + 1) ^ Nat.log2 value + 1

/-- `iter` collected; the fuel never runs out (theorem `iter_exact`).
Models src/anahash.rs:192-204. -/
def iterAll (value alphabetSize : Nat) : Res (List IterItem) :=
  (iterCollect (iterCfg alphabetSize) (Nat.log2 value + 2) (iterInit value)).getD (.error .explicit)

/-- `char_count`.  Models src/anahash.rs:108-110. -/
def charCount (value alphabetSize : Nat) : Res Nat :=
  match iterAll value alphabetSize with
  | .error e => .error e
  | .ok items => .ok (items.length % 65536)

/-- The loop of `alphabet_upper_bound`; `count` is a `u16` and overflows at 65536.
Models src/anahash.rs:129-134. -/
def upperBoundLoop : List IterItem → Nat → Nat → Res (Nat × Nat)
  | [], maxcharindex, count => .ok (maxcharindex, count)
  | (result, _) :: items, maxcharindex, count =>
    if count + 1 ≥ 65536 then .error .overflow
    else
      upperBoundLoop items (if result.charindex > maxcharindex then result.charindex else maxcharindex)
        (count + 1)

/-- `alphabet_upper_bound`.  Models src/anahash.rs:126-136. -/
def alphabetUpperBound (value alphabetSize : Nat) : Res (Nat × Nat) :=
  match iterAll value alphabetSize with
  | .error e => .error e
  | .ok items => upperBoundLoop items 0 0

end Verif.Model
