import Verif.Model.Base

/-!
# Model of `src/distance.rs`

A normalised string (`&[CharIndexType]`, `CharIndexType = u8`) is a `List Nat`.  `usize` is `Nat`.
-/
namespace Verif.Model

/-- The choice among the three neighbours in the inner loop of `levenshtein`:
`distance_a` is the cell above, `distance_b` the diagonal plus cost, `result` the cell to the
left.  Models src/distance.rs:61-71. -/
def levCell (distanceA distanceB result : Nat) : Nat :=
  if distanceA > result then
    if distanceB > result then result + 1 else distanceB
  else if distanceB > distanceA then distanceA + 1
  else distanceB

/-- Inner loop of `levenshtein` over `a` together with `cache` (same length), returning the
new cache and the final `result`.  Models src/distance.rs:52-74. -/
def levInner (elemB : Nat) : List Nat → List Nat → Nat → Nat → List Nat × Nat
  | elemA :: as, c :: cs, distanceA, result =>
    let distanceB := if elemA = elemB then distanceA else distanceA + 1
    let r := levCell c distanceB result
    let (cs', res) := levInner elemB as cs c r
    (r :: cs', res)
  | _, cs, _, result => (cs, result)

/-- Outer loop of `levenshtein` over `b`, from index `indexB`.  Models src/distance.rs:48-75. -/
def levOuter (a : List Nat) : List Nat → Nat → List Nat → Nat → Nat
  | [], _, _, result => result
  | elemB :: bs, indexB, cache, _ =>
    let (cache', result') := levInner elemB a cache indexB indexB
    levOuter a bs (indexB + 1) cache' result'

/-- `levenshtein`.  Models src/distance.rs:7-82.  The function cannot panic: `cache[index_a]` is
indexed in step with `a` and `cache` has the length of `a`; here this is expressed by walking
both lists together. -/
def levenshtein (a b : List Nat) (maxDistance : Nat) : Option Nat :=
  if a = b then some 0
  else if a.length = 0 then
    if b.length > maxDistance then none else some (b.length % 256)
  else if a.length > b.length ∧ a.length - b.length > maxDistance then none
  else if b.length = 0 then
    if a.length > maxDistance then none else some (a.length % 256)
  else if b.length > a.length ∧ b.length - a.length > maxDistance then none
  else
    let result := levOuter a b 0 ((List.range a.length).map (· + 1)) 0
    if result > maxDistance then none else some (result % 256)

/-- `min4`.  Models src/distance.rs:234-236. -/
def min4 (a b c d : Nat) : Nat := min (min (min a b) c) d

/-- The matrix `mat` of `damerau_levenshtein` as a function of row and column.  Bounds are
checked by the guard in `dlInner`. -/
abbrev Mat := Nat → Nat → Nat

/-- Assignment `mat[i][j] = v`. -/
def Mat.put (m : Mat) (i j v : Nat) : Mat := fun x y => if x = i ∧ y = j then v else m x y

/-- Initialisation of the matrix.  Models src/distance.rs:135-144 (row 0 and column 0 hold the
upper bound, row 1 and column 1 hold 0,1,2,…, everything else 0). -/
def dlInit (ub : Nat) : Mat := fun x y =>
  if x = 0 ∨ y = 0 then ub else if y = 1 then x - 1 else if x = 1 then y - 1 else 0

/-- Inner loop of `damerau_levenshtein`, for row `i` (1-based), over the rest of `t` starting at
0-based index `j0`.  `charMap` is the hash map (absent = `none`).  The guard collects every index
and subtraction of lines 157-162: the matrix has `lenS + 2` rows of `lenT + 2` columns.
Models src/distance.rs:152-168. -/
def dlInner (lenS lenT i sChar : Nat) (charMap : Nat → Option Nat) :
    List Nat → Nat → Nat → Mat → Res Mat
  | [], _, _, m => .ok m
  | tChar :: ts, j0, db, m =>
    let j := j0 + 1
    let last := (charMap tChar).getD 0
    let cost := if sChar = tChar then 0 else 1
    if i + 1 < lenS + 2 ∧ j + 1 < lenT + 2 ∧ last < lenS + 2 ∧ db < lenT + 2 then
      if last + 1 ≤ i ∧ db + 1 ≤ j then
        let v := min4 (m (i + 1) j + 1) (m i (j + 1) + 1) (m i j + cost)
          (m last db + (i - last - 1) + 1 + (j - db - 1))
        dlInner lenS lenT i sChar charMap ts j (if cost = 0 then j else db) (m.put (i + 1) (j + 1) v)
      else .error .overflow
    else .error .index

/-- Outer loop of `damerau_levenshtein` over the rest of `s` from 0-based index `i0`.
The map stores `i as CharIndexType`, i.e. modulo 256.  Models src/distance.rs:148-171. -/
def dlOuter (lenS lenT : Nat) (t : List Nat) :
    List Nat → Nat → (Nat → Option Nat) → Mat → Res Mat
  | [], _, _, m => .ok m
  | sChar :: ss, i0, charMap, m =>
    match dlInner lenS lenT (i0 + 1) sChar charMap t 0 0 m with
    | .error e => .error e
    | .ok m' =>
      dlOuter lenS lenT t ss (i0 + 1)
        (fun c => if c = sChar then some ((i0 + 1) % 256) else charMap c) m'

/-- `damerau_levenshtein`.  Models src/distance.rs:101-179. -/
def damerauLevenshtein (s t : List Nat) (maxDistance : Nat) : Res (Option Nat) :=
  if s.length = 0 then
    .ok (if t.length > maxDistance then none else some (t.length % 256))
  else if s.length > t.length ∧ s.length - t.length > maxDistance then .ok none
  else if t.length = 0 then
    .ok (if s.length > maxDistance then none else some (s.length % 256))
  else if t.length > s.length ∧ t.length - s.length > maxDistance then .ok none
  else
    match dlOuter s.length t.length t s 0 (fun _ => none) (dlInit (t.length + s.length)) with
    | .error e => .error e
    | .ok m =>
      let result := m (s.length + 1) (t.length + 1)
      .ok (if result > maxDistance then none else some (result % 256))

/-- The counters of `longest_common_substring_length`, `common_prefix_length` and
`common_suffix_length` are of type `u16` and grow by one per equal symbol, so one of them overflows
exactly when the length counted does not fit: `n` is the length as it would be with unbounded
counters.  Models src/distance.rs:181-182, 188, 208-209, 213, 221-222, 226. -/
def inU16 (n : Nat) : Res Nat := if n < 65536 then .ok n else .error .overflow

/-- The `while` loop of `longest_common_substring_length`: number of equal symbols from
positions `tmp_i`, `tmp_j` on, given the remaining parts of both strings.
Models src/distance.rs:187-195. -/
def lcsRun : List Nat → List Nat → Nat
  | x :: xs, y :: ys => if x = y then lcsRun xs ys + 1 else 0
  | _, _ => 0

/-- Loop over `j` for fixed `i`; the first argument is `s1[i..]`, the second `s2[j..]`.
The value is a `u16`, which is incremented by one per equal symbol; see `inU16`.  Models src/distance.rs:185-201. -/
def lcsInner (xs : List Nat) : List Nat → Nat → Nat
  | [], lcs => lcs
  | y :: ys, lcs =>
    let tmp := lcsRun xs (y :: ys)
    lcsInner xs ys (if tmp > lcs then tmp else lcs)

/-- `longest_common_substring_length`.  Models src/distance.rs:181-205.  (When
`s1[i] ≠ s2[j]` the run has length 0, and the update of `lcs` is void.) -/
def lcsOuter (s2 : List Nat) : List Nat → Nat → Nat
  | [], lcs => lcs
  | x :: xs, lcs => lcsOuter s2 xs (lcsInner (x :: xs) s2 lcs)

/-- `longest_common_substring_length`.  Models src/distance.rs:181-205. -/
def longestCommonSubstringLength (s1 s2 : List Nat) : Nat := lcsOuter s2 s1 0

/-- `common_prefix_length`.  Models src/distance.rs:208-218; both slices are walked in step, which
is what the loop up to the smaller length does. -/
def commonPrefixLength : List Nat → List Nat → Nat
  | x :: xs, y :: ys => if x = y then commonPrefixLength xs ys + 1 else 0
  | _, _ => 0

/-- Loop of `common_suffix_length` at step `i`, `fuel` steps left.
Models src/distance.rs:223-229, with the index expressions of the code. -/
def suffixLoop (s1 s2 : List Nat) : Nat → Nat → Nat → Nat
  | 0, _, n => n
  | fuel + 1, i, n =>
    if s1[s1.length - i - 1]? = s2[s2.length - i - 1]? then suffixLoop s1 s2 fuel (i + 1) (n + 1)
    else n

/-- `common_suffix_length`.  Models src/distance.rs:221-231. -/
def commonSuffixLength (s1 s2 : List Nat) : Nat :=
  suffixLoop s1 s2 (min s1.length s2.length) 0 0

end Verif.Model
