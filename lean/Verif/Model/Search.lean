import Verif.Model.Score

/-!
# Model of `src/search.rs`

Offsets are in bytes.  `char::is_alphabetic` and `char::is_whitespace` are tables of the standard
library and are parameters.
-/
namespace Verif.Model

/-- `rest.get(n..)`: what follows the first `n` bytes; `None` if `n` is beyond the end or not on a
character boundary. -/
def dropBytes : List Char → Nat → Option (List Char)
  | cs, 0 => some cs
  | [], _ + 1 => none
  | c :: cs, n + 1 => if c.utf8Size ≤ n + 1 then dropBytes cs (n + 1 - c.utf8Size) else none

/-- `&text[begin..end]`, which panics if the range is not ascending, not within the text, or not on
character boundaries. -/
def slice (text : List Char) (b e : Nat) : Res (List Char) :=
  if b > e then .error .index
  else
    match dropBytes text b with
    | none => .error .index
    | some rest =>
      match takeBytes rest (e - b) with
      | none => .error .index
      | some s => .ok s

/-- `Match` with its `Offset` (`first` is `offset.begin`, `last` is `offset.end`).  The fields
`prevboundary` and `nextboundary` are never set anywhere and are left out.
Models src/search.rs:8-13, 42-68. -/
structure Match where
  text : List Char
  first : Nat
  last : Nat
  variants : Option (List VariantResult) := none
  selected : Option Nat := none
  tag : List Nat := []
  seqnr : List Nat := []
  n : Nat := 0
  deriving DecidableEq

/-- `is_empty`.  Models src/search.rs:86-88. -/
def Match.isEmpty (m : Match) : Bool :=
  match m.variants with
  | none => true
  | some v => v.isEmpty

/-- `solution`; the `expect` fails if something is selected but there are no variants.
Models src/search.rs:91-100. -/
def Match.solution (m : Match) : Res (Option VariantResult) :=
  match m.selected with
  | none => .ok none
  | some i =>
    match m.variants with
    | none => .error .expect
    | some v => .ok v[i]?

/-- The loop of `internal_boundaries` over the boundaries from index `i` on, with the variables
`begin` and `end`.  Models src/search.rs:106-114. -/
def Match.internalLoop (m : Match) : Nat → List Match → Option Nat → Nat → Option Nat × Nat
  | _, [], b, e => (b, e)
  | i, boundary :: rest, b, e =>
    if boundary.first > m.first ∧ boundary.last < m.last then
      match b with
      | none => m.internalLoop (i + 1) rest (some i) e
      | some _ => m.internalLoop (i + 1) rest b (i + 1)
    else m.internalLoop (i + 1) rest b e

/-- `internal_boundaries`.  Models src/search.rs:103-120. -/
def Match.internalBoundaries (m : Match) (boundaries : List Match) : List Match :=
  match m.internalLoop 0 boundaries none 0 with
  | (none, _) => []
  | (some b, e) => if b ≥ e then [] else (boundaries.take e).drop b

/-- The loop of `find_boundaries` over the characters from byte `i` on.
Models src/search.rs:196-209. -/
def boundariesLoop (isAlpha : Char → Bool) (text : List Char) :
    List Char → Nat → Option Nat → List Match → Res (List Match × Option Nat)
  | [], _, b, acc => .ok (acc, b)
  | c :: cs, i, some b, acc =>
    if isAlpha c then do
      let t ← slice text b i
      boundariesLoop isAlpha text cs (i + c.utf8Size) none
        (acc ++ [({ text := t, first := b, last := i } : Match)])
    else boundariesLoop isAlpha text cs (i + c.utf8Size) (some b) acc
  | c :: cs, i, none, acc =>
    if !isAlpha c then boundariesLoop isAlpha text cs (i + c.utf8Size) (some i) acc
    else boundariesLoop isAlpha text cs (i + c.utf8Size) none acc

/-- `find_boundaries`.  Models src/search.rs:190-233. -/
def findBoundaries (isAlpha : Char → Bool) (text : List Char) : Res (List Match) := do
  let (acc, b) ← boundariesLoop isAlpha text text 0 none []
  match b with
  | some b => do
    let t ← slice text b (byteLen text)
    return acc ++ [({ text := t, first := b, last := byteLen text } : Match)]
  | none => return acc ++ [({ text := [], first := byteLen text, last := byteLen text } : Match)]

/-- `BoundaryStrength` (`None` is never assigned).  Models src/search.rs:177-185. -/
inductive Strength where
  | none | weak | normal | hard
  deriving DecidableEq, Repr

/-- The loop of `classify_boundaries` from index `i` on, for `len` boundaries.
Models src/search.rs:241-255. -/
def classifyLoop (len : Nat) : Nat → List Match → List Strength
  | _, [] => []
  | i, boundary :: rest =>
    (if i = len - 1 then .hard
    else if byteLen boundary.text > 1 then .hard
    else if boundary.text = ['\''] ∨ boundary.text = ['-'] ∨ boundary.text = ['_'] then .weak
    else .normal) :: classifyLoop len (i + 1) rest

/-- `classify_boundaries`.  Models src/search.rs:238-258. -/
def classifyBoundaries (boundaries : List Match) : List Strength :=
  classifyLoop boundaries.length 0 boundaries

/-- A new n-gram unless the text is empty or a single space.  Models src/search.rs:279-289. -/
def ngramMatch (text : List Char) (order b e : Nat) : List Match :=
  if text ≠ [] ∧ text ≠ [' '] then [({ text, first := b, last := e, n := order } : Match)] else []

/-- The loop of `find_match_ngrams`; `bs` are the boundaries from index `i` on.  Returns the n-grams
and the final value of `begin`.  Models src/search.rs:274-292. -/
def ngramLoop (text : List Char) (order e : Nat) : List Match → Nat → List Match →
    Res (List Match × Nat)
  | [], b, acc => .ok (acc, b)
  | b0 :: bs, b, acc =>
    match (b0 :: bs)[order - 1]? with
    | none => .ok (acc, b)
    | some boundary =>
      if boundary.first > e then .ok (acc, b)
      else do
        let t ← slice text b boundary.first
        ngramLoop text order e bs b0.last (acc ++ ngramMatch t order b boundary.first)

/-- `find_match_ngrams`; order 0 underflows in the first index.  Models src/search.rs:262-313. -/
def findMatchNgrams (text : List Char) (boundaries : List Match) (order b : Nat)
    (e : Option Nat) : Res (List Match) :=
  if order = 0 then .error .overflow
  else do
    let e := e.getD (byteLen text)
    let (acc, b) ← ngramLoop text order e boundaries b []
    if b < e then
      let t ← slice text b e
      return acc ++ (ngramMatch t order b e).filter fun g =>
        (g.internalBoundaries boundaries).length == order
    else return acc

/-- `redundant_match`.  Models src/search.rs:317-336. -/
def redundantMatch (candidate : Match) : List Match → Bool
  | [] => true
  | refmatch :: rest =>
    if refmatch.n = 1 then
      if refmatch.first ≥ candidate.first ∧ refmatch.last ≤ candidate.last then
        match refmatch.variants with
        | some (v :: _) => if v.distScore < 1 then false else redundantMatch candidate rest
        | some [] => false
        | none => false
      else redundantMatch candidate rest
    else true

/-- The table `bytes2unicodepoints` for the characters from number `k` on, without the final entry.
Models src/search.rs:531-539. -/
def unicodeTable : List Char → Nat → List (Option Nat)
  | [], _ => []
  | c :: cs, k => some k :: List.replicate (c.utf8Size - 1) none ++ unicodeTable cs (k + 1)

/-- A lookup in the table, with both `expect`s.  Models src/search.rs:17-26, 27-36. -/
def convertOffset (map : List (Option Nat)) (i : Nat) : Res Nat :=
  match map[i]? with
  | some (some k) => .ok k
  | _ => .error .expect

/-- `remap_offsets_to_unicodepoints` given the table.  Models src/search.rs:542-545. -/
def remapLoop (map : List (Option Nat)) : List Match → Res (List Match)
  | [] => .ok []
  | m :: ms => do
    let first ← convertOffset map m.first
    let last ← convertOffset map m.last
    let rest ← remapLoop map ms
    return { m with first, last } :: rest

/-- `remap_offsets_to_unicodepoints`.  Models src/search.rs:527-546. -/
def remapOffsets (text : List Char) (ms : List Match) : Res (List Match) :=
  remapLoop (unicodeTable text 0 ++ [some text.length]) ms

/-! ## Context rules -/

/-- `PatternMatch`.  Models src/search.rs:339-352. -/
inductive PatternMatch where
  | vocab (id : Nat)
  | any
  | noLexicon
  | fromLexicon (i : Nat)
  | not (p : PatternMatch)
  | disjunction (ps : List PatternMatch)

mutual
/-- `PatternMatch::matches`; the shift of a `u32` panics from 32 on.
Models src/search.rs:373-411. -/
def PatternMatch.fits (sequence : List (Nat × Nat)) (index : Nat) : PatternMatch → Res Bool
  | .any => .ok true
  | .noLexicon =>
    match sequence[index]? with
    | some (vocabid, lexindex) => .ok (lexindex == 0 || vocabid == 0)
    | none => .ok false
  | .vocab testvocabid =>
    match sequence[index]? with
    | some (vocabid, _) => .ok (testvocabid == vocabid)
    | none => .ok false
  | .fromLexicon lextest =>
    match sequence[index]? with
    | some (_, lexindex) =>
      if lextest ≥ 32 then .error .overflow
      else .ok (lexindex &&& (1 <<< lextest) == 1 <<< lextest)
    | none => .ok false
  | .not p => do
    let b ← p.fits sequence index
    return !b
  | .disjunction ps => PatternMatch.fitsAny sequence index ps

/-- The loop over a disjunction.  Models src/search.rs:403-407. -/
def PatternMatch.fitsAny (sequence : List (Nat × Nat)) (index : Nat) :
    List PatternMatch → Res Bool
  | [] => .ok false
  | p :: ps => do
    if ← p.fits sequence index then return true else PatternMatch.fitsAny sequence index ps
end

/-- `str::trim`. -/
def trim (isSpace : Char → Bool) (s : List Char) : List Char :=
  ((s.dropWhile isSpace).reverse.dropWhile isSpace).reverse

/-- `str::split` on one character. -/
def splitChar (sep : Char) : List Char → List (List Char)
  | [] => [[]]
  | c :: cs =>
    if c = sep then [] :: splitChar sep cs
    else
      match splitChar sep cs with
      | [] => [[c]]
      | w :: ws => (c :: w) :: ws

/-- Index of the lexicon a pattern names, from index `i` on: equal, or ending in `/` and the name.
Models src/search.rs:446-450. -/
def findLexicon (source : List Char) : Nat → List (List Char) → Option Nat
  | _, [] => none
  | i, lexicon :: rest =>
    if source = lexicon ∨ ('/' :: source).isSuffixOf lexicon = true then some (i % 256)
    else findLexicon source (i + 1) rest

/-- `parse`, with bounded recursion (each call is on a shorter text; theorem `parse_fuel`).  `none` is
the error.  Models src/search.rs:413-458. -/
def PatternMatch.parseAux (isSpace : Char → Bool) (lexicons : List (List Char))
    (encoder : HMap (List Char) Nat) : Nat → List Char → Option PatternMatch
  | 0, _ => none
  | fuel + 1, s =>
    let s := trim isSpace s
    if s = ['?'] then some .any
    else if s = ['^'] then some .noLexicon
    else if ['!', '('].isPrefixOf s ∧ [')'].isSuffixOf s then
      (PatternMatch.parseAux isSpace lexicons encoder fuel (s.drop 2).dropLast).map .not
    else if s.contains '|' then
      ((splitChar '|' s).mapM (PatternMatch.parseAux isSpace lexicons encoder fuel)).map
        .disjunction
    else
      match s with
      | '!' :: s' => (PatternMatch.parseAux isSpace lexicons encoder fuel s').map .not
      | '@' :: source => (findLexicon source 0 lexicons).map .fromLexicon
      | _ => (encoder.get? s).map .vocab

/-- `PatternMatch::parse`.  Models src/search.rs:413-458. -/
def PatternMatch.parse (isSpace : Char → Bool) (lexicons : List (List Char))
    (encoder : HMap (List Char) Nat) (s : List Char) : Option PatternMatch :=
  PatternMatch.parseAux isSpace lexicons encoder (s.length + 1) s

/-- `ContextRule`.  Models src/search.rs:355-363. -/
structure ContextRule where
  pattern : List PatternMatch
  score : Rat
  tag : List Nat
  tagoffset : List (Nat × Nat)

/-- `PatternMatchResult`.  Models src/search.rs:366-370. -/
structure PatternMatchResult where
  score : Rat
  tag : Option Nat
  seqnr : Nat
  deriving DecidableEq

/-- The test loop of `ContextRule::matches` from `cursor` on.  Models src/search.rs:483-490. -/
def ContextRule.testLoop (sequence : List (Nat × Nat)) (b : Nat)
    (results : List (List PatternMatchResult)) : Nat → List PatternMatch → Res Bool
  | _, [] => .ok true
  | cursor, p :: ps =>
    match results[b + cursor]? with
    | none => .error .index
    | some r =>
      if !r.isEmpty then .ok false
      else do
        if ← p.fits sequence (b + cursor) then
          ContextRule.testLoop sequence b results (cursor + 1) ps
        else return false

/-- The tags of one position; `cursor as u8` truncates, and the end of the tag is a `u8` sum.
Models src/search.rs:500-516. -/
def ContextRule.tagsAt (score : Rat) (cursor : Nat) :
    List (Nat × (Nat × Nat)) → Res (List PatternMatchResult)
  | [] => .ok []
  | (tag, (offset, len)) :: rest =>
    if cursor % 256 ≥ offset then
      if offset + len ≥ 256 then .error .overflow
      else if cursor % 256 < offset + len then do
        let rs ← ContextRule.tagsAt score cursor rest
        return ⟨score, some tag, cursor % 256 - offset⟩ :: rs
      else ContextRule.tagsAt score cursor rest
    else ContextRule.tagsAt score cursor rest

/-- What is stored at one position.  Models src/search.rs:493-517. -/
def ContextRule.resultAt (rule : ContextRule) (cursor : Nat) : Res (List PatternMatchResult) :=
  if rule.tag.isEmpty then .ok [⟨rule.score, none, cursor % 256⟩]
  else ContextRule.tagsAt rule.score cursor (rule.tag.zip rule.tagoffset)

/-- Storing the results from `cursor` on, for `n` positions.  Models src/search.rs:492-518. -/
def ContextRule.storeLoop (rule : ContextRule) (b : Nat) :
    Nat → Nat → List (List PatternMatchResult) → Res (List (List PatternMatchResult))
  | _, 0, results => .ok results
  | cursor, n + 1, results => do
    let r ← rule.resultAt cursor
    ContextRule.storeLoop rule b (cursor + 1) n (results.set (b + cursor) r)

/-- `ContextRule::matches`: new results and returned flag.  Models src/search.rs:472-523. -/
def ContextRule.apply (rule : ContextRule) (sequence : List (Nat × Nat)) (b : Nat)
    (results : List (List PatternMatchResult)) : Res (List (List PatternMatchResult) × Bool) :=
  if sequence.length ≠ results.length then .error .assertion
  else if b + rule.pattern.length > sequence.length then .ok (results, false)
  else do
    if ← ContextRule.testLoop sequence b results 0 rule.pattern then
      let results ← rule.storeLoop b 0 rule.pattern.length results
      return (results, true)
    else return (results, false)

end Verif.Model
