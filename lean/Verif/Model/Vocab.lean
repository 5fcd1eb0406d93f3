import Mathlib.Data.List.Sort
import Verif.Model.Anahash
import Verif.Model.HMap
import Verif.Model.NGram
import Mathlib.Data.Rat.Defs

/-!
# Model of the vocabulary (`src/vocab.rs`, `src/index.rs` and the vocabulary part of `src/lib.rs`)
-/
namespace Verif.Model

/-- `VocabType`, a set of three flags.  Models src/vocab.rs:31-49. -/
structure VocabType where
  indexed : Bool := false
  lm : Bool := false
  transparent : Bool := false
  deriving DecidableEq, Repr

namespace VocabType

/-- src/vocab.rs:36 -/
def NONE : VocabType := {}
/-- src/vocab.rs:39 -/
def INDEXED : VocabType := { indexed := true }
/-- src/vocab.rs:42 -/
def LM : VocabType := { lm := true }
/-- src/vocab.rs:47 -/
def TRANSPARENT : VocabType := { transparent := true }

/-- `check`: all flags of `test` are set.  Models src/vocab.rs:52-54. -/
def check (self test : VocabType) : Bool :=
  (!test.indexed || self.indexed) && (!test.lm || self.lm) &&
    (!test.transparent || self.transparent)

/-- `|`, as used in `p.vocab_type |= VocabType::TRANSPARENT` (src/lib.rs:791) -/
def union (a b : VocabType) : VocabType :=
  ⟨a.indexed || b.indexed, a.lm || b.lm, a.transparent || b.transparent⟩

/-- `^`, as used in `item.vocabtype ^= VocabType::TRANSPARENT` (src/lib.rs:939) -/
def xor (a b : VocabType) : VocabType :=
  ⟨a.indexed ^^ b.indexed, a.lm ^^ b.lm, a.transparent ^^ b.transparent⟩

end VocabType

/-- `VariantReference`.  Scores are rational numbers.  Models src/types.rs:315-323. -/
inductive VariantReference where
  | referenceFor (id : Nat) (score : Rat)
  | variantOf (id : Nat) (score : Rat)
  deriving DecidableEq

/-- `VocabValue`.  Models src/vocab.rs:8-29. -/
structure VocabValue where
  text : List Char
  norm : List Nat
  frequency : Nat
  tokencount : Nat
  lexindex : Nat
  variants : Option (List VariantReference)
  vocabtype : VocabType
  deriving DecidableEq

/-- Number of spaces in a text (`text.chars().filter(|c| *c == ' ').count()`). -/
def spaces (text : List Char) : Nat := text.countP (· == ' ')

/-- `VocabValue::new`; unlike `add_to_vocabulary` it does not add one to the token count.
Models src/vocab.rs:64-75. -/
def VocabValue.new (text : List Char) (vocabtype : VocabType) : VocabValue :=
  { text, norm := [], frequency := 1, tokencount := spaces text % 256, lexindex := 0,
    variants := none, vocabtype }

/-- `in_lexicon`; the shift panics from 32 on.  Models src/vocab.rs:77-79. -/
def VocabValue.inLexicon (self : VocabValue) (index : Nat) : Res Bool :=
  if index ≥ 32 then .error .overflow
  else .ok (self.lexindex &&& (1 <<< index) = 1 <<< index)

/-- Loop of `lexindex_as_vec`: pushes `i`, `i + 1`, … for `n` rounds.  Models src/vocab.rs:83-87. -/
def VocabValue.lexindexLoop (self : VocabValue) : Nat → Nat → Res (List Nat)
  | _, 0 => .ok []
  | i, n + 1 => do
    let b ← self.inLexicon i
    let rest ← self.lexindexLoop (i + 1) n
    return if b then i :: rest else rest

/-- `lexindex_as_vec`.  Models src/vocab.rs:81-89. -/
def VocabValue.lexindexAsVec (self : VocabValue) : Res (List Nat) := self.lexindexLoop 0 31

/-- `FrequencyHandling`.  Models src/vocab.rs:101-106. -/
inductive FrequencyHandling where
  | sum | max | min | replace
  deriving DecidableEq, Repr

/-- `VocabParams` (the columns concern the file reader).  Models src/vocab.rs:109-120. -/
structure VocabParams where
  textColumn : Nat := 0
  freqColumn : Option Nat := some 1
  freqHandling : FrequencyHandling := .max
  vocabType : VocabType := .INDEXED
  index : Nat := 0
  deriving DecidableEq

/-- src/vocab.rs:145 -/
def BOS : Nat := 0
/-- src/vocab.rs:146 -/
def EOS : Nat := 1
/-- src/vocab.rs:147 -/
def UNK : Nat := 2

/-- `AnaIndexNode`.  Models src/index.rs:8-12. -/
structure AnaIndexNode where
  instances : List Nat
  charcount : Nat
  deriving DecidableEq

/-- The part of `VariantModel` that vocabulary, index and language model consist of.  Weights,
confusables and context rules are passed separately to the functions that use them.  `index`,
`encoder`, `ngrams` are hash maps, `sortedindex` is a B-tree map.  Models src/lib.rs:50-100. -/
structure Vm where
  alphabet : Alphabet
  decoder : List VocabValue
  encoder : HMap (List Char) Nat
  index : HMap Nat AnaIndexNode
  sortedindex : HMap Nat (List Nat)
  ngrams : HMap NGram Nat
  freqSum : List Nat
  haveFreq : Bool
  haveLm : Bool
  lexicons : List (List Char)

/-- A reserved entry of `init_vocab`.  Models src/vocab.rs:151-159. -/
def reserved (text : List Char) : VocabValue :=
  { text, norm := [], frequency := 0, tokencount := 1, lexindex := 0, variants := none,
    vocabtype := .NONE }

/-- src/vocab.rs:152 -/
def bosText : List Char := ['<', 'b', 'o', 's', '>']
/-- src/vocab.rs:161 -/
def eosText : List Char := ['<', 'e', 'o', 's', '>']
/-- src/vocab.rs:170 -/
def unkText : List Char := ['<', 'u', 'n', 'k', '>']

/-- `new_with_alphabet` (with `init_vocab`).  Models src/lib.rs:135-157, src/vocab.rs:150-181. -/
def Vm.new (alphabet : Alphabet) : Vm :=
  { alphabet
    decoder := [reserved bosText, reserved eosText, reserved unkText]
    encoder := HMap.insert (HMap.insert (HMap.insert [] bosText BOS) eosText EOS) unkText UNK
    index := []
    sortedindex := []
    ngrams := []
    freqSum := [0]
    haveFreq := false
    haveLm := false
    lexicons := [] }

/-- `alphabet_size`: `len() as u8 + 1`.  Models src/lib.rs:163-165. -/
def Vm.alphabetSize (m : Vm) : Res Nat :=
  if m.alphabet.length % 256 + 1 ≥ 256 then .error .overflow else .ok (m.alphabet.length % 256 + 1)

/-- The frequency update of `add_to_vocabulary`.  Models src/lib.rs:915-932. -/
def combineFreq (h : FrequencyHandling) (old new : Nat) : Res Nat :=
  match h with
  | .sum => if old + new ≥ 2 ^ 32 then .error .overflow else .ok (old + new)
  | .max => .ok (if new > old then new else old)
  | .min => .ok (if new < old then new else old)
  | .replace => .ok new

/-- The type update of `add_to_vocabulary`.  Models src/lib.rs:933-940. -/
def updateType (vocabId : Nat) (old params : VocabType) : VocabType :=
  if vocabId = BOS ∨ vocabId = EOS ∨ vocabId = UNK then .LM
  else if old.check .TRANSPARENT && !params.check .TRANSPARENT then old.xor .TRANSPARENT
  else old

/-- `1 << params.index` for a `u32`.  Models src/lib.rs:941, 958. -/
def shiftBit (index : Nat) : Res Nat := if index ≥ 32 then .error .overflow else .ok (1 <<< index)

/-- `add_to_vocabulary`.  Models src/lib.rs:900-967. -/
def Vm.addToVocabulary (m : Vm) (text : List Char) (frequency : Option Nat) (params : VocabParams) :
    Res (Vm × Nat) :=
  let frequency := frequency.getD 1
  match m.encoder.get? text with
  | some vocabId =>
    match m.decoder[vocabId]? with
    | none => .error .expect
    | some item => do
      let freq ← combineFreq params.freqHandling item.frequency frequency
      let bit ← shiftBit params.index
      let item' := { item with
        frequency := freq
        vocabtype := updateType vocabId item.vocabtype params.vocabType
        lexindex := item.lexindex ||| bit }
      return ({ m with decoder := m.decoder.set vocabId item' }, vocabId)
  | none => do
    let norm ← normalizeToAlphabet m.alphabet text
    let bit ← shiftBit params.index
    if spaces text % 256 + 1 ≥ 256 then .error .overflow
    else
      let item : VocabValue :=
        { text, norm, frequency, tokencount := spaces text % 256 + 1, lexindex := bit,
          variants := none, vocabtype := params.vocabType }
      return ({ m with
        encoder := m.encoder.insert text m.decoder.length
        decoder := m.decoder ++ [item] }, m.decoder.length)

/-- The first link of `add_variant_by_id`: add a `ReferenceFor` unless there is one for the same
variant.  Models src/lib.rs:481-493. -/
def linkReference (variantid : Nat) (score : Rat) (v : VocabValue) : VocabValue :=
  match v.variants with
  | none => { v with variants := some [.referenceFor variantid score] }
  | some refs =>
    if refs.any (fun x => match x with
      | .referenceFor y _ => variantid == y
      | _ => false) then v
    else { v with variants := some (refs ++ [.referenceFor variantid score]) }

/-- The second link of `add_variant_by_id`; the test compares the id of the *variant* with the ids
of the references present.  Models src/lib.rs:496-508. -/
def linkVariant (refId variantid : Nat) (score : Rat) (v : VocabValue) : VocabValue :=
  match v.variants with
  | none => { v with variants := some [.variantOf refId score] }
  | some refs =>
    if refs.any (fun x => match x with
      | .variantOf y _ => variantid == y
      | _ => false) then v
    else { v with variants := some (refs ++ [.variantOf refId score]) }

/-- `add_variant_by_id`; an id outside the decoder is ignored (`List.modify` does nothing then).
Models src/lib.rs:478-515. -/
def Vm.addVariantById (m : Vm) (refId variantid : Nat) (score : Rat) : Vm × Bool :=
  if variantid ≠ refId then
    let d := m.decoder.modify refId (linkReference variantid score)
    let d := d.modify variantid (linkVariant refId variantid score)
    ({ m with decoder := d }, true)
  else (m, false)

/-- `add_variant`.  Models src/lib.rs:460-470. -/
def Vm.addVariant (m : Vm) (refId : Nat) (variant : List Char) (score : Rat) (freq : Option Nat)
    (params : VocabParams) : Res (Vm × Bool) := do
  let (m, variantid) ← m.addToVocabulary variant freq params
  return m.addVariantById refId variantid score

/-! ## Building the index -/

/-- Anagram values of the indexed entries, with their ids, from id `id` on.
Models src/lib.rs:197-210. -/
def hashAll (alphabet : Alphabet) : Nat → List VocabValue → Res (List (Nat × Nat))
  | _, [] => .ok []
  | id, value :: values =>
    if value.vocabtype.check .INDEXED then do
      let h ← anahash alphabet value.text
      let rest ← hashAll alphabet (id + 1) values
      return (h, id) :: rest
    else hashAll alphabet (id + 1) values

/-- One round of filling the index (`get_or_create_index` and push).
Models src/lib.rs:168-188, 215-219. -/
def indexAdd (asz : Nat) (index : HMap Nat AnaIndexNode) (h id : Nat) :
    Res (HMap Nat AnaIndexNode) :=
  match index.get? h with
  | some node => .ok (index.insert h { node with instances := node.instances ++ [id] })
  | none => do
    let cc ← charCount h asz
    return index.insert h { instances := [id], charcount := cc }

/-- Filling the index.  Models src/lib.rs:214-219. -/
def fillIndex (asz : Nat) : List (Nat × Nat) → HMap Nat AnaIndexNode → Res (HMap Nat AnaIndexNode)
  | [], index => .ok index
  | (h, id) :: hs, index => do
    let index ← indexAdd asz index h id
    fillIndex asz hs index

/-- Filling the secondary index, in the order in which the primary one is iterated.
Models src/lib.rs:224-233. -/
def fillSorted : List (Nat × AnaIndexNode) → HMap Nat (List Nat) → HMap Nat (List Nat)
  | [], sorted => sorted
  | (h, node) :: rest, sorted =>
    fillSorted rest (sorted.insert node.charcount ((sorted.get? node.charcount).getD [] ++ [h]))

/-- Sorting each list of the secondary index.  The order in which the lists are visited does not
matter.  The sort is by insertion (for a total order on numbers all sorts agree).  Models src/lib.rs:236-245. -/
def sortSecondary (sorted : HMap Nat (List Nat)) : HMap Nat (List Nat) :=
  sorted.map fun (k, keys) => (k, keys.insertionSort (· ≤ ·))

/-- `text.split(" ")` -/
def splitSpaces : List Char → List (List Char)
  | [] => [[]]
  | c :: cs =>
    if c = ' ' then [] :: splitSpaces cs
    else
      match splitSpaces cs with
      | [] => [[c]]
      | w :: ws => (c :: w) :: ws

/-- `encode_token`; `unseen` is an in/out parameter.  Models src/lib.rs:2733-2755. -/
def Vm.encodeToken (m : Vm) (token : List Char) (useUnk : Bool)
    (unseen : Option (HMap (List Char) Nat)) : Res (Nat × Option (HMap (List Char) Nat)) :=
  match m.encoder.get? token with
  | some id => .ok (id, unseen)
  | none =>
    if useUnk then .ok (UNK, unseen)
    else
      match unseen with
      | none => .error .explicit
      | some u =>
        match u.get? token with
        | some id => .ok (id, unseen)
        | none =>
          let id := m.decoder.length + u.length
          .ok (id, some (u.insert token id))

/-- The arguments of the n-gram constructor in `into_ngram`: `n` tokens taken from the iterator,
each encoded.  Models src/lib.rs:2697-2726. -/
def Vm.encodeTokens (m : Vm) : Nat → List (List Char) → Option (HMap (List Char) Nat) →
    Res (List Nat × Option (HMap (List Char) Nat))
  | 0, _, unseen => .ok ([], unseen)
  | _ + 1, [], _ => .error .expect
  | n + 1, t :: ts, unseen => do
    let (id, unseen) ← m.encodeToken t true unseen
    let (ids, unseen) ← m.encodeTokens n ts unseen
    return (id :: ids, unseen)

/-- `into_ngram`; an inner `none` is the `Err` for more than five tokens.
Models src/lib.rs:2688-2730. -/
def Vm.intoNgram (m : Vm) (word : Nat) (unseen : Option (HMap (List Char) Nat)) :
    Res (Option NGram × Option (HMap (List Char) Nat)) :=
  match m.decoder[word]? with
  | none => .error .expect
  | some v =>
    if v.tokencount ≤ 5 then do
      let (ids, unseen) ← m.encodeTokens v.tokencount (splitSpaces v.text) unseen
      return (NGram.fromList ids, unseen)
    else .ok (none, unseen)

/-- `add_ngram` on the table of counts (32-bit).  Models src/lib.rs:2677-2685. -/
def addNgram (ngrams : HMap NGram Nat) (ngram : NGram) (frequency : Nat) : Res (HMap NGram Nat) :=
  match ngrams.get? ngram with
  | some n => if n + frequency ≥ 2 ^ 32 then .error .overflow else .ok (ngrams.insert ngram (n + frequency))
  | none => .ok (ngrams.insert ngram frequency)

/-- The update of `freq_sum` for an n-gram of `len` tokens.  `usize` addition is not bounded.
Models src/lib.rs:264-273. -/
def addFreqSum (freqSum : List Nat) (len freq : Nat) : Res (List Nat) :=
  let freqSum := if len > 1 then freqSum ++ List.replicate (len - freqSum.length) 0 else freqSum
  let i := if len > 1 then len - 1 else 0
  match freqSum[i]? with
  | none => .error .index
  | some s => .ok (freqSum.set i (s + freq))

/-- One round of the language model loop, for entry `id`.  Models src/lib.rs:253-277. -/
def Vm.lmStep (m : Vm) (id : Nat) (unseen : Option (HMap (List Char) Nat)) :
    Res (Vm × Option (HMap (List Char) Nat)) :=
  match m.decoder[id]? with
  | none => .error .expect
  | some v =>
    if v.vocabtype.check .LM then do
      let (ngram, unseen) ← m.intoNgram id unseen
      match ngram with
      | none => return (m, unseen)
      | some ngram =>
        let freqSum ← addFreqSum m.freqSum ngram.len v.frequency
        let ngrams ← addNgram m.ngrams ngram v.frequency
        return ({ m with freqSum, ngrams }, unseen)
    else .ok (m, unseen)

/-- The language model loop over the given ids.  Models src/lib.rs:252-279. -/
def Vm.lmLoop (m : Vm) : List Nat → Option (HMap (List Char) Nat) →
    Res (Vm × Option (HMap (List Char) Nat))
  | [], unseen => .ok (m, unseen)
  | id :: ids, unseen => do
    let (m, unseen) ← m.lmStep id unseen
    m.lmLoop ids unseen

/-- Adding the unseen parts, in iteration order.  Models src/lib.rs:283-287. -/
def Vm.addUnseen (m : Vm) : List (List Char × Nat) → Res Vm
  | [] => .ok m
  | (part, id) :: rest => do
    let ngrams ← addNgram m.ngrams (.uni id) 1
    Vm.addUnseen { m with
      ngrams
      encoder := m.encoder.insert part id
      decoder := m.decoder ++ [VocabValue.new part .LM] } rest

/-- The orders in which `build` iterates over hash maps: any function that permutes the entries. -/
structure Orders where
  index : List (Nat × AnaIndexNode) → List (Nat × AnaIndexNode)
  unseen : List (List Char × Nat) → List (List Char × Nat)
  index_perm : ∀ l, (index l).Perm l
  unseen_perm : ∀ l, (unseen l).Perm l

/-- The first half of `build`: primary and secondary index.  Models src/lib.rs:192-245. -/
def Vm.buildIndex (m : Vm) (o : Orders) : Res Vm := do
  let hashes ← hashAll m.alphabet 0 m.decoder
  match hashes with
  | [] => return { m with index := [], sortedindex := [] }
  | _ =>
    let asz ← m.alphabetSize
    let index ← fillIndex asz hashes []
    return { m with index, sortedindex := sortSecondary (fillSorted (o.index index) []) }

/-- The second half of `build`: the language model.  Models src/lib.rs:247-296. -/
def Vm.buildLm (m : Vm) (o : Orders) : Res Vm := do
  let (m, unseen) ← m.lmLoop (List.range m.decoder.length) (some [])
  let m ← match unseen with
    | some u => m.addUnseen (o.unseen u)
    | none => .ok m
  return { m with haveLm := !m.ngrams.isEmpty }

/-- `build`.  Models src/lib.rs:192-297. -/
def Vm.build (m : Vm) (o : Orders) : Res Vm := do
  let m ← m.buildIndex o
  m.buildLm o

/-! ## Lookups -/

/-- The ids of `get_anagram_instances` resolved in the decoder. -/
def resolveAll (decoder : List VocabValue) : List Nat → Res (List VocabValue)
  | [] => .ok []
  | id :: ids =>
    match decoder[id]? with
    | none => .error .expect
    | some v => do
      let vs ← resolveAll decoder ids
      return v :: vs

/-- `get_anagram_instances`.  Models src/lib.rs:305-318. -/
def Vm.getAnagramInstances (m : Vm) (text : List Char) : Res (List VocabValue) := do
  let h ← anahash m.alphabet text
  match m.index.get? h with
  | none => return []
  | some node => resolveAll m.decoder node.instances

/-- `get`.  Models src/lib.rs:321-328. -/
def Vm.get (m : Vm) (text : List Char) : Res (Option VocabValue) := do
  let vs ← m.getAnagramInstances text
  return vs.find? (fun v => v.text == text)

/-- `has`.  Models src/lib.rs:331-338. -/
def Vm.has (m : Vm) (text : List Char) : Res Bool := do
  let vs ← m.getAnagramInstances text
  return vs.any (fun v => v.text == text)

end Verif.Model
