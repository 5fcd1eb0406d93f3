import Verif.Model.Vocab

/-!
# The vocabulary in a release build

Without overflow checks (the release profile, and `cargo install`) arithmetic wraps around where the
model of the debug profile gives `Panic.overflow`, and a shift of a 32-bit number uses only the lowest
five bits of the distance.
-/
namespace Verif.Model

/-- Main loop of `normalize_to_alphabet`: `charlen - 1` wraps around for an empty element, so that the
rest of the text (shorter than `2 ^ 64`) is skipped, and the symbol for unknown characters wraps around
to 0.  Models src/anahash.rs:53-78. -/
def normalizeLoopRel (alphabet : Alphabet) : List Char → Nat → List Nat
  | [], _ => []
  | c :: cs, skip =>
    if skip > 0 then normalizeLoopRel alphabet cs (skip - 1)
    else
      match matchAlphabet (c :: cs) alphabet 0 with
      | some (seqnr, charlen) =>
        seqnr % 256 :: normalizeLoopRel alphabet cs (if charlen = 0 then 2 ^ 64 - 1 else charlen - 1)
      | none => (alphabet.length % 256 + 1) % 256 :: normalizeLoopRel alphabet cs 0

/-- `normalize_to_alphabet`.  Models src/anahash.rs:50-80. -/
def normalizeToAlphabetRel (alphabet : Alphabet) (s : List Char) : List Nat := normalizeLoopRel alphabet s 0

/-- The frequency update of `add_to_vocabulary`.  Models src/lib.rs:915-932. -/
def combineFreqRel (h : FrequencyHandling) (old new : Nat) : Nat :=
  match h with
  | .sum => (old + new) % 2 ^ 32
  | .max => if new > old then new else old
  | .min => if new < old then new else old
  | .replace => new

/-- `1 << index` for a `u32`.  Models src/lib.rs:941, 958, src/vocab.rs:78. -/
def shiftBitRel (index : Nat) : Nat := 1 <<< (index % 32)

/-- `add_to_vocabulary`.  Models src/lib.rs:900-967. -/
def Vm.addToVocabularyRel (m : Vm) (text : List Char) (frequency : Option Nat) (params : VocabParams) :
    Res (Vm × Nat) :=
  let frequency := frequency.getD 1
  match m.encoder.get? text with
  | some vocabId =>
    match m.decoder[vocabId]? with
    | none => .error .expect
    | some item =>
      let item' := { item with
        frequency := combineFreqRel params.freqHandling item.frequency frequency
        vocabtype := updateType vocabId item.vocabtype params.vocabType
        lexindex := item.lexindex ||| shiftBitRel params.index }
      .ok ({ m with decoder := m.decoder.set vocabId item' }, vocabId)
  | none =>
    let item : VocabValue :=
      { text, norm := normalizeToAlphabetRel m.alphabet text, frequency,
        tokencount := (spaces text % 256 + 1) % 256, lexindex := shiftBitRel params.index,
        variants := none, vocabtype := params.vocabType }
    .ok ({ m with
      encoder := m.encoder.insert text m.decoder.length
      decoder := m.decoder ++ [item] }, m.decoder.length)

/-- Calls of `add_to_vocabulary` one after another.  Models src/lib.rs:900-967. -/
def Vm.addManyRel (m : Vm) : List (List Char × Option Nat × VocabParams) → Res Vm
  | [] => .ok m
  | (t, f, p) :: as => do
    let (m, _) ← m.addToVocabularyRel t f p
    m.addManyRel as

/-- The same in the debug profile.  Models src/lib.rs:900-967. -/
def Vm.addMany (m : Vm) : List (List Char × Option Nat × VocabParams) → Res Vm
  | [] => .ok m
  | (t, f, p) :: as => do
    let (m, _) ← m.addToVocabulary t f p
    m.addMany as

/-- `in_lexicon`.  Models src/vocab.rs:77-79. -/
def VocabValue.inLexiconRel (self : VocabValue) (index : Nat) : Bool :=
  self.lexindex &&& shiftBitRel index = shiftBitRel index

end Verif.Model
