import Verif.Model.Learn
import Verif.Lemmas.HMap

/-! # Invariants of the vocabulary -/
namespace Verif.Lemmas

open Verif.Model

theorem bind_ok {α β : Type} {x : Res α} {f : α → Res β} {b : β} :
    (x >>= f) = .ok b ↔ ∃ a, x = .ok a ∧ f a = .ok b := by
  cases x with
  | error e => simp [bind, Except.bind]
  | ok a => simp [bind, Except.bind]

theorem pure_ok {α : Type} {a b : α} : (pure a : Res α) = .ok b ↔ a = b := by
  simp [pure, Except.pure]

/-- texts of two entries of the decoder -/
def textAt (m : Vm) (i : Nat) : Option (List Char) := (m.decoder[i]?).map VocabValue.text

/-- The invariant of all reachable models. -/
structure Inv (m : Vm) : Prop where
  bij : ∀ t i, m.encoder.get? t = some i ↔ textAt m i = some t
  bos : textAt m 0 = some bosText
  eos : textAt m 1 = some eosText
  unk : textAt m 2 = some unkText
  notIndexed : ∀ i < 3, ∀ v, m.decoder[i]? = some v → v.vocabtype.indexed = false
  tokens : ∀ v ∈ m.decoder, v.tokencount = spaces v.text % 256 + 1 ∧ spaces v.text % 256 < 255
  freqSum : m.freqSum ≠ []

theorem inv_new (alphabet : Alphabet) : Inv (Vm.new alphabet) := by
  refine ⟨?_, rfl, rfl, rfl, ?_, ?_, by simp [Vm.new]⟩
  · intro t i
    simp only [Vm.new, get?_insert, HMap.get?]
    have e1 : unkText ≠ eosText := by decide
    have e2 : unkText ≠ bosText := by decide
    have e3 : eosText ≠ bosText := by decide
    match i with
    | 0 =>
      simp only [textAt, List.getElem?_cons_zero, Option.map_some, reserved, Option.some.injEq]
      constructor
      · intro h
        split at h
        · cases h
        · split at h
          · cases h
          · split at h
            · assumption
            · cases h
      · rintro rfl; simp [e2, e3, BOS]
    | 1 =>
      simp only [textAt, List.getElem?_cons_succ, List.getElem?_cons_zero, Option.map_some, reserved,
        Option.some.injEq]
      constructor
      · intro h
        split at h
        · cases h
        · split at h
          · assumption
          · split at h <;> cases h
      · rintro rfl; simp [e1, EOS]
    | 2 =>
      simp only [textAt, List.getElem?_cons_succ, List.getElem?_cons_zero, Option.map_some, reserved,
        Option.some.injEq]
      constructor
      · intro h
        split at h
        · assumption
        · split at h
          · cases h
          · split at h <;> cases h
      · rintro rfl; simp [UNK]
    | n + 3 =>
      simp only [textAt, List.getElem?_cons_succ, List.getElem?_nil, Option.map_none]
      constructor
      · intro h
        split at h
        · simp [UNK] at h
        · split at h
          · simp [EOS] at h
          · split at h
            · simp [BOS] at h
            · cases h
      · intro h; cases h
  · intro i hi v hv
    match i, hi with
    | 0, _ => simp [Vm.new] at hv; subst hv; rfl
    | 1, _ => simp [Vm.new] at hv; subst hv; rfl
    | 2, _ => simp [Vm.new] at hv; subst hv; rfl
  · intro v hv
    simp only [Vm.new, List.mem_cons, List.not_mem_nil, or_false] at hv
    rcases hv with rfl | rfl | rfl <;> decide

theorem updateType_reserved {i : Nat} (h : i < 3) (a b : VocabType) : updateType i a b = .LM := by
  unfold updateType
  rw [if_pos]
  match i, h with
  | 0, _ => simp [BOS]
  | 1, _ => simp [EOS]
  | 2, _ => simp [UNK]

theorem updateType_normal {i : Nat} (h : 3 ≤ i) (a b : VocabType) :
    updateType i a b = { a with transparent := a.transparent && b.transparent } := by
  unfold updateType
  rw [if_neg (by simp only [BOS, EOS, UNK]; omega)]
  obtain ⟨a1, a2, a3⟩ := a
  obtain ⟨b1, b2, b3⟩ := b
  cases a1 <;> cases a2 <;> cases a3 <;> cases b3 <;> rfl

theorem getElem?_set_self' {α : Type} {l : List α} {i : Nat} {a b : α} (h : l[i]? = some a) :
    (l.set i b)[i]? = some b := by
  have := (List.getElem?_eq_some_iff.mp h).1
  simp [this]

/-- Replacing an entry by one with the same text and token count, not indexed if reserved. -/
theorem inv_set {m : Vm} (h : Inv m) {i : Nat} {v v' : VocabValue} (hv : m.decoder[i]? = some v)
    (ht : v'.text = v.text) (hc : v'.tokencount = v.tokencount)
    (hi : i < 3 → v'.vocabtype.indexed = false) : Inv { m with decoder := m.decoder.set i v' } := by
  have htext : ∀ j, textAt { m with decoder := m.decoder.set i v' } j = textAt m j := by
    intro j
    simp only [textAt]
    by_cases hj : i = j
    · subst hj; rw [getElem?_set_self' hv, hv]; simp [ht]
    · rw [List.getElem?_set_ne hj]
  refine ⟨?_, ?_, ?_, ?_, ?_, ?_, h.freqSum⟩
  · intro t j; rw [htext]; exact h.bij t j
  · rw [htext]; exact h.bos
  · rw [htext]; exact h.eos
  · rw [htext]; exact h.unk
  · intro j hj w hw
    by_cases hij : i = j
    · subst hij
      simp only [getElem?_set_self' hv, Option.some.injEq] at hw
      subst hw; exact hi hj
    · simp only [List.getElem?_set_ne hij] at hw
      exact h.notIndexed j hj w hw
  · intro w hw
    rcases List.mem_or_eq_of_mem_set hw with hw | rfl
    · exact h.tokens w hw
    · rw [ht, hc]
      exact h.tokens v (List.mem_of_getElem? hv)

/-- A new entry. -/
def fresh (text : List Char) (norm : List Nat) (f : Option Nat) (p : VocabParams) : VocabValue :=
  { text, norm, frequency := f.getD 1, tokencount := spaces text % 256 + 1,
    lexindex := 1 <<< p.index, variants := none, vocabtype := p.vocabType }

/-- The two outcomes of `add_to_vocabulary`. -/
theorem add_cases {m m' : Vm} {text : List Char} {f : Option Nat} {p : VocabParams} {id : Nat}
    (h : m.addToVocabulary text f p = .ok (m', id)) :
    (∃ item freq, m.encoder.get? text = some id ∧ m.decoder[id]? = some item ∧
      combineFreq p.freqHandling item.frequency (f.getD 1) = .ok freq ∧ p.index < 32 ∧
      m' = { m with decoder := m.decoder.set id { item with
        frequency := freq
        vocabtype := updateType id item.vocabtype p.vocabType
        lexindex := item.lexindex ||| (1 <<< p.index) } }) ∨
    (∃ norm, m.encoder.get? text = none ∧ id = m.decoder.length ∧ p.index < 32 ∧
      normalizeToAlphabet m.alphabet text = .ok norm ∧ spaces text % 256 < 255 ∧
      m' = { m with
        encoder := m.encoder.insert text m.decoder.length
        decoder := m.decoder ++ [fresh text norm f p] }) := by
  unfold Vm.addToVocabulary at h
  simp only at h
  split at h
  · next vid hvid =>
    split at h
    · cases h
    · next item hitem =>
      left
      simp only [bind_ok, pure_ok, shiftBit] at h
      obtain ⟨freq, hf, bit, hb, h⟩ := h
      split at hb
      · cases hb
      · cases hb
        simp only [Prod.mk.injEq] at h
        obtain ⟨rfl, rfl⟩ := h
        exact ⟨item, freq, hvid, hitem, hf, by omega, rfl⟩
  · next hnone =>
    right
    simp only [bind_ok, shiftBit] at h
    obtain ⟨norm, hn, bit, hb, h⟩ := h
    split at hb
    · cases hb
    · cases hb
      split at h
      · cases h
      · simp only [pure_ok, Prod.mk.injEq] at h
        obtain ⟨rfl, rfl⟩ := h
        exact ⟨norm, hnone, rfl, by omega, hn, by omega, rfl⟩

theorem lt_of_getElem? {α : Type} {l : List α} {i : Nat} {a : α} (h : l[i]? = some a) :
    i < l.length := (List.getElem?_eq_some_iff.mp h).1

theorem textAt_lt {m : Vm} {i : Nat} {t : List Char} (h : textAt m i = some t) :
    i < m.decoder.length := by
  simp only [textAt, Option.map_eq_some_iff] at h
  obtain ⟨v, hv, _⟩ := h
  exact lt_of_getElem? hv

/-- `m'` extends `m`: same texts under the old ids. -/
def Extends (m m' : Vm) : Prop :=
  m'.alphabet = m.alphabet ∧ ∀ i t, textAt m i = some t → textAt m' i = some t

theorem Extends.refl (m : Vm) : Extends m m := ⟨rfl, fun _ _ h => h⟩

theorem Extends.trans {a b c : Vm} (h : Extends a b) (h' : Extends b c) : Extends a c :=
  ⟨h'.1.trans h.1, fun i t ht => h'.2 i t (h.2 i t ht)⟩

theorem extends_set {m : Vm} {i : Nat} {v v' : VocabValue} (hv : m.decoder[i]? = some v)
    (ht : v'.text = v.text) : Extends m { m with decoder := m.decoder.set i v' } := by
  refine ⟨rfl, ?_⟩
  intro j t h
  simp only [textAt] at h ⊢
  by_cases hj : i = j
  · subst hj; rw [getElem?_set_self' hv]; rw [hv] at h; simpa [ht] using h
  · rwa [List.getElem?_set_ne hj]

theorem inv_push {m : Vm} (h : Inv m) {v : VocabValue} (hnone : m.encoder.get? v.text = none)
    (hc : v.tokencount = spaces v.text % 256 + 1 ∧ spaces v.text % 256 < 255) :
    Inv { m with encoder := m.encoder.insert v.text m.decoder.length, decoder := m.decoder ++ [v] } ∧
    Extends m { m with
      encoder := m.encoder.insert v.text m.decoder.length, decoder := m.decoder ++ [v] } := by
  have hold : ∀ j, j < m.decoder.length → textAt { m with
      encoder := m.encoder.insert v.text m.decoder.length, decoder := m.decoder ++ [v] } j =
      textAt m j := by
    intro j hj
    simp only [textAt, List.getElem?_append_left hj]
  have hext : Extends m { m with
      encoder := m.encoder.insert v.text m.decoder.length, decoder := m.decoder ++ [v] } :=
    ⟨rfl, fun i t ht => by rw [hold i (textAt_lt ht)]; exact ht⟩
  refine ⟨⟨?_, hext.2 _ _ h.bos, hext.2 _ _ h.eos, hext.2 _ _ h.unk, ?_, ?_, h.freqSum⟩, hext⟩
  · intro t i
    simp only [get?_insert]
    rcases Nat.lt_trichotomy i m.decoder.length with hi | hi | hi
    · rw [hold i hi]
      by_cases ht : v.text = t
      · subst ht
        simp only [if_true, Option.some.injEq]
        constructor
        · intro e; omega
        · intro e; rw [← h.bij, hnone] at e; cases e
      · simp only [ht, if_false]; exact h.bij t i
    · subst hi
      simp only [textAt, List.getElem?_concat_length, Option.map_some, Option.some.injEq]
      by_cases ht : v.text = t
      · simp [ht]
      · simp only [ht, if_false, iff_false]
        intro e
        have := textAt_lt ((h.bij _ _).mp e)
        omega
    · have hx : textAt { m with
          encoder := m.encoder.insert v.text m.decoder.length, decoder := m.decoder ++ [v] } i =
          none := by
        simp only [textAt, Option.map_eq_none_iff, List.getElem?_eq_none_iff]
        simp; omega
      rw [hx]
      constructor
      · intro e
        split at e
        · simp only [Option.some.injEq] at e; omega
        · have := textAt_lt ((h.bij _ _).mp e); omega
      · intro e; cases e
  · intro i hi w hw
    have hl : i < m.decoder.length := by
      have := textAt_lt h.unk; omega
    simp only [List.getElem?_append_left hl] at hw
    exact h.notIndexed i hi w hw
  · intro w hw
    rcases List.mem_append.mp hw with hw | hw
    · exact h.tokens w hw
    · simp only [List.mem_singleton] at hw; subst hw; exact hc

theorem inv_add {m m' : Vm} {text : List Char} {f : Option Nat} {p : VocabParams} {id : Nat}
    (hinv : Inv m) (h : m.addToVocabulary text f p = .ok (m', id)) :
    Inv m' ∧ Extends m m' ∧ m'.encoder.get? text = some id := by
  rcases add_cases h with ⟨item, freq, he, hd, _, _, rfl⟩ | ⟨norm, he, rfl, _, _, hs, rfl⟩
  · refine ⟨inv_set hinv hd rfl rfl ?_, extends_set hd rfl, he⟩
    intro hi
    simp only [updateType_reserved hi]
    rfl
  · obtain ⟨h1, h2⟩ := inv_push hinv (v := fresh text norm f p) he ⟨rfl, hs⟩
    exact ⟨h1, h2, by simp [get?_insert]⟩

/-! ## Links -/

theorem modify_getElem? {α : Type} (l : List α) (f : α → α) (i j : Nat) :
    (l.modify i f)[j]? = if i = j then (l[j]?).map f else l[j]? := by
  rw [List.getElem?_modify]
  split <;> simp

theorem linkReference_fields (variantid : Nat) (score : Rat) (v : VocabValue) :
    linkReference variantid score v = { v with variants := (linkReference variantid score v).variants } := by
  unfold linkReference
  split
  · rfl
  · split <;> rfl

theorem linkVariant_fields (refId variantid : Nat) (score : Rat) (v : VocabValue) :
    linkVariant refId variantid score v =
      { v with variants := (linkVariant refId variantid score v).variants } := by
  unfold linkVariant
  split
  · rfl
  · split <;> rfl

/-- Entries equal up to their links. -/
def SameCore (a b : VocabValue) : Prop := { a with variants := none } = { b with variants := none }

theorem SameCore.refl (a : VocabValue) : SameCore a a := rfl
theorem SameCore.trans {a b c : VocabValue} (h : SameCore a b) (h' : SameCore b c) : SameCore a c :=
  Eq.trans h h'

theorem linkReference_core (variantid : Nat) (score : Rat) (v : VocabValue) :
    SameCore (linkReference variantid score v) v := by
  rw [linkReference_fields]; rfl

theorem linkVariant_core (r variantid : Nat) (score : Rat) (v : VocabValue) :
    SameCore (linkVariant r variantid score v) v := by
  rw [linkVariant_fields]; rfl

/-- `add_variant_by_id` changes nothing but links. -/
theorem addVariantById_core (m : Vm) (r v : Nat) (s : Rat) :
    (m.addVariantById r v s).1 = { m with decoder := (m.addVariantById r v s).1.decoder } ∧
    (m.addVariantById r v s).1.decoder.length = m.decoder.length ∧
    ∀ (i : Nat) (w' : VocabValue), (m.addVariantById r v s).1.decoder[i]? = some w' →
      ∃ w, m.decoder[i]? = some w ∧ SameCore w' w := by
  unfold Vm.addVariantById
  split
  · refine ⟨rfl, by simp, ?_⟩
    intro i w' hw'
    simp only [modify_getElem?] at hw'
    by_cases h1 : v = i
    · subst h1
      by_cases h2 : r = v
      · subst h2
        simp only [if_true, Option.map_map, Option.map_eq_some_iff, Function.comp] at hw'
        obtain ⟨w, hw, rfl⟩ := hw'
        exact ⟨w, hw, (linkVariant_core ..).trans (linkReference_core ..)⟩
      · simp only [if_true, h2, if_false, Option.map_eq_some_iff] at hw'
        obtain ⟨w, hw, rfl⟩ := hw'
        exact ⟨w, hw, linkVariant_core ..⟩
    · by_cases h2 : r = i
      · subst h2
        simp only [h1, if_true, if_false, Option.map_eq_some_iff] at hw'
        obtain ⟨w, hw, rfl⟩ := hw'
        exact ⟨w, hw, linkReference_core ..⟩
      · simp only [h1, h2, if_false] at hw'
        exact ⟨w', hw', .refl _⟩
  · exact ⟨rfl, rfl, fun i w' hw => ⟨w', hw, .refl _⟩⟩

theorem SameCore.text {a b : VocabValue} (h : SameCore a b) : a.text = b.text := by
  unfold SameCore at h; injection h
theorem SameCore.tokencount {a b : VocabValue} (h : SameCore a b) : a.tokencount = b.tokencount := by
  unfold SameCore at h; injection h
theorem SameCore.vocabtype {a b : VocabValue} (h : SameCore a b) : a.vocabtype = b.vocabtype := by
  unfold SameCore at h; injection h
theorem SameCore.frequency {a b : VocabValue} (h : SameCore a b) : a.frequency = b.frequency := by
  unfold SameCore at h; injection h
theorem SameCore.lexindex {a b : VocabValue} (h : SameCore a b) : a.lexindex = b.lexindex := by
  unfold SameCore at h; injection h
theorem SameCore.norm {a b : VocabValue} (h : SameCore a b) : a.norm = b.norm := by
  unfold SameCore at h; injection h

/-- A decoder with the same cores preserves the invariant. -/
theorem inv_core {m : Vm} (hinv : Inv m) {d : List VocabValue} (hl : d.length = m.decoder.length)
    (h : ∀ (i : Nat) (w' : VocabValue), d[i]? = some w' → ∃ w, m.decoder[i]? = some w ∧ SameCore w' w) :
    Inv { m with decoder := d } ∧ Extends m { m with decoder := d } ∧
      ∀ i, textAt { m with decoder := d } i = textAt m i := by
  have htext : ∀ i, textAt { m with decoder := d } i = textAt m i := by
    intro i
    simp only [textAt]
    by_cases hi : i < d.length
    · obtain ⟨w, hw, hc⟩ := h i d[i] (List.getElem?_eq_getElem hi)
      rw [List.getElem?_eq_getElem hi, hw]
      simp [hc.text]
    · rw [List.getElem?_eq_none (by omega), List.getElem?_eq_none (by omega)]
  refine ⟨⟨?_, ?_, ?_, ?_, ?_, ?_, hinv.freqSum⟩, ⟨rfl, fun i t ht => by rw [htext]; exact ht⟩, htext⟩
  · intro t i; rw [htext]; exact hinv.bij t i
  · rw [htext]; exact hinv.bos
  · rw [htext]; exact hinv.eos
  · rw [htext]; exact hinv.unk
  · intro i hi v hv
    obtain ⟨w, hw, hc⟩ := h i v hv
    rw [hc.vocabtype]; exact hinv.notIndexed i hi w hw
  · intro v hv
    obtain ⟨i, hi⟩ := List.mem_iff_getElem?.mp hv
    obtain ⟨w, hw, hc⟩ := h i v hi
    rw [hc.text, hc.tokencount]
    exact hinv.tokens w (List.mem_of_getElem? hw)

theorem inv_addVariantById {m : Vm} (hinv : Inv m) (r v : Nat) (s : Rat) :
    Inv (m.addVariantById r v s).1 ∧ Extends m (m.addVariantById r v s).1 ∧
      ∀ i, textAt (m.addVariantById r v s).1 i = textAt m i := by
  obtain ⟨h1, h2, h3⟩ := addVariantById_core m r v s
  rw [h1]
  exact inv_core hinv h2 h3

/-! ## Build -/

theorem encodeToken_unk (m : Vm) (t : List Char) (u : Option (HMap (List Char) Nat)) :
    m.encodeToken t true u = .ok ((m.encoder.get? t).getD UNK, u) := by
  unfold Vm.encodeToken
  cases m.encoder.get? t <;> simp

theorem encodeTokens_eq (m : Vm) (n : Nat) (ts : List (List Char))
    (u : Option (HMap (List Char) Nat)) (h : n ≤ ts.length) :
    m.encodeTokens n ts u = .ok ((ts.take n).map (fun t => (m.encoder.get? t).getD UNK), u) := by
  induction n generalizing ts with
  | zero => simp [Vm.encodeTokens]
  | succ n ih =>
    cases ts with
    | nil => simp at h
    | cons t ts =>
      simp only [List.length_cons] at h
      simp only [Vm.encodeTokens, encodeToken_unk, bind, Except.bind, ih ts (by omega)]
      rfl

theorem encodeTokens_unseen {m : Vm} {n : Nat} {ts : List (List Char)}
    {u u' : Option (HMap (List Char) Nat)} {ids : List Nat}
    (h : m.encodeTokens n ts u = .ok (ids, u')) : u' = u := by
  by_cases hn : n ≤ ts.length
  · rw [encodeTokens_eq m n ts u hn] at h; cases h; rfl
  · exfalso
    induction n generalizing ts ids u' with
    | zero => simp at hn
    | succ n ih =>
      cases ts with
      | nil => simp [Vm.encodeTokens] at h
      | cons t ts =>
        simp only [Vm.encodeTokens, encodeToken_unk, bind_ok] at h
        obtain ⟨⟨id, u1⟩, h1, ⟨ids2, u2⟩, h2, _⟩ := h
        cases h1
        exact ih h2 (by simp at hn; omega)

theorem intoNgram_unseen {m : Vm} {w : Nat} {u u' : Option (HMap (List Char) Nat)}
    {g : Option NGram} (h : m.intoNgram w u = .ok (g, u')) : u' = u := by
  unfold Vm.intoNgram at h
  split at h
  · cases h
  · split at h
    · simp only [bind_ok, pure_ok] at h
      obtain ⟨⟨ids, u1⟩, h1, h2⟩ := h
      have := encodeTokens_unseen h1
      simp only [Prod.mk.injEq] at h2
      rw [← h2.2]; exact this
    · cases h; rfl

/-- `m'` differs from `m` at most in the language model counts. -/
def SameButLm (m m' : Vm) : Prop :=
  m' = { m with ngrams := m'.ngrams, freqSum := m'.freqSum, haveLm := m'.haveLm }

theorem SameButLm.refl (m : Vm) : SameButLm m m := rfl
theorem SameButLm.trans {a b c : Vm} (h : SameButLm a b) (h' : SameButLm b c) : SameButLm a c := by
  unfold SameButLm at *
  rw [h'] ; rw [h]

theorem addFreqSum_ne_nil {s s' : List Nat} {len freq : Nat} (h : addFreqSum s len freq = .ok s') :
    s' ≠ [] := by
  unfold addFreqSum at h
  simp only at h
  split at h
  · cases h
  · next x hx =>
    cases h
    have := lt_of_getElem? hx
    intro h0
    have h1 := congrArg List.length h0
    rw [List.length_set, List.length_nil] at h1
    omega

theorem lmStep_cases {m m' : Vm} {id : Nat} {u u' : Option (HMap (List Char) Nat)}
    (h : m.lmStep id u = .ok (m', u')) :
    u' = u ∧ SameButLm m m' ∧ (m.freqSum ≠ [] → m'.freqSum ≠ []) ∧ m'.haveLm = m.haveLm := by
  unfold Vm.lmStep at h
  split at h
  · cases h
  · split at h
    · simp only [bind_ok] at h
      obtain ⟨⟨g, u1⟩, h1, h2⟩ := h
      have hu := intoNgram_unseen h1
      split at h2
      · cases h2; exact ⟨hu, .refl _, fun h => h, rfl⟩
      · simp only [bind_ok, pure_ok, Prod.mk.injEq] at h2
        obtain ⟨s, hs, ng, hng, rfl, rfl⟩ := h2
        exact ⟨hu, rfl, fun _ => addFreqSum_ne_nil hs, rfl⟩
    · cases h; exact ⟨rfl, .refl _, fun h => h, rfl⟩

theorem lmLoop_cases {m m' : Vm} {ids : List Nat} {u u' : Option (HMap (List Char) Nat)}
    (h : m.lmLoop ids u = .ok (m', u')) :
    u' = u ∧ SameButLm m m' ∧ (m.freqSum ≠ [] → m'.freqSum ≠ []) := by
  induction ids generalizing m u with
  | nil => cases h; exact ⟨rfl, .refl _, id⟩
  | cons id ids ih =>
    simp only [Vm.lmLoop, bind_ok] at h
    obtain ⟨⟨m1, u1⟩, h1, h2⟩ := h
    obtain ⟨a1, a2, a3, _⟩ := lmStep_cases h1
    obtain ⟨b1, b2, b3⟩ := ih h2
    exact ⟨b1.trans a1, a2.trans b2, fun h => b3 (a3 h)⟩

/-- The language model part of `build` only changes the language model. -/
theorem buildLm_cases {m m' : Vm} {o : Orders} (h : m.buildLm o = .ok m') :
    ∃ m1, m.lmLoop (List.range m.decoder.length) (some []) = .ok (m1, some []) ∧
      m' = { m1 with haveLm := !m1.ngrams.isEmpty } ∧ SameButLm m m' ∧
      (m.freqSum ≠ [] → m'.freqSum ≠ []) := by
  simp only [Vm.buildLm, bind_ok] at h
  obtain ⟨⟨m1, u1⟩, h1, h2⟩ := h
  obtain ⟨rfl, a2, a3⟩ := lmLoop_cases h1
  have hu : o.unseen [] = [] := List.perm_nil.mp (o.unseen_perm [])
  simp only [hu, Vm.addUnseen, bind_ok, pure_ok] at h2
  obtain ⟨m2, h2, h3⟩ := h2
  cases h2
  subst h3
  refine ⟨m1, h1, rfl, ?_, a3⟩
  unfold SameButLm at *
  rw [a2]

theorem SameButLm.inv {m m' : Vm} (h : SameButLm m m') (hf : m'.freqSum ≠ []) (hinv : Inv m) :
    Inv m' := by
  rw [h]
  exact ⟨hinv.bij, hinv.bos, hinv.eos, hinv.unk, hinv.notIndexed, hinv.tokens, hf⟩

theorem buildIndex_cases {m m' : Vm} {o : Orders} (h : m.buildIndex o = .ok m') :
    m' = { m with index := m'.index, sortedindex := m'.sortedindex } := by
  simp only [Vm.buildIndex, bind_ok] at h
  obtain ⟨hs, _, h⟩ := h
  split at h
  · cases h; rfl
  · simp only [bind_ok, pure_ok] at h
    obtain ⟨asz, _, idx, _, rfl⟩ := h
    rfl

/-- `build` leaves decoder, encoder, alphabet and lexicons alone. -/
theorem build_cases {m m' : Vm} {o : Orders} (h : m.build o = .ok m') :
    m' = { m with index := m'.index, sortedindex := m'.sortedindex, ngrams := m'.ngrams,
                  freqSum := m'.freqSum, haveLm := m'.haveLm } ∧
      (m.freqSum ≠ [] → m'.freqSum ≠ []) := by
  simp only [Vm.build, bind_ok] at h
  obtain ⟨m1, h1, h2⟩ := h
  have a1 := buildIndex_cases h1
  obtain ⟨m2, _, _, b2, b3⟩ := buildLm_cases h2
  unfold SameButLm at b2
  have e1 : m1.freqSum = m.freqSum := by rw [a1]
  rw [e1] at b3
  refine ⟨?_, b3⟩
  generalize m'.ngrams = ng at *
  generalize m'.freqSum = fs at *
  generalize m'.haveLm = hl at *
  subst b2
  simp only
  generalize m1.index = ix at *
  generalize m1.sortedindex = sx at *
  subst a1
  rfl

theorem inv_build {m m' : Vm} {o : Orders} (hinv : Inv m) (h : m.build o = .ok m') :
    Inv m' ∧ Extends m m' ∧ m'.decoder = m.decoder ∧ m'.encoder = m.encoder := by
  obtain ⟨h1, h2⟩ := build_cases h
  have hf := h2 hinv.freqSum
  generalize m'.index = ix at *
  generalize m'.sortedindex = sx at *
  generalize m'.ngrams = ng at *
  generalize m'.freqSum = fs at *
  generalize m'.haveLm = hl at *
  subst h1
  exact ⟨⟨hinv.bij, hinv.bos, hinv.eos, hinv.unk, hinv.notIndexed, hinv.tokens, hf⟩,
    ⟨rfl, fun i t h => h⟩, rfl, rfl⟩

/-! ## Learning -/

theorem inv_learnId {m m' : Vm} {input : List Char} {prev : Option (List Char)} {id : Nat}
    (hinv : Inv m) (h : m.learnId input prev = .ok (m', id)) :
    Inv m' ∧ Extends m m' ∧ m'.encoder.get? input = some id := by
  unfold Vm.learnId at h
  split at h
  · next vid hvid =>
    split at h
    · cases h
    · next item hitem =>
      split at h
      · split at h
        · cases h
        · cases h
          refine ⟨inv_set hinv hitem rfl rfl ?_, extends_set hitem rfl, hvid⟩
          intro hi; exact hinv.notIndexed _ hi item hitem
      · cases h; exact ⟨hinv, .refl _, hvid⟩
  · exact inv_add hinv h

theorem inv_learnLoop {m m' : Vm} {fs : List Finding} {prev : Option (List Char)} {c c' : Nat}
    (hinv : Inv m) (h : m.learnLoop fs prev c = .ok (m', c')) : Inv m' ∧ Extends m m' := by
  induction fs generalizing m prev c with
  | nil => cases h; exact ⟨hinv, .refl _⟩
  | cons f fs ih =>
    simp only [Vm.learnLoop, bind_ok] at h
    obtain ⟨⟨m1, id⟩, h1, h2⟩ := h
    obtain ⟨a1, a2, _⟩ := inv_learnId hinv h1
    split at h2
    · obtain ⟨b1, b2, _⟩ := inv_addVariantById a1 f.vocabId id f.distScore
      obtain ⟨c1, c2⟩ := ih b1 h2
      exact ⟨c1, (a2.trans b2).trans c2⟩
    · obtain ⟨c1, c2⟩ := ih a1 h2
      exact ⟨c1, a2.trans c2⟩

theorem inv_learn {m m' : Vm} {fs : List Finding} {ab : Bool} {o : Orders} {c : Nat}
    (hinv : Inv m) (h : m.learnVariants fs ab o = .ok (m', c)) : Inv m' ∧ Extends m m' := by
  simp only [Vm.learnVariants, bind_ok] at h
  obtain ⟨⟨m1, c1⟩, h1, h2⟩ := h
  obtain ⟨a1, a2⟩ := inv_learnLoop hinv h1
  split at h2
  · simp only [bind_ok, pure_ok, Prod.mk.injEq] at h2
    obtain ⟨m2, h3, rfl, _⟩ := h2
    obtain ⟨b1, b2, _⟩ := inv_build a1 h3
    exact ⟨b1, a2.trans b2⟩
  · cases h2; exact ⟨a1, a2⟩

theorem inv_step {m m' : Vm} {op : Op} (hinv : Inv m) (h : m.step op = .ok m') :
    Inv m' ∧ Extends m m' := by
  cases op with
  | add t f p =>
    simp only [Vm.step, bind_ok, pure_ok] at h
    obtain ⟨⟨m1, id⟩, h1, rfl⟩ := h
    obtain ⟨a, b, _⟩ := inv_add hinv h1
    exact ⟨a, b⟩
  | addVariant r t s f p =>
    simp only [Vm.step, Vm.addVariant, bind_ok, pure_ok] at h
    obtain ⟨⟨m2, x⟩, ⟨⟨m1, id⟩, h1, h2⟩, rfl⟩ := h
    obtain ⟨a, b, _⟩ := inv_add hinv h1
    obtain ⟨c, d, _⟩ := inv_addVariantById a r id s
    simp only at h2
    rw [h2] at c d
    exact ⟨c, b.trans d⟩
  | addVariantById r v s =>
    simp only [Vm.step, Except.ok.injEq] at h
    subst h
    obtain ⟨c, d, _⟩ := inv_addVariantById hinv r v s
    exact ⟨c, d⟩
  | build o =>
    obtain ⟨a, b, _⟩ := inv_build hinv h
    exact ⟨a, b⟩
  | learn fs ab o =>
    simp only [Vm.step, bind_ok, pure_ok] at h
    obtain ⟨⟨m1, c⟩, h1, rfl⟩ := h
    exact inv_learn hinv h1
  | freq =>
    cases h
    exact ⟨⟨hinv.bij, hinv.bos, hinv.eos, hinv.unk, hinv.notIndexed, hinv.tokens, hinv.freqSum⟩, .refl _⟩
  | lexicon n =>
    cases h
    exact ⟨⟨hinv.bij, hinv.bos, hinv.eos, hinv.unk, hinv.notIndexed, hinv.tokens, hinv.freqSum⟩, .refl _⟩

theorem inv_run {m m' : Vm} {ops : List Op} (hinv : Inv m) (h : m.run ops = .ok m') :
    Inv m' ∧ Extends m m' := by
  induction ops generalizing m with
  | nil => cases h; exact ⟨hinv, .refl _⟩
  | cons op ops ih =>
    simp only [Vm.run, bind_ok] at h
    obtain ⟨m1, h1, h2⟩ := h
    obtain ⟨a, b⟩ := inv_step hinv h1
    obtain ⟨c, d⟩ := ih a h2
    exact ⟨c, b.trans d⟩

end Verif.Lemmas
