import Verif.Lemmas.Vocab

/-! # What a history of additions does to one entry -/
namespace Verif.Lemmas

open Verif.Model

/-- The entry of a text. -/
def entry (m : Vm) (t : List Char) : Option VocabValue :=
  (m.encoder.get? t).bind fun i => m.decoder[i]?

/-- What additions determine about an entry. -/
structure Core where
  freq : Nat
  type : VocabType
  lex : Nat

def coreOf (v : VocabValue) : Core := ⟨v.frequency, v.vocabtype, v.lexindex⟩

def entryCore (m : Vm) (t : List Char) : Option Core := (entry m t).map coreOf

def combine (h : FrequencyHandling) (old new : Nat) : Nat :=
  match h with
  | .sum => old + new
  | .max => max old new
  | .min => min old new
  | .replace => new

theorem combineFreq_ok {h : FrequencyHandling} {a b c : Nat} (e : combineFreq h a b = .ok c) :
    c = combine h a b := by
  cases h <;> simp only [combineFreq, combine] at e ⊢
  · split at e
    · cases e
    · cases e; rfl
  · cases e; split <;> omega
  · cases e; split <;> omega
  · cases e; rfl

abbrev Add := Option Nat × VocabParams

/-- Effect of one addition on the core of an entry (`res`: is it a reserved one). -/
def addCore (res : Bool) (a : Add) : Option Core → Option Core
  | none => some ⟨a.1.getD 1, a.2.vocabType, 1 <<< a.2.index⟩
  | some c => some
      ⟨combine a.2.freqHandling c.freq (a.1.getD 1),
       if res then .LM
       else { c.type with transparent := c.type.transparent && a.2.vocabType.transparent },
       c.lex ||| (1 <<< a.2.index)⟩

/-- Is it one of the three reserved texts? -/
def isReserved (t : List Char) : Bool := t == bosText || t == eosText || t == unkText

theorem id_lt_three {m : Vm} (hinv : Inv m) {t : List Char} {i : Nat}
    (h : m.encoder.get? t = some i) : i < 3 ↔ isReserved t = true := by
  have ht := (hinv.bij t i).mp h
  simp only [isReserved, Bool.or_eq_true, beq_iff_eq]
  constructor
  · intro hi
    match i, hi with
    | 0, _ => rw [hinv.bos] at ht; cases ht; simp
    | 1, _ => rw [hinv.eos] at ht; cases ht; simp
    | 2, _ => rw [hinv.unk] at ht; cases ht; simp
  · rintro ((rfl | rfl) | rfl)
    · have := (hinv.bij _ _).mpr hinv.bos; rw [this] at h; cases h; omega
    · have := (hinv.bij _ _).mpr hinv.eos; rw [this] at h; cases h; omega
    · have := (hinv.bij _ _).mpr hinv.unk; rw [this] at h; cases h; omega

theorem entry_add {m m' : Vm} {text : List Char} {f : Option Nat} {p : VocabParams} {id : Nat}
    (hinv : Inv m) (h : m.addToVocabulary text f p = .ok (m', id)) (t : List Char) :
    entryCore m' t = if t = text then addCore (isReserved t) (f, p) (entryCore m t)
      else entryCore m t := by
  rcases add_cases h with ⟨item, freq, he, hd, hf, _, rfl⟩ | ⟨norm, he, rfl, _, _, hs, rfl⟩
  · split
    · next e =>
      subst e
      simp only [entryCore, entry, he, Option.bind_some, getElem?_set_self' hd, hd, Option.map_some,
        addCore, coreOf, combineFreq_ok hf]
      congr 2
      by_cases hr : isReserved t = true
      · rw [updateType_reserved ((id_lt_three hinv he).mpr hr)]; simp [hr]
      · have : 3 ≤ id := by
          have := (id_lt_three hinv he).not.mpr hr; omega
        rw [updateType_normal this]; simp [hr]
    · next e =>
      simp only [entryCore, entry]
      cases hg : m.encoder.get? t with
      | none => simp
      | some j =>
        have : id ≠ j := by
          rintro rfl
          have h1 := (hinv.bij _ _).mp he
          have h2 := (hinv.bij _ _).mp hg
          rw [h1] at h2; cases h2; exact e rfl
        simp [List.getElem?_set_ne this]
  · split
    · next e =>
      subst e
      simp only [entryCore, entry, he, get?_insert, if_true, Option.bind_some,
        List.getElem?_concat_length, Option.map_some, Option.bind_none, Option.map_none, addCore]
      rfl
    · next e =>
      simp only [entryCore, entry, get?_insert, Ne.symm e, if_false]
      cases hg : m.encoder.get? t with
      | none => simp
      | some j =>
        have : j < m.decoder.length := textAt_lt ((hinv.bij _ _).mp hg)
        simp [List.getElem?_append_left this]

theorem entry_core {m : Vm} {d : List VocabValue} (hl : d.length = m.decoder.length)
    (h : ∀ (i : Nat) (w' : VocabValue), d[i]? = some w' → ∃ w, m.decoder[i]? = some w ∧ SameCore w' w)
    (t : List Char) : entryCore { m with decoder := d } t = entryCore m t := by
  simp only [entryCore, entry]
  cases m.encoder.get? t with
  | none => rfl
  | some i =>
    simp only [Option.bind_some]
    by_cases hi : i < d.length
    · obtain ⟨w, hw, hc⟩ := h i d[i] (List.getElem?_eq_getElem hi)
      rw [List.getElem?_eq_getElem hi, hw]
      simp [coreOf, hc.frequency, hc.vocabtype, hc.lexindex]
    · rw [List.getElem?_eq_none (by omega), List.getElem?_eq_none (by omega)]

theorem entry_addVariantById (m : Vm) (r v : Nat) (s : Rat) (t : List Char) :
    entryCore (m.addVariantById r v s).1 t = entryCore m t := by
  obtain ⟨h1, h2, h3⟩ := addVariantById_core m r v s
  rw [h1]
  exact entry_core h2 h3 t

/-- The addition an operation makes to text `t`, if any; learning is not considered. -/
def addOf (t : List Char) : Op → Option Add
  | .add text f p => if t = text then some (f, p) else none
  | .addVariant _ text _ f p => if t = text then some (f, p) else none
  | _ => none

def isLearn : Op → Bool
  | .learn .. => true
  | _ => false

theorem entry_step {m m' : Vm} {op : Op} (hinv : Inv m) (hl : isLearn op = false)
    (h : m.step op = .ok m') (t : List Char) :
    entryCore m' t = match addOf t op with
      | some a => addCore (isReserved t) a (entryCore m t)
      | none => entryCore m t := by
  cases op with
  | add text f p =>
    simp only [Vm.step, bind_ok, pure_ok] at h
    obtain ⟨⟨m1, id⟩, h1, rfl⟩ := h
    rw [entry_add hinv h1 t]
    by_cases e : t = text <;> simp [addOf, e]
  | addVariant r text s f p =>
    simp only [Vm.step, Vm.addVariant, bind_ok, pure_ok] at h
    obtain ⟨⟨m2, x⟩, ⟨⟨m1, id⟩, h1, h2⟩, rfl⟩ := h
    have := entry_addVariantById m1 r id s t
    simp only at h2
    rw [h2] at this
    rw [this, entry_add hinv h1 t]
    by_cases e : t = text <;> simp [addOf, e]
  | addVariantById r v s =>
    simp only [Vm.step, Except.ok.injEq] at h
    subst h
    exact entry_addVariantById m r v s t
  | build o =>
    obtain ⟨_, _, hd, he⟩ := inv_build hinv h
    simp only [addOf, entryCore, entry, hd, he]
  | learn fs ab o => cases hl
  | freq => cases h; rfl
  | lexicon n => cases h; rfl

theorem entry_run {m m' : Vm} {ops : List Op} (hinv : Inv m) (hl : ∀ op ∈ ops, isLearn op = false)
    (h : m.run ops = .ok m') (t : List Char) :
    entryCore m' t =
      (ops.filterMap (addOf t)).foldl (fun c a => addCore (isReserved t) a c) (entryCore m t) := by
  induction ops generalizing m with
  | nil => cases h; rfl
  | cons op ops ih =>
    simp only [Vm.run, bind_ok] at h
    obtain ⟨m1, h1, h2⟩ := h
    have hs := entry_step hinv (hl op (by simp)) h1 t
    rw [ih (inv_step hinv h1).1 (fun o ho => hl o (by simp [ho])) h2, hs]
    cases ha : addOf t op <;> simp [ha]

/-! ## Folds of additions -/

/-- the frequencies given -/
def freqsOf (as : List Add) : List Nat := as.map fun a => a.1.getD 1

theorem fold_some (res : Bool) (as : List Add) (c : Core) :
    ∃ c', as.foldl (fun c a => addCore res a c) (some c) = some c' ∧
      c'.type.indexed = (if res = true ∧ as ≠ [] then false else c.type.indexed) ∧
      (res = false → c'.type.lm = c.type.lm ∧
        (c'.type.transparent = true ↔
          c.type.transparent = true ∧ ∀ a ∈ as, a.2.vocabType.transparent = true)) ∧
      (∀ i, c'.lex.testBit i = true ↔ c.lex.testBit i = true ∨ ∃ a ∈ as, a.2.index = i) := by
  induction as generalizing c with
  | nil => exact ⟨c, rfl, by simp, by simp, by simp⟩
  | cons a as ih =>
    simp only [List.foldl_cons, addCore]
    obtain ⟨c', h1, h2, h3, h4⟩ := ih ⟨combine a.2.freqHandling c.freq (a.1.getD 1),
       if res then .LM
       else { c.type with transparent := c.type.transparent && a.2.vocabType.transparent },
       c.lex ||| (1 <<< a.2.index)⟩
    refine ⟨c', h1, ?_, ?_, ?_⟩
    · rw [h2]
      cases res <;> simp [VocabType.LM]
    · intro hr
      obtain ⟨g1, g2⟩ := h3 hr
      subst hr
      refine ⟨by simpa using g1, ?_⟩
      rw [g2]
      simp [and_assoc]
    · intro i
      rw [h4 i, Nat.testBit_or, Bool.or_eq_true, Nat.one_shiftLeft, Nat.testBit_two_pow]
      simp [or_assoc]

theorem fold_freq {h : FrequencyHandling} (res : Bool) (as : List Add)
    (hh : ∀ a ∈ as, a.2.freqHandling = h) (c : Core) :
    ∃ c', as.foldl (fun c a => addCore res a c) (some c) = some c' ∧
      c'.freq = (freqsOf as).foldl (combine h) c.freq := by
  induction as generalizing c with
  | nil => exact ⟨c, rfl, rfl⟩
  | cons a as ih =>
    simp only [List.foldl_cons, addCore, freqsOf, List.map_cons]
    obtain ⟨c', h1, h2⟩ := ih (fun b hb => hh b (by simp [hb]))
      ⟨combine a.2.freqHandling c.freq (a.1.getD 1),
       if res then .LM
       else { c.type with transparent := c.type.transparent && a.2.vocabType.transparent },
       c.lex ||| (1 <<< a.2.index)⟩
    refine ⟨c', h1, ?_⟩
    rw [h2, hh a (by simp)]
    rfl

end Verif.Lemmas
