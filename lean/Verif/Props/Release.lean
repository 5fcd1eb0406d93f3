import Verif.Model.Release
import Verif.Spec.Release
import Verif.Props.Vocab

/-!
# The vocabulary in a release build (C133)
-/
namespace Verif.Props

open Verif.Spec Verif.Model Verif.Lemmas

/-! ## Where the debug profile does not panic there is no difference -/

theorem normalizeLoopRel_eq (alphabet : Alphabet) :
    ∀ (s : List Char) (skip : Nat) (l : List Nat), normalizeLoop alphabet s skip = .ok l →
      normalizeLoopRel alphabet s skip = l := by
  intro s
  induction s with
  | nil => intro skip l h; cases h; rfl
  | cons c cs ih =>
    intro skip l h
    rw [normalizeLoop] at h
    rw [normalizeLoopRel]
    by_cases hs : skip > 0
    · rw [if_pos hs] at h ⊢
      exact ih _ _ h
    · rw [if_neg hs] at h ⊢
      cases hm : matchAlphabet (c :: cs) alphabet 0 with
      | some r =>
        obtain ⟨seqnr, charlen⟩ := r
        rw [hm] at h
        dsimp only at h ⊢
        by_cases hc : charlen = 0
        · rw [if_pos hc] at h; cases h
        · rw [if_neg hc] at h ⊢
          cases hn : normalizeLoop alphabet cs (charlen - 1) with
          | error e => rw [hn] at h; cases h
          | ok r => rw [hn] at h; cases h; rw [ih _ _ hn]
      | none =>
        rw [hm] at h
        dsimp only at h ⊢
        split at h
        · cases h
        · next hlt =>
          cases hn : normalizeLoop alphabet cs 0 with
          | error e => rw [hn] at h; cases h
          | ok r => rw [hn] at h; cases h; rw [ih _ _ hn, Nat.mod_eq_of_lt (by omega : alphabet.length % 256 + 1 < 256)]

theorem normalizeLoop_overflow (alphabet : Alphabet) :
    ∀ (s : List Char) (skip : Nat) (e : Panic), normalizeLoop alphabet s skip = .error e → e = .overflow := by
  intro s
  induction s with
  | nil => intro skip e h; cases h
  | cons c cs ih =>
    intro skip e h
    rw [normalizeLoop] at h
    split at h
    · exact ih _ _ h
    · split at h
      · split at h
        · cases h; rfl
        · split at h
          · next hn => cases h; exact ih _ _ hn
          · cases h
      · split at h
        · cases h; rfl
        · split at h
          · next hn => cases h; exact ih _ _ hn
          · cases h

/-- **C133**: an addition that does not panic in the debug profile does the same in a release build, and
one that panics there for another reason than overflow panics in a release build for that reason. -/
theorem release_agrees (m : Vm) (t : List Char) (f : Option Nat) (p : VocabParams) :
    (∀ r, m.addToVocabulary t f p = .ok r → m.addToVocabularyRel t f p = .ok r) ∧
    (∀ e, e ≠ .overflow → m.addToVocabulary t f p = .error e → m.addToVocabularyRel t f p = .error e) := by
  unfold Vm.addToVocabulary Vm.addToVocabularyRel
  dsimp only
  cases he : m.encoder.get? t with
  | some i =>
    dsimp only
    cases hd : m.decoder[i]? with
    | none => exact ⟨fun r h => h, fun e _ h => h⟩
    | some item =>
      dsimp only
      have hbit : ∀ b, shiftBit p.index = .ok b → shiftBitRel p.index = b := by
        intro b hb
        unfold shiftBit at hb
        split at hb
        · cases hb
        · cases hb; rw [shiftBitRel, Nat.mod_eq_of_lt (by omega)]
      have hbit' : ∀ e, shiftBit p.index = .error e → e = .overflow := by
        intro e hb
        unfold shiftBit at hb
        split at hb
        · cases hb; rfl
        · cases hb
      have hfr : ∀ n, combineFreq p.freqHandling item.frequency (f.getD 1) = .ok n →
          combineFreqRel p.freqHandling item.frequency (f.getD 1) = n := by
        intro n hn
        cases hh : p.freqHandling <;> rw [hh] at hn <;> simp only [combineFreq] at hn
        · split at hn
          · cases hn
          · cases hn; exact Nat.mod_eq_of_lt (by omega)
        all_goals (cases hn; rfl)
      have hfr' : ∀ e, combineFreq p.freqHandling item.frequency (f.getD 1) = .error e →
          e = .overflow := by
        intro n hn
        cases hh : p.freqHandling <;> rw [hh] at hn <;> simp only [combineFreq] at hn
        · split at hn
          · cases hn; rfl
          · cases hn
        all_goals cases hn
      cases hc : combineFreq p.freqHandling item.frequency (f.getD 1) with
      | error e =>
        have := hfr' e hc
        exact ⟨fun r h => (by cases h), fun e' hne h => (by cases h; exact absurd this hne)⟩
      | ok n =>
        cases hs : shiftBit p.index with
        | error e =>
          have := hbit' e hs
          exact ⟨fun r h => (by cases h), fun e' hne h => (by cases h; exact absurd this hne)⟩
        | ok b =>
          rw [hfr n hc, hbit b hs]
          exact ⟨fun r h => h, fun e' hne h => (by cases h)⟩
  | none =>
    dsimp only
    cases hn : normalizeToAlphabet m.alphabet t with
    | error e =>
      have := normalizeLoop_overflow _ _ _ _ hn
      exact ⟨fun r h => (by cases h), fun e' hne h => (by cases h; exact absurd this hne)⟩
    | ok norm =>
      have hnn : normalizeToAlphabetRel m.alphabet t = norm := normalizeLoopRel_eq _ _ _ _ hn
      by_cases hi : p.index ≥ 32
      · simp only [shiftBit, if_pos hi]
        exact ⟨fun r h => (by cases h), fun e' hne h => (by cases h; exact absurd rfl hne)⟩
      · simp only [shiftBit, if_neg hi, bind, Except.bind]
        by_cases hsp : spaces t % 256 + 1 ≥ 256
        · rw [if_pos hsp]
          exact ⟨fun r h => (by cases h), fun e' hne h => (by cases h; exact absurd rfl hne)⟩
        · rw [if_neg hsp, hnn, shiftBitRel, Nat.mod_eq_of_lt (by omega : p.index < 32),
            Nat.mod_eq_of_lt (by omega : spaces t % 256 + 1 < 256)]
          exact ⟨fun r h => h, fun e' hne h => (by cases h)⟩

/-- **C133**: the same for additions one after another. -/
theorem release_agrees_many (as : List (List Char × Option Nat × VocabParams)) (m m' : Vm)
    (h : m.addMany as = .ok m') : m.addManyRel as = .ok m' := by
  induction as generalizing m with
  | nil => exact h
  | cons a as ih =>
    obtain ⟨t, f, p⟩ := a
    rw [Vm.addMany] at h
    obtain ⟨r, h1, h2⟩ := bind_ok.mp h
    rw [Vm.addManyRel, (release_agrees m t f p).1 r h1]
    exact ih _ h2

/-! ## What the vocabulary holds -/

/-- Looking up a text leads to an entry with that text. -/
def RelInv (m : Vm) : Prop :=
  ∀ t i, m.encoder.get? t = some i → ∃ v, m.decoder[i]? = some v ∧ v.text = t

/-- Frequency and lexicons of an entry after an addition. -/
def stepRel (c : Option (Nat × Nat)) (a : List Char × Option Nat × VocabParams) : Option (Nat × Nat) :=
  match c with
  | none => some (a.2.1.getD 1, shiftBitRel a.2.2.index)
  | some (f, l) => some (combineFreqRel a.2.2.freqHandling f (a.2.1.getD 1), l ||| shiftBitRel a.2.2.index)

/-- Frequency and lexicons of the entry of a text. -/
def coreRel (m : Vm) (t : List Char) : Option (Nat × Nat) :=
  (entry m t).map fun v => (v.frequency, v.lexindex)

theorem addRel_step {m : Vm} (inv : RelInv m) (t : List Char) (f : Option Nat) (p : VocabParams) :
    ∃ m' i, m.addToVocabularyRel t f p = .ok (m', i) ∧ RelInv m' ∧
      ∀ t', coreRel m' t' = if t = t' then stepRel (coreRel m t') (t, f, p) else coreRel m t' := by
  unfold Vm.addToVocabularyRel
  dsimp only
  cases he : m.encoder.get? t with
  | some i =>
    obtain ⟨v, hv, hvt⟩ := inv t i he
    have hlt : i < m.decoder.length := by
      by_contra h
      rw [List.getElem?_eq_none (by omega)] at hv; cases hv
    dsimp only
    rw [hv]
    refine ⟨_, _, rfl, ?_, ?_⟩
    · intro t' j hj
      dsimp only at hj ⊢
      obtain ⟨w, hw, hwt⟩ := inv t' j hj
      by_cases hij : i = j
      · subst hij
        rw [hv] at hw; cases hw
        refine ⟨_, List.getElem?_set_self hlt, hwt⟩
      · exact ⟨w, by rw [List.getElem?_set_ne hij]; exact hw, hwt⟩
    · intro t'
      by_cases ht : t = t'
      · subst ht
        rw [if_pos rfl]
        simp only [coreRel, entry, he, hv, Option.bind_some, List.getElem?_set_self hlt, Option.map_some,
          stepRel]
      · rw [if_neg ht]
        simp only [coreRel, entry]
        cases hj : m.encoder.get? t' with
        | none => rfl
        | some j =>
          obtain ⟨w, hw, hwt⟩ := inv t' j hj
          have hij : i ≠ j := by
            rintro rfl
            rw [hv] at hw; cases hw
            exact ht (hvt.symm.trans hwt)
          simp only [Option.bind_some, List.getElem?_set_ne hij]
  | none =>
    refine ⟨_, _, rfl, ?_, ?_⟩
    · intro t' j hj
      dsimp only at hj ⊢
      rw [get?_insert] at hj
      by_cases ht : t = t'
      · rw [if_pos ht] at hj; cases hj
        exact ⟨_, by rw [List.getElem?_append_right le_rfl, Nat.sub_self]; rfl, ht⟩
      · rw [if_neg ht] at hj
        obtain ⟨w, hw, hwt⟩ := inv t' j hj
        have hlt : j < m.decoder.length := by
          by_contra h
          rw [List.getElem?_eq_none (by omega)] at hw; cases hw
        exact ⟨w, by rw [List.getElem?_append_left hlt]; exact hw, hwt⟩
    · intro t'
      by_cases ht : t = t'
      · subst ht
        rw [if_pos rfl]
        simp only [coreRel, entry, he, get?_insert, if_true, Option.bind_some, Option.bind_none,
          List.getElem?_append_right le_rfl, Nat.sub_self, List.getElem?_cons_zero, Option.map_some,
          Option.map_none, stepRel]
      · rw [if_neg ht]
        simp only [coreRel, entry, get?_insert, if_neg ht]
        cases hj : m.encoder.get? t' with
        | none => rfl
        | some j =>
          obtain ⟨w, hw, hwt⟩ := inv t' j hj
          have hlt : j < m.decoder.length := by
            by_contra h
            rw [List.getElem?_eq_none (by omega)] at hw; cases hw
          simp only [Option.bind_some, List.getElem?_append_left hlt]

theorem addManyRel_fold : ∀ (as : List (List Char × Option Nat × VocabParams)) {m : Vm}, RelInv m →
    ∃ m', m.addManyRel as = .ok m' ∧ RelInv m' ∧
      ∀ t, coreRel m' t = (as.filter fun a => a.1 = t).foldl stepRel (coreRel m t)
  | [], m, inv => ⟨m, rfl, inv, fun _ => rfl⟩
  | (t, f, p) :: as, m, inv => by
    obtain ⟨m1, i, h1, inv1, hc1⟩ := addRel_step inv t f p
    obtain ⟨m', h2, inv2, hc2⟩ := addManyRel_fold as inv1
    refine ⟨m', ?_, inv2, ?_⟩
    · rw [Vm.addManyRel, h1]; exact h2
    · intro t'
      rw [hc2, hc1]
      by_cases ht : t = t'
      · simp only [ht, if_true, decide_true, List.filter_cons_of_pos, List.foldl_cons]
      · simp only [ht, if_false, decide_false, Bool.false_eq_true, not_false_eq_true,
          List.filter_cons_of_neg]

theorem shiftBitRel_testBit (i k : Nat) : (shiftBitRel i).testBit k = true ↔ i % 32 = k := by
  rw [shiftBitRel, Nat.one_shiftLeft, Nat.testBit_two_pow, decide_eq_true_eq]

theorem stepRel_fold (as : List (List Char × Option Nat × VocabParams)) (f l : Nat) :
    ∃ f' l', as.foldl stepRel (some (f, l)) = some (f', l') ∧
      (∀ k, l'.testBit k = true ↔ l.testBit k = true ∨ ∃ a ∈ as, a.2.2.index % 32 = k) ∧
      ∀ h, (∀ a ∈ as, a.2.2.freqHandling = h) →
        f' = (as.map fun a => a.2.1.getD 1).foldl (combineFreqRel h) f := by
  induction as generalizing f l with
  | nil => exact ⟨f, l, rfl, by simp, fun _ _ => rfl⟩
  | cons a as ih =>
    obtain ⟨f', l', h1, h2, h3⟩ := ih (combineFreqRel a.2.2.freqHandling f (a.2.1.getD 1))
      (l ||| shiftBitRel a.2.2.index)
    refine ⟨f', l', h1, ?_, ?_⟩
    · intro k
      rw [h2, Nat.testBit_or, Bool.or_eq_true, shiftBitRel_testBit]
      simp only [List.mem_cons, exists_eq_or_imp, or_assoc]
    · intro h hh
      rw [h3 h (fun b hb => hh b (List.mem_cons_of_mem _ hb)), hh a (by simp)]
      rfl

theorem foldl_sumRel (l : List Nat) (a : Nat) (ha : a < 2 ^ 32) :
    l.foldl (combineFreqRel .sum) a = (a + l.sum) % 2 ^ 32 := by
  induction l generalizing a with
  | nil => rw [List.sum_nil, Nat.add_zero, Nat.mod_eq_of_lt ha]; rfl
  | cons b l ih =>
    have := ih ((a + b) % 2 ^ 32) (Nat.mod_lt _ (by decide))
    rw [List.sum_cons, ← Nat.add_assoc, ← Nat.mod_add_mod]
    exact this

theorem combineFreqRel_eq {h : FrequencyHandling} (hh : h ≠ .sum) : combineFreqRel h = combine h := by
  funext a b
  cases h
  · exact absurd rfl hh
  · simp only [combineFreqRel, combine]; split <;> omega
  · simp only [combineFreqRel, combine]; split <;> omega
  · rfl

theorem relInv_new (alphabet : Alphabet) : RelInv (Vm.new alphabet) := by
  intro t i h
  simp only [Vm.new, get?_insert, HMap.get?] at h
  split at h
  · next e => cases h; exact ⟨_, rfl, e⟩
  · split at h
    · next e => cases h; exact ⟨_, rfl, e⟩
    · split at h
      · next e => cases h; exact ⟨_, rfl, e⟩
      · cases h

theorem coreRel_new {alphabet : Alphabet} {t : List Char} (hr : ¬ Reserved t) :
    coreRel (Vm.new alphabet) t = none := by
  have h1 : ¬ unkText = t := fun e => hr (.inr (.inr e.symm))
  have h2 : ¬ eosText = t := fun e => hr (.inr (.inl e.symm))
  have h3 : ¬ bosText = t := fun e => hr (.inl e.symm)
  simp only [coreRel, entry, Vm.new, get?_insert, HMap.get?, if_neg h1, if_neg h2, if_neg h3]
  rfl

/-- **C133**: in a release build additions never panic.  A text has an entry exactly if it was added; the
entry counts as in a lexicon exactly if it was added with an index that is equal modulo 32; and the
frequency is the maximum, minimum or last of those given, or the sum modulo `2 ^ 32`. -/
theorem release_vocabulary (alphabet : Alphabet) (as : List (List Char × Option Nat × VocabParams))
    (hf : ∀ a ∈ as, a.2.1.getD 1 < 2 ^ 32) :
    ∃ m, (Vm.new alphabet).addManyRel as = .ok m ∧ ∀ t, ¬ Reserved t →
      ((∃ i v, EntryAt m t i v) ↔ ∃ a ∈ as, a.1 = t) ∧
      ∀ i v, EntryAt m t i v →
        (∀ k, v.inLexiconRel k = true ↔ ∃ a ∈ as, a.1 = t ∧ a.2.2.index % 32 = k % 32) ∧
        ∀ h, (∀ a ∈ as, a.1 = t → a.2.2.freqHandling = h) →
          CombinedWrapping h (givenFor t as) v.frequency := by
  obtain ⟨m, hm, inv, hc⟩ := addManyRel_fold as (relInv_new alphabet)
  refine ⟨m, hm, fun t hr => ?_⟩
  have hct := hc t
  rw [coreRel_new hr] at hct
  have hent : ∀ i v, EntryAt m t i v → coreRel m t = some (v.frequency, v.lexindex) := by
    rintro i v ⟨h1, h2, _⟩
    simp only [coreRel, entry, h1, h2, Option.bind_some, Option.map_some]
  cases hl : as.filter fun a => a.1 = t with
  | nil =>
    have hno : ¬ ∃ a ∈ as, a.1 = t := by
      rintro ⟨a, ha, h⟩
      have : a ∈ as.filter fun a => a.1 = t := List.mem_filter.mpr ⟨ha, decide_eq_true h⟩
      rw [hl] at this
      cases this
    rw [hl] at hct
    have hn : ¬ ∃ i v, EntryAt m t i v := by
      rintro ⟨i, v, h⟩
      rw [hent i v h] at hct; cases hct
    exact ⟨⟨fun h => absurd h hn, fun h => absurd h hno⟩, fun i v h => absurd ⟨i, v, h⟩ hn⟩
  | cons a as' =>
    have hmem : ∀ b, b ∈ a :: as' ↔ b ∈ as ∧ b.1 = t := by
      intro b
      rw [← hl, List.mem_filter, decide_eq_true_eq]
    rw [hl, List.foldl_cons] at hct
    obtain ⟨f', l', h1, h2, h3⟩ := stepRel_fold as' (a.2.1.getD 1) (shiftBitRel a.2.2.index)
    have hct' : coreRel m t = some (f', l') := hct.trans h1
    refine ⟨⟨fun _ => ⟨a, (hmem a).mp (by simp)⟩, fun _ => ?_⟩, ?_⟩
    · simp only [coreRel, entry, Option.map_eq_some_iff, Option.bind_eq_some_iff] at hct'
      obtain ⟨v, ⟨i, hi, hv⟩, _⟩ := hct'
      obtain ⟨w, hw, hwt⟩ := inv t i hi
      rw [hv] at hw; cases hw
      exact ⟨i, v, hi, hv, hwt⟩
    · intro i v hv
      have := (hent i v hv).symm.trans hct'
      rw [Option.some.injEq, Prod.mk.injEq] at this
      obtain ⟨e1, e2⟩ := this
      refine ⟨?_, ?_⟩
      · intro k
        rw [VocabValue.inLexiconRel, decide_eq_true_eq, shiftBitRel, and_shift, e2, h2, shiftBitRel_testBit]
        constructor
        · rintro (h | ⟨b, hb, h⟩)
          · exact ⟨a, ((hmem a).mp (by simp)).1, ((hmem a).mp (by simp)).2, h⟩
          · exact ⟨b, ((hmem b).mp (by simp [hb])).1, ((hmem b).mp (by simp [hb])).2, h⟩
        · rintro ⟨b, hb, hbt, h⟩
          rcases List.mem_cons.mp ((hmem b).mpr ⟨hb, hbt⟩) with rfl | hb'
          · exact .inl h
          · exact .inr ⟨b, hb', h⟩
      · intro h hh
        have hg : givenFor t as = a.2.1.getD 1 :: as'.map fun a => a.2.1.getD 1 := by
          rw [givenFor, hl, List.map_cons]
        have e3 := h3 h (fun b hb => hh b ((hmem b).mp (by simp [hb])).1 ((hmem b).mp (by simp [hb])).2)
        rw [hg, e1, e3]
        cases h
        · rw [foldl_sumRel _ _ (hf a ((hmem a).mp (by simp)).1)]
          simp only [CombinedWrapping, List.sum_cons]
        · rw [combineFreqRel_eq (by decide)]; exact foldl_max _ _
        · rw [combineFreqRel_eq (by decide)]; exact foldl_min _ _
        · rw [combineFreqRel_eq (by decide)]; exact foldl_replace _ _

/-- Two lexicons, 32 apart, and a text in each. -/
def exFar : List (List Char × Option Nat × VocabParams) :=
  [(['a'], some 4294967295, { freqHandling := .sum, index := 0 }),
   (['b'], some 5, { freqHandling := .sum, index := 32 }),
   (['a'], some 3, { freqHandling := .sum, index := 1 })]

/-- **C133**: in a release build, the text of the 33rd lexicon counts as one of the first, to which it was
never added, and adding to a frequency can make it smaller; in the debug profile both are panics. -/
theorem release_confuses :
    (∃ m, (Vm.new exAlphabet).addManyRel exFar = .ok m ∧
      (∃ i v, EntryAt m ['b'] i v ∧ v.inLexiconRel 0 = true) ∧
      ∃ i v, EntryAt m ['a'] i v ∧ v.frequency = 2) ∧
    (Vm.new exAlphabet).addMany (exFar.take 2) = .error .overflow ∧
    (Vm.new exAlphabet).addMany [exFar[0], exFar[2]] = .error .overflow := by
  refine ⟨?_, rfl, rfl⟩
  obtain ⟨m, hm, h⟩ := release_vocabulary exAlphabet exFar (by decide)
  refine ⟨m, hm, ?_, ?_⟩
  · obtain ⟨h1, h2⟩ := h ['b'] (by decide)
    obtain ⟨i, v, hv⟩ := h1.mpr ⟨_, .tail _ (.head _), rfl⟩
    exact ⟨i, v, hv, ((h2 i v hv).1 0).mpr (by decide)⟩
  · obtain ⟨h1, h2⟩ := h ['a'] (by decide)
    obtain ⟨i, v, hv⟩ := h1.mpr ⟨_, .head _, rfl⟩
    exact ⟨i, v, hv, (h2 i v hv).2 .sum (by decide)⟩

/-- An addition that both profiles do alike. -/
example : ∃ r, (Vm.new exAlphabet).addToVocabulary ['b'] (some 5) {} = .ok r ∧
    (Vm.new exAlphabet).addToVocabularyRel ['b'] (some 5) {} = .ok r :=
  ⟨_, rfl, (release_agrees _ _ _ _).1 _ rfl⟩

example : ∃ m, (Vm.new exAlphabet).addMany (exFar.drop 2) = .ok m ∧
    (Vm.new exAlphabet).addManyRel (exFar.drop 2) = .ok m :=
  ⟨_, rfl, release_agrees_many _ _ _ rfl⟩

end Verif.Props
