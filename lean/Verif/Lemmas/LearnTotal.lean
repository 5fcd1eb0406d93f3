import Verif.Lemmas.LoadTotal
import Verif.Model.LearnSearch

/-!
# Lemmas: learning succeeds
-/
namespace Verif.Lemmas

open Verif.Spec Verif.Model Verif.Props

/-- The number of findings whose text is not that of the one before. -/
def changes : Option (List Char) → List Finding → Nat
  | _, [] => 0
  | prev, f :: fs => (if prev = some f.input then 0 else 1) + changes (some f.input) fs

theorem changes_le (fs : List Finding) : ∀ prev, changes prev fs ≤ fs.length := by
  induction fs with
  | nil => intro _; exact Nat.le_refl _
  | cons f fs ih =>
    intro prev
    have := ih (some f.input)
    rw [changes, List.length_cons]
    split <;> omega

/-- Findings of one text change at most once. -/
theorem changes_same {t : List Char} (fs : List Finding) : (∀ f ∈ fs, f.input = t) →
    ∀ prev, changes prev fs ≤ 1 ∧ (prev = some t → changes prev fs = 0) := by
  induction fs with
  | nil => intro _ prev; exact ⟨Nat.zero_le _, fun _ => rfl⟩
  | cons f fs ih =>
    intro h prev
    have e := h f List.mem_cons_self
    have := (ih (fun g hg => h g (List.mem_cons_of_mem _ hg)) (some f.input)).2 (by rw [e])
    rw [changes, this]
    constructor
    · split <;> omega
    · intro hp
      rw [hp, e, if_pos rfl]

theorem changes_append (fs gs : List Finding) : ∀ prev,
    ∃ prev', changes prev (fs ++ gs) = changes prev fs + changes prev' gs := by
  induction fs with
  | nil => intro prev; exact ⟨prev, by simp [changes]⟩
  | cons f fs ih =>
    intro prev
    obtain ⟨prev', h⟩ := ih (some f.input)
    exact ⟨prev', by rw [List.cons_append, changes, changes, h, Nat.add_assoc]⟩

/-- A bound for the findings of several texts. -/
theorem changes_flatten {B : List Char → Nat} {ls : List (List Char)} {fss : List (List Finding)}
    (h : List.Forall₂ (fun l fs => ∀ prev, changes prev fs ≤ B l) ls fss) :
    ∀ prev, changes prev fss.flatten ≤ (ls.map B).sum := by
  induction h with
  | nil => intro prev; exact Nat.le_refl _
  | cons h _ ih =>
    intro prev
    rw [List.flatten_cons]
    obtain ⟨prev', e⟩ := changes_append _ _ prev
    rw [e, List.map_cons, List.sum_cons]
    exact Nat.add_le_add (h prev) (ih prev')

/-- What learning keeps. -/
structure Kept (m m' : Vm) : Prop where
  alphabet : m'.alphabet = m.alphabet
  ngrams : m'.ngrams = m.ngrams
  lexicons : m'.lexicons = m.lexicons

theorem learnId_total {A : Alphabet} (hne : NoEmpty A) (hlen : A.length ≤ 166) {m : Vm} (hinv : Inv m)
    (ha : m.alphabet = A) {t : List Char} {prev : Option (List Char)} (hs : spaces t % 256 < 255)
    (hprev : ∀ s, prev = some s → ∃ id, m.encoder.get? s = some id)
    (hf : freqTotal m.decoder + (if prev = some t then 0 else 1) < 2 ^ 32) :
    ∃ m' id, m.learnId t prev = .ok (m', id) ∧ Kept m m' ∧ m'.encoder.get? t = some id ∧
      freqTotal m'.decoder ≤ freqTotal m.decoder + (if prev = some t then 0 else 1) ∧
      ∀ v ∈ m'.decoder, v.text = t ∨ ∃ w ∈ m.decoder, w.text = v.text := by
  unfold Vm.learnId
  cases he : m.encoder.get? t with
  | some id =>
    have ht := (hinv.bij _ _).mp he
    simp only [textAt, Option.map_eq_some_iff] at ht
    obtain ⟨v, hv, htv⟩ := ht
    have hle : v.frequency ≤ freqTotal m.decoder :=
      List.single_le_sum (by simp) _ (List.mem_map_of_mem (List.mem_of_getElem? hv))
    simp only [hv]
    by_cases hp : prev = some t
    · rw [if_neg (by simpa using hp)]
      exact ⟨m, id, rfl, ⟨rfl, rfl, rfl⟩, he, Nat.le_add_right _ _, fun w hw => .inr ⟨w, hw, rfl⟩⟩
    · rw [if_neg hp] at hf
      rw [if_pos (by simpa using hp), if_neg (by omega), if_neg hp]
      refine ⟨_, id, rfl, ⟨rfl, rfl, rfl⟩, he, ?_, ?_⟩
      · have := freqTotal_set m.decoder id v { v with frequency := v.frequency + 1 } hv
        simp only at this ⊢
        omega
      · intro w hw
        rcases List.mem_or_eq_of_mem_set hw with hw | rfl
        · exact .inr ⟨w, hw, rfl⟩
        · exact .inl htv
  | none =>
    have hp : prev ≠ some t := by
      intro e
      obtain ⟨id, hid⟩ := hprev t e
      rw [he] at hid
      cases hid
    obtain ⟨cs, hcs⟩ := encodes_exists hne (A.length + 1) t
    rw [← normalize_is_greedy_encoding A hne (by omega)] at hcs
    have hok : ∃ r, m.addToVocabulary t (some 1) learnParams = .ok r := by
      unfold Vm.addToVocabulary
      simp only [he, ha, hcs, bind, Except.bind]
      have h0 : ∃ v, shiftBit learnParams.index = .ok v := ⟨_, rfl⟩
      obtain ⟨v, hv⟩ := h0
      simp only [hv]
      rw [if_neg (by omega)]
      exact ⟨_, rfl⟩
    obtain ⟨⟨m', id⟩, h⟩ := hok
    simp only [h]
    rcases add_cases h with ⟨_, _, he', _⟩ | ⟨norm, _, _, _, _, _, rfl⟩
    · rw [he] at he'; cases he'
    · refine ⟨_, id, rfl, ⟨rfl, rfl, rfl⟩, (inv_add hinv h).2.2, ?_, ?_⟩
      · rw [if_neg hp]
        simp [freqTotal, fresh]
      · intro v hv
        rcases List.mem_append.mp hv with hv | hv
        · exact .inr ⟨v, hv, rfl⟩
        · rw [List.mem_singleton.mp hv]
          exact .inl rfl

theorem addVariantById_kept (m : Vm) (r v : Nat) (s : Rat) : Kept m (m.addVariantById r v s).1 ∧
    freqTotal (m.addVariantById r v s).1.decoder = freqTotal m.decoder ∧
    (m.addVariantById r v s).1.encoder = m.encoder ∧
    ∀ w' ∈ (m.addVariantById r v s).1.decoder, ∃ w ∈ m.decoder, w.text = w'.text := by
  obtain ⟨h1, h2, h3⟩ := addVariantById_core m r v s
  refine ⟨⟨by rw [h1], by rw [h1], by rw [h1]⟩, freqTotal_core h2 h3, by rw [h1], ?_⟩
  intro w' hw'
  obtain ⟨i, hi⟩ := List.mem_iff_getElem?.mp hw'
  obtain ⟨w, hw, hc⟩ := h3 i w' hi
  exact ⟨w, List.mem_of_getElem? hw, (congrArg VocabValue.text hc).symm⟩

theorem learnLoop_total {A : Alphabet} (hne : NoEmpty A) (hlen : A.length ≤ 166) (fs : List Finding) :
    ∀ {m : Vm} (_ : Inv m) (_ : m.alphabet = A) {prev : Option (List Char)} (n : Nat),
      (∀ s, prev = some s → ∃ id, m.encoder.get? s = some id) → (∀ f ∈ fs, spaces f.input % 256 < 255) →
      freqTotal m.decoder + changes prev fs < 2 ^ 32 →
      ∃ m' k, m.learnLoop fs prev n = .ok (m', k) ∧ Kept m m' ∧
        freqTotal m'.decoder ≤ freqTotal m.decoder + changes prev fs ∧
        ∀ v ∈ m'.decoder, (∃ f ∈ fs, f.input = v.text) ∨ ∃ w ∈ m.decoder, w.text = v.text := by
  induction fs with
  | nil =>
    intro m _ _ prev n _ _ _
    exact ⟨m, n, rfl, ⟨rfl, rfl, rfl⟩, Nat.le_add_right _ _, fun v hv => .inr ⟨v, hv, rfl⟩⟩
  | cons f fs ih =>
    intro m hinv ha prev n hprev hs hf
    rw [changes] at hf
    obtain ⟨m1, id, h1, k1, e1, f1, t1⟩ := learnId_total hne hlen hinv ha (t := f.input) (prev := prev)
      (hs f List.mem_cons_self) hprev (by omega)
    obtain ⟨i1, _, _⟩ := inv_learnId hinv h1
    obtain ⟨k2, f2, e2, t2⟩ := addVariantById_kept m1 f.vocabId id f.distScore
    have i2 := (inv_addVariantById i1 f.vocabId id f.distScore).1
    have step : ∀ {m2 : Vm} (_ : Inv m2) (_ : Kept m1 m2) (_ : freqTotal m2.decoder = freqTotal m1.decoder)
        (_ : m2.encoder = m1.encoder) (_ : ∀ w' ∈ m2.decoder, ∃ w ∈ m1.decoder, w.text = w'.text) (n' : Nat),
        ∃ m' k, m2.learnLoop fs (some f.input) n' = .ok (m', k) ∧ Kept m m' ∧
        freqTotal m'.decoder ≤ freqTotal m.decoder + changes prev (f :: fs) ∧
        ∀ v ∈ m'.decoder, (∃ g ∈ f :: fs, g.input = v.text) ∨ ∃ w ∈ m.decoder, w.text = v.text := by
      intro m2 i2 k2 f2 e2 t2 n'
      obtain ⟨m', k, h3, k3, f3, t3⟩ := ih i2 (k2.alphabet.trans (k1.alphabet.trans ha)) n'
        (prev := some f.input) (by intro s hs'; cases hs'; exact ⟨id, by rw [e2]; exact e1⟩)
        (fun g hg => hs g (List.mem_cons_of_mem _ hg)) (by omega)
      refine ⟨m', k, h3, ⟨k3.alphabet.trans (k2.alphabet.trans k1.alphabet),
        k3.ngrams.trans (k2.ngrams.trans k1.ngrams), k3.lexicons.trans (k2.lexicons.trans k1.lexicons)⟩, ?_, ?_⟩
      · rw [changes]
        omega
      · intro v hv
        rcases t3 v hv with ⟨g, hg, e⟩ | ⟨w, hw, e⟩
        · exact .inl ⟨g, List.mem_cons_of_mem _ hg, e⟩
        · obtain ⟨w1, hw1, e'⟩ := t2 w hw
          rcases t1 w1 hw1 with e'' | ⟨w0, hw0, e''⟩
          · exact .inl ⟨f, List.mem_cons_self, by rw [← e, ← e', e'']⟩
          · exact .inr ⟨w0, hw0, by rw [e'', e', e]⟩
    by_cases hid : f.vocabId ≠ id
    · obtain ⟨m', k, h3, h4⟩ := step i2 k2 f2 e2 t2
        (if (m1.addVariantById f.vocabId id f.distScore).2 then n + 1 else n)
      refine ⟨m', k, bind_ok.mpr ⟨_, h1, ?_⟩, h4⟩
      simp only [if_pos hid]
      exact h3
    · obtain ⟨m', k, h3, h4⟩ := step i1 ⟨rfl, rfl, rfl⟩ rfl rfl (fun w hw => ⟨w, hw, rfl⟩) n
      refine ⟨m', k, bind_ok.mpr ⟨_, h1, ?_⟩, h4⟩
      simp only [if_neg hid]
      exact h3

/-- Learning from findings succeeds, with bounds for what is counted. -/
theorem learnVariants_total {A : Alphabet} (hne : NoEmpty A) (hlen : A.length ≤ 166) {m : Vm} (hinv : Inv m)
    (ha : m.alphabet = A) {fs : List Finding} (hs : ∀ f ∈ fs, spaces f.input % 256 < 255) {S T : Nat}
    (hS : freqTotal m.decoder + changes none fs ≤ S) (hT : ∀ g, count m.ngrams g + S ≤ T)
    (hT' : T < 2 ^ 32) (o : Orders) :
    ∃ m' k, m.learnVariants fs true o = .ok (m', k) ∧ freqTotal m'.decoder ≤ S ∧
      (∀ g, count m'.ngrams g ≤ T) ∧ m'.lexicons = m.lexicons ∧
      (∃ m1 c, m.learnVariants fs false o = .ok (m1, c) ∧ m1.build o = .ok m') ∧
      ∀ v ∈ m'.decoder, (∃ f ∈ fs, f.input = v.text) ∨ ∃ w ∈ m.decoder, w.text = v.text := by
  obtain ⟨m1, k, h1, k1, f1, t1⟩ := learnLoop_total hne hlen fs hinv ha (prev := none) 0
    (by intro s h; cases h) hs (by have := hT .empty; omega)
  have i1 := (inv_learnLoop hinv h1).1
  obtain ⟨m2, h2, c2⟩ := build_total_of hne hlen i1 (k1.alphabet.trans ha) (fun g => by
    have := hT g
    rw [k1.ngrams]
    omega) o
  have hb := (build_cases h2).1
  refine ⟨m2, k, bind_ok.mpr ⟨_, h1, bind_ok.mpr ⟨_, h2, rfl⟩⟩, ?_, fun g => ?_, ?_,
    ⟨m1, k, bind_ok.mpr ⟨_, h1, rfl⟩, h2⟩, ?_⟩
  · rw [hb]
    exact f1.trans hS
  · have a := c2 g
    have b := hT g
    rw [k1.ngrams] at a
    omega
  · rw [hb]
    exact k1.lexicons
  · intro v hv
    rw [hb] at hv
    exact t1 v hv

theorem variantsExist_learnLoop {fs : List Finding} : ∀ {m m' : Vm} {prev : Option (List Char)} {c c' : Nat},
    Inv m → VariantsExist m → m.learnLoop fs prev c = .ok (m', c') → VariantsExist m' := by
  induction fs with
  | nil => intro m m' prev c c' _ hv h; cases h; exact hv
  | cons f fs ih =>
    intro m m' prev c c' hinv hv h
    simp only [Vm.learnLoop, bind_ok] at h
    obtain ⟨⟨m1, id⟩, h1, h2⟩ := h
    obtain ⟨a1, _, a3⟩ := inv_learnId hinv h1
    have v1 : VariantsExist m1 := by
      unfold Vm.learnId at h1
      split at h1
      · split at h1
        · cases h1
        · next item hitem =>
          split at h1
          · split at h1
            · cases h1
            · cases h1
              intro w hw i s hi
              show i < (m.decoder.set id _).length
              rw [List.length_set]
              rcases List.mem_or_eq_of_mem_set hw with hw | rfl
              · exact hv w hw i s hi
              · exact hv item (List.mem_of_getElem? hitem) i s hi
          · cases h1; exact hv
      · exact variantsExist_add hv h1
    split at h2
    · exact ih (inv_addVariantById a1 f.vocabId id f.distScore).1
        (variantsExist_byId v1 (textAt_lt ((a1.bij _ _).mp a3))) h2
    · exact ih a1 v1 h2

theorem extends_length {m m' : Vm} (h : Extends m m') : m.decoder.length ≤ m'.decoder.length := by
  by_contra hc
  have hlt : m'.decoder.length < m.decoder.length := by omega
  have := textAt_lt (h.2 m'.decoder.length _ (by unfold textAt; rw [List.getElem?_eq_getElem hlt]; rfl))
  omega

theorem variantsExist_learnVariants {m m' : Vm} {fs : List Finding} {b : Bool} {o : Orders} {k : Nat}
    (hinv : Inv m) (hv : VariantsExist m) (h : m.learnVariants fs b o = .ok (m', k)) : VariantsExist m' := by
  obtain ⟨⟨m1, c⟩, h1, h2⟩ := bind_ok.mp h
  have v1 := variantsExist_learnLoop hinv hv h1
  cases b with
  | false => cases pure_ok.mp h2; exact v1
  | true =>
    obtain ⟨m2, h3, h4⟩ := bind_ok.mp h2
    cases pure_ok.mp h4
    exact variantsExist_build v1 h3

end Verif.Lemmas
