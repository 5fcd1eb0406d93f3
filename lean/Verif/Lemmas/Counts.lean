import Verif.Lemmas.Lm
import Verif.Lemmas.Load
import Verif.Props.Resources
import Verif.Props.NGram
import Verif.Props.Lm
import Verif.Spec.Counts

/-! # Counts of a loaded language model -/
namespace Verif.Lemmas

open Verif.Model Verif.Spec Verif.Props

/-! ## Which n-grams are counted -/

theorem addNgram_isSome {ng ng' : HMap NGram Nat} {g : NGram} {f : Nat}
    (h : addNgram ng g f = .ok ng') (g' : NGram) :
    (ng'.get? g').isSome = true ↔ (ng.get? g').isSome = true ∨ g = g' := by
  unfold addNgram at h
  split at h
  · next n hn =>
    split at h
    · cases h
    · cases h
      rw [get?_insert]
      by_cases e : g = g'
      · simp [e]
      · simp [e]
  · next hn =>
    cases h
    rw [get?_insert]
    by_cases e : g = g'
    · simp [e]
    · simp [e]

theorem lmStep_isSome {m m' : Vm} (hinv : Inv m) {id : Nat} {v : VocabValue}
    (hv : m.decoder[id]? = some v) (hs : spaces v.text < 255) {u u' : Option (HMap (List Char) Nat)}
    (h : m.lmStep id u = .ok (m', u')) (g : NGram) :
    (m'.ngrams.get? g).isSome = true ↔
      (m.ngrams.get? g).isSome = true ∨ (v.vocabtype.lm = true ∧ tokenIds m v = g.toVec) := by
  unfold Vm.lmStep at h
  simp only [hv, check_lm, intoNgram_eq hinv hv hs] at h
  split at h
  · next hlm =>
    simp only [bind_ok] at h
    obtain ⟨⟨g0, u1⟩, h1, h2⟩ := h
    cases h1
    split at h2
    · next hn =>
      cases h2
      have : tokenIds m v ≠ g.toVec := by
        intro e
        rw [e, fromList_toVec] at hn; cases hn
      simp [this]
    · next g0 hg =>
      simp only [bind_ok, pure_ok, Prod.mk.injEq] at h2
      obtain ⟨fs, hfs, ng, hng, rfl, _⟩ := h2
      have hvec := fromList_some hg
      show (ng.get? g).isSome = true ↔ _
      rw [addNgram_isSome hng]
      have : g0 = g ↔ v.vocabtype.lm = true ∧ tokenIds m v = g.toVec := by
        constructor
        · rintro rfl
          exact ⟨hlm, hvec.symm⟩
        · rintro ⟨_, e⟩
          rw [e, fromList_toVec] at hg
          cases hg
          rfl
      rw [this]
  · next hlm =>
    cases h
    simp [hlm]

theorem lmLoop_isSome {m m' : Vm} (hinv : Inv m) {ids : List Nat}
    (hs : ∀ v ∈ m.decoder, spaces v.text < 255) {u u' : Option (HMap (List Char) Nat)}
    (h : m.lmLoop ids u = .ok (m', u')) (g : NGram) :
    (m'.ngrams.get? g).isSome = true ↔ (m.ngrams.get? g).isSome = true ∨
      ∃ i ∈ ids, ∃ v, m.decoder[i]? = some v ∧ v.vocabtype.lm = true ∧ tokenIds m v = g.toVec := by
  induction ids generalizing m u with
  | nil => cases h; simp
  | cons id ids ih =>
    simp only [Vm.lmLoop, bind_ok] at h
    obtain ⟨⟨m1, u1⟩, h1, h2⟩ := h
    obtain ⟨_, hsame, hf, _⟩ := lmStep_cases h1
    have hinv1 := hsame.inv (hf hinv.freqSum) hinv
    have hd := hsame.decoder
    have he := hsame.encoder
    have a := ih hinv1 (by rw [hd]; exact hs) h2
    cases hv : m.decoder[id]? with
    | none => simp [Vm.lmStep, hv] at h1
    | some v =>
      have c := lmStep_isSome hinv hv (hs v (List.mem_of_getElem? hv)) h1 g
      rw [a, c, hd]
      simp only [tokenIds_congr he, List.mem_cons, exists_eq_or_imp, hv, Option.some.injEq,
        exists_eq_left', or_assoc]

theorem build_isSome {m m' : Vm} {o : Orders} (hinv : Inv m)
    (hs : ∀ v ∈ m.decoder, spaces v.text < 255) (h : m.build o = .ok m') (g : NGram) :
    (m'.ngrams.get? g).isSome = true ↔ (m.ngrams.get? g).isSome = true ∨
      ∃ v ∈ m.decoder, v.vocabtype.lm = true ∧ tokenIds m v = g.toVec := by
  simp only [Vm.build, bind_ok] at h
  obtain ⟨m1, h1, h2⟩ := h
  have a1 := buildIndex_cases h1
  have hd : m1.decoder = m.decoder := by rw [a1]
  have he : m1.encoder = m.encoder := by rw [a1]
  have hg : m1.ngrams = m.ngrams := by rw [a1]
  have hinv1 : Inv m1 := by
    rw [a1]
    exact ⟨hinv.bij, hinv.bos, hinv.eos, hinv.unk, hinv.notIndexed, hinv.tokens, hinv.freqSum⟩
  obtain ⟨m2, hl, rfl, _⟩ := buildLm_cases h2
  have := lmLoop_isSome hinv1 (by rw [hd]; exact hs) hl g
  show (m2.ngrams.get? g).isSome = true ↔ _
  rw [this, hg, hd]
  simp only [tokenIds_congr he]
  refine or_congr Iff.rfl ?_
  constructor
  · rintro ⟨i, _, v, hv, h3⟩
    exact ⟨v, List.mem_of_getElem? hv, h3⟩
  · rintro ⟨v, hv, h3⟩
    obtain ⟨i, hi⟩ := List.getElem?_of_mem hv
    refine ⟨i, ?_, v, hi, h3⟩
    rw [List.mem_range]
    exact (List.getElem?_eq_some_iff.mp hi).1

/-- Whether there is a language model is decided by whether anything was counted. -/
theorem build_haveLm {m m' : Vm} {o : Orders} (h : m.build o = .ok m') :
    m'.haveLm = true ↔ ∃ g, (m'.ngrams.get? g).isSome = true := by
  simp only [Vm.build, bind_ok] at h
  obtain ⟨m1, h1, h2⟩ := h
  obtain ⟨m2, hl, rfl, _⟩ := buildLm_cases h2
  show (!m2.ngrams.isEmpty) = true ↔ ∃ g, (m2.ngrams.get? g).isSome = true
  cases hn : m2.ngrams with
  | nil => simp [HMap.get?]
  | cons e l =>
    refine ⟨fun _ => ⟨e.1, ?_⟩, fun _ => rfl⟩
    simp [HMap.get?]

/-! ## Loading does not count -/

theorem add_ngrams {m m' : Vm} {t : List Char} {f : Option Nat} {p : VocabParams} {id : Nat}
    (h : m.addToVocabulary t f p = .ok (m', id)) : m'.ngrams = m.ngrams := by
  rcases add_cases h with ⟨_, _, _, _, _, _, rfl⟩ | ⟨_, _, _, _, _, _, rfl⟩ <;> rfl

theorem addVariants_ngrams {params : VocabParams} {refId : Nat} {vs : List (List Char × Rat × Option Nat)} :
    ∀ {m m' : Vm}, addVariants params refId m vs = .ok m' → m'.ngrams = m.ngrams := by
  induction vs with
  | nil => intro m m' h; cases h; rfl
  | cons v vs ih =>
    intro m m' h
    obtain ⟨⟨m1, b⟩, h1, h2⟩ := bind_ok.mp h
    obtain ⟨⟨m3, id⟩, h3, h4⟩ := bind_ok.mp h1
    have e := congrArg (fun y : Vm × Bool => y.1.ngrams) (pure_ok.mp h4)
    rw [ih h2]
    refine Eq.trans e.symm ?_
    show (m3.addVariantById refId id v.2.1).1.ngrams = m.ngrams
    rw [(addVariantById_core _ _ _ _).1]
    show m3.ngrams = m.ngrams
    exact add_ngrams h3

theorem addEntries_ngrams {params variantParams : VocabParams} {es : List VariantEntry} :
    ∀ {m m' : Vm}, addEntries params variantParams m es = .ok m' → m'.ngrams = m.ngrams := by
  induction es with
  | nil => intro m m' h; cases h; rfl
  | cons e es ih =>
    intro m m' h
    obtain ⟨⟨m1, id⟩, h1, h⟩ := bind_ok.mp h
    obtain ⟨m2, h2, h3⟩ := bind_ok.mp h
    rw [ih h3, addVariants_ngrams h2, add_ngrams h1]

theorem readVocabulary_ngrams {m m' : Vm} {f : List Char} {params : VocabParams}
    {lines : List (Option (List Char))} (h : m.readVocabulary f params lines = .ok m') :
    m'.ngrams = m.ngrams := by
  obtain ⟨es, m1, _, h2, rfl⟩ := (read_vocabulary _ _ _ _ _).mp h
  refine (run_noBuild ?_ h2).1
  intro op hop
  obtain ⟨e, _, rfl⟩ := List.mem_map.mp hop
  trivial

theorem readVariants_ngrams {m m' : Vm} {f : List Char} {parseF64 : List Char → Option Rat}
    {params : Option VocabParams} {transparent : Bool} {lines : List (Option (List Char))}
    (h : m.readVariants parseF64 f params transparent lines = .ok m') : m'.ngrams = m.ngrams := by
  obtain ⟨es, m1, _, h2, rfl⟩ := (read_variants _ _ _ _ _ _ _).mp h
  show m1.ngrams = m.ngrams
  exact addEntries_ngrams h2

theorem readResources_ngrams {x : LoadExt} {rs : List Resource} :
    ∀ {m m' : Vm}, m.readResources x rs = .ok m' → m'.ngrams = m.ngrams := by
  induction rs with
  | nil => intro m m' h; cases h; rfl
  | cons r rs ih =>
    intro m m' h
    obtain ⟨m1, h1, h2⟩ := bind_ok.mp h
    rw [ih h2]
    cases r <;> obtain ⟨lines, h3, h4⟩ := bind_ok.mp h1
    · exact readVocabulary_ngrams h4
    · exact readVariants_ngrams h4
    · exact readVariants_ngrams h4

theorem readLms_ngrams {x : LoadExt} {fs : List (List Char)} :
    ∀ {m m' : Vm}, m.readLms x fs = .ok m' → m'.ngrams = m.ngrams := by
  induction fs with
  | nil => intro m m' h; cases h; rfl
  | cons f fs ih =>
    intro m m' h
    obtain ⟨lines, h1, h⟩ := bind_ok.mp h
    obtain ⟨m1, h2, h3⟩ := bind_ok.mp h
    rw [ih h3, readVocabulary_ngrams h2]

/-- A loaded model is built from one in which nothing is counted. -/
theorem loaded_build {x : LoadExt} {args : LoadArgs} {o : Orders} {L : Loaded}
    (h : x.load args o = .ok L) : ∃ m, Inv m ∧ m.ngrams = [] ∧ m.build o = .ok L.vm := by
  unfold LoadExt.load at h
  obtain ⟨m0, h0, h⟩ := bind_ok.mp h
  obtain ⟨m1, h1, h⟩ := bind_ok.mp h
  obtain ⟨m2, h2, h⟩ := bind_ok.mp h
  obtain ⟨cs, h3, h⟩ := bind_ok.mp h
  obtain ⟨book, h4, h⟩ := bind_ok.mp h
  obtain ⟨m3, h5, h⟩ := bind_ok.mp h
  cases pure_ok.mp h
  obtain ⟨lines, g0, g1⟩ := bind_ok.mp h0
  cases pure_ok.mp g1
  have i0 := inv_new (readAlphabet x.isSpace [] lines)
  obtain ⟨ops1, as1, a1, a2, a3⟩ := loads_resources i0 h1
  have i1 := a2.inv i0
  obtain ⟨ops2, as2, b1, b2, b3⟩ := loads_lms i1 h2
  refine ⟨m2, b2.inv i1, ?_, h5⟩
  rw [readLms_ngrams h2, readResources_ngrams h1]
  rfl

/-! ## Entries -/

theorem fold_reserved (as : List Add) (hh : ∀ a ∈ as, a.2.freqHandling = .max) : ∀ c : Core,
    ∃ c', as.foldl (fun c a => addCore true a c) (some c) = some c' ∧
      c'.freq = (freqsOf as).foldl max c.freq ∧ c'.type = if as = [] then c.type else .LM := by
  induction as with
  | nil => intro c; exact ⟨c, rfl, rfl, rfl⟩
  | cons a as ih =>
    intro c
    simp only [List.foldl_cons, addCore, freqsOf, List.map_cons]
    obtain ⟨c', h1, h2, h3⟩ := ih (fun b hb => hh b (by simp [hb]))
      ⟨combine a.2.freqHandling c.freq (a.1.getD 1), .LM, c.lex ||| (1 <<< a.2.index)⟩
    refine ⟨c', h1, ?_, ?_⟩
    · rw [h2, hh a (by simp)]
      rfl
    · rw [h3]
      split <;> simp

theorem foldl_max_foldr (l : List Nat) : ∀ n, l.foldl max n = max n (l.foldr max 0) := by
  induction l with
  | nil => intro n; simp
  | cons a l ih =>
    intro n
    rw [List.foldl_cons, ih, List.foldr_cons]
    omega

end Verif.Lemmas
