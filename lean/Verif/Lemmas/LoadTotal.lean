import Verif.Lemmas.Load
import Verif.Lemmas.Lm
import Verif.Lemmas.Index
import Verif.Props.Anahash

/-!
# Lemmas: adding words and building succeed
-/
namespace Verif.Lemmas

open Verif.Spec Verif.Model Verif.Props

/-- The sum of all frequencies. -/
def freqTotal (d : List VocabValue) : Nat := (d.map fun v => v.frequency).sum

/-- A model that was filled with words whose frequencies sum to at most `S`, and not built. -/
structure Ready (A : Alphabet) (S : Nat) (m : Vm) : Prop where
  inv : Inv m
  alphabet : m.alphabet = A
  ngrams : m.ngrams = []
  freq : freqTotal m.decoder ≤ S

theorem freqTotal_set (d : List VocabValue) : ∀ (i : Nat) (v w : VocabValue), d[i]? = some v →
    freqTotal (d.set i w) + v.frequency = freqTotal d + w.frequency := by
  induction d with
  | nil => intro i v w h; simp at h
  | cons a d ih =>
    intro i v w h
    cases i with
    | zero =>
      rw [List.getElem?_cons_zero, Option.some.injEq] at h
      subst h
      simp only [freqTotal, List.set_cons_zero, List.map_cons, List.sum_cons]
      omega
    | succ i =>
      have := ih i v w (by simpa using h)
      simp only [freqTotal, List.set_cons_succ, List.map_cons, List.sum_cons] at this ⊢
      omega

theorem add_total {A : Alphabet} (hne : NoEmpty A) (hlen : A.length ≤ 166) {S : Nat} {m : Vm}
    (hm : Ready A S m) {text : List Char} {f : Option Nat} {p : VocabParams} (hf : p.freqHandling = .max)
    (hi : p.index < 32) (hs : spaces text % 256 < 255) :
    ∃ m' id, m.addToVocabulary text f p = .ok (m', id) ∧ Ready A (S + f.getD 1) m' ∧
      m'.lexicons = m.lexicons := by
  suffices hok : ∃ r, m.addToVocabulary text f p = .ok r by
    obtain ⟨⟨m', id⟩, h⟩ := hok
    refine ⟨m', id, h, ?_, (add_fields h).2⟩
    obtain ⟨a1, a2, _⟩ := inv_add hm.inv h
    refine ⟨a1, a2.1.trans hm.alphabet, ?_, ?_⟩
    · rcases add_cases h with ⟨_, _, _, _, _, _, rfl⟩ | ⟨_, _, _, _, _, _, rfl⟩
      · exact hm.ngrams
      · exact hm.ngrams
    · have hq := hm.freq
      rcases add_cases h with ⟨item, freq, _, hd, hc, _, rfl⟩ | ⟨norm, _, _, _, _, _, rfl⟩
      · have := freqTotal_set m.decoder id item { item with
          frequency := freq
          vocabtype := updateType id item.vocabtype p.vocabType
          lexindex := item.lexindex ||| (1 <<< p.index) } hd
        simp only at this
        rw [hf] at hc
        simp only [combineFreq, Except.ok.injEq] at hc
        show freqTotal (m.decoder.set id _) ≤ _
        split at hc <;> omega
      · show freqTotal (m.decoder ++ [_]) ≤ _
        have : freqTotal (m.decoder ++ [fresh text norm f p]) = freqTotal m.decoder + f.getD 1 := by
          simp [freqTotal, fresh]
        omega
  have hb : shiftBit p.index = .ok (1 <<< p.index) := by
    unfold shiftBit
    rw [if_neg (by omega)]
  unfold Vm.addToVocabulary
  cases he : m.encoder.get? text with
  | some id =>
    have ht := (hm.inv.bij _ _).mp he
    simp only [textAt, Option.map_eq_some_iff] at ht
    obtain ⟨v, hv, _⟩ := ht
    simp only [hv, hf, combineFreq, hb]
    exact ⟨_, rfl⟩
  | none =>
    obtain ⟨cs, hcs⟩ := encodes_exists hne (A.length + 1) text
    rw [← normalize_is_greedy_encoding A hne (by omega)] at hcs
    simp only [hm.alphabet, hcs, hb, bind, Except.bind]
    rw [if_neg (by omega)]
    exact ⟨_, rfl⟩

theorem freqTotal_core {d d' : List VocabValue} (hl : d'.length = d.length)
    (h : ∀ (i : Nat) (w' : VocabValue), d'[i]? = some w' → ∃ w, d[i]? = some w ∧ SameCore w' w) :
    freqTotal d' = freqTotal d := by
  unfold freqTotal
  congr 1
  apply List.ext_getElem?
  intro i
  rw [List.getElem?_map, List.getElem?_map]
  cases hd : d'[i]? with
  | none =>
    rw [List.getElem?_eq_none_iff] at hd
    rw [List.getElem?_eq_none (by omega)]
  | some w' =>
    obtain ⟨w, h1, h2⟩ := h i w' hd
    rw [h1]
    simp only [Option.map_some, Option.some.injEq]
    have := congrArg VocabValue.frequency h2
    exact this

theorem ready_addVariantById {A : Alphabet} {S : Nat} {m : Vm} (hm : Ready A S m) (r v : Nat) (s : Rat) :
    Ready A S (m.addVariantById r v s).1 ∧ (m.addVariantById r v s).1.lexicons = m.lexicons := by
  obtain ⟨h1, h2, h3⟩ := addVariantById_core m r v s
  obtain ⟨i1, i2, _⟩ := inv_addVariantById hm.inv r v s
  refine ⟨⟨i1, i2.1.trans hm.alphabet, ?_, ?_⟩, ?_⟩
  · rw [h1]; exact hm.ngrams
  · rw [freqTotal_core h2 h3]; exact hm.freq
  · rw [h1]

/-- The sum of the frequencies of additions. -/
def addTotal (as : List (List Char × Option Nat × VocabParams)) : Nat :=
  (as.map fun a => a.2.1.getD 1).sum

theorem addTotal_append (as bs : List (List Char × Option Nat × VocabParams)) :
    addTotal (as ++ bs) = addTotal as + addTotal bs := by
  simp [addTotal]

theorem addTotal_cons (a : List Char × Option Nat × VocabParams)
    (as : List (List Char × Option Nat × VocabParams)) :
    addTotal (a :: as) = a.2.1.getD 1 + addTotal as := by
  simp [addTotal]

theorem addOps_total {A : Alphabet} (hne : NoEmpty A) (hlen : A.length ≤ 166) {p : VocabParams}
    (hf : p.freqHandling = .max) (hi : p.index < 32) (es : List (List Char × Nat)) :
    ∀ {S : Nat} {m : Vm}, Ready A S m → (∀ e ∈ es, spaces e.1 % 256 < 255) →
    ∃ m', m.run (es.map fun e => .add e.1 (some e.2) p) = .ok m' ∧
      Ready A (S + addTotal (es.map fun e => (e.1, some e.2, p))) m' ∧ m'.lexicons = m.lexicons := by
  induction es with
  | nil => intro S m hm _; exact ⟨m, rfl, hm, rfl⟩
  | cons e es ih =>
    intro S m hm hs
    obtain ⟨m1, id, h1, h2, h3⟩ := add_total hne hlen hm (f := some e.2) hf hi (hs e (by simp))
    obtain ⟨m2, h4, h5, h6⟩ := ih h2 fun e' he' => hs e' (by simp [he'])
    refine ⟨m2, bind_ok.mpr ⟨m1, bind_ok.mpr ⟨_, h1, rfl⟩, h4⟩, ?_, h6.trans h3⟩
    rw [List.map_cons, addTotal_cons, ← Nat.add_assoc]
    exact h5

theorem ready_fields {A : Alphabet} {S : Nat} {m : Vm} (hm : Ready A S m) (l : List (List Char)) (b : Bool) :
    Ready A S { m with lexicons := l, haveFreq := b } :=
  ⟨⟨hm.inv.bij, hm.inv.bos, hm.inv.eos, hm.inv.unk, hm.inv.notIndexed, hm.inv.tokens, hm.inv.freqSum⟩,
    hm.alphabet, hm.ngrams, hm.freq⟩

theorem vocabulary_total {A : Alphabet} (hne : NoEmpty A) (hlen : A.length ≤ 166) {p : VocabParams}
    (hf : p.freqHandling = .max) {S : Nat} {m : Vm} (hm : Ready A S m) (hl : m.lexicons.length < 32)
    {f : List Char} {lines : List (Option (List Char))} {es : List (List Char × Nat)}
    (hes : List.Forall₂ (VocabLine p) (nonEmpty lines) es) (hs : ∀ e ∈ es, spaces e.1 % 256 < 255) :
    ∃ m', m.readVocabulary f p lines = .ok m' ∧
      Ready A (S + addTotal (es.map fun e =>
        (e.1, some e.2, { p with index := m.lexicons.length % 256 }))) m' ∧
      m'.lexicons = m.lexicons ++ [f] := by
  obtain ⟨m1, h1, h2, h3⟩ := addOps_total hne hlen (p := { p with index := m.lexicons.length % 256 }) hf
    (by show m.lexicons.length % 256 < 32; omega) es hm hs
  exact ⟨_, (read_vocabulary _ _ _ _ _).mpr ⟨es, m1, hes, h1, rfl⟩, ready_fields h2 _ _, rfl⟩

theorem addVariants_total {A : Alphabet} (hne : NoEmpty A) (hlen : A.length ≤ 166) {p : VocabParams}
    (hf : p.freqHandling = .max) (hi : p.index < 32) {refId : Nat}
    (vs : List (List Char × Rat × Option Nat)) : ∀ {S : Nat} {m : Vm}, Ready A S m →
    (∀ v ∈ vs, spaces v.1 % 256 < 255) →
    ∃ m', addVariants p refId m vs = .ok m' ∧
      Ready A (S + addTotal (vs.map fun v => (v.1, v.2.2, p))) m' ∧ m'.lexicons = m.lexicons := by
  induction vs with
  | nil => intro S m hm _; exact ⟨m, rfl, hm, rfl⟩
  | cons v vs ih =>
    intro S m hm hs
    obtain ⟨m1, id, h1, h2, h3⟩ := add_total hne hlen hm (f := v.2.2) hf hi (hs v (by simp))
    obtain ⟨r1, r2⟩ := ready_addVariantById h2 refId id v.2.1
    obtain ⟨m2, h4, h5, h6⟩ := ih r1 fun e' he' => hs e' (by simp [he'])
    refine ⟨m2, bind_ok.mpr ⟨_, bind_ok.mpr ⟨_, h1, rfl⟩, h4⟩, ?_, h6.trans (r2.trans h3)⟩
    rw [List.map_cons, addTotal_cons, ← Nat.add_assoc]
    exact h5

theorem addEntries_total {A : Alphabet} (hne : NoEmpty A) (hlen : A.length ≤ 166) {p vp : VocabParams}
    (hf : p.freqHandling = .max) (hi : p.index < 32) (hvf : vp.freqHandling = .max) (hvi : vp.index < 32)
    (es : List VariantEntry) : ∀ {S : Nat} {m : Vm}, Ready A S m →
    (∀ e ∈ es, spaces e.reference % 256 < 255 ∧ ∀ v ∈ e.variants, spaces v.1 % 256 < 255) →
    ∃ m', addEntries p vp m es = .ok m' ∧
      Ready A (S + addTotal (es.flatMap fun e => (e.reference, e.freq, p) ::
        e.variants.map fun v => (v.1, v.2.2, vp))) m' ∧ m'.lexicons = m.lexicons := by
  induction es with
  | nil => intro S m hm _; exact ⟨m, rfl, hm, rfl⟩
  | cons e es ih =>
    intro S m hm hs
    obtain ⟨m1, id, h1, h2, h3⟩ := add_total hne hlen hm (f := e.freq) hf hi (hs e (by simp)).1
    obtain ⟨m2, g1, g2, g3⟩ := addVariants_total hne hlen hvf hvi (refId := id) e.variants h2
      (hs e (by simp)).2
    obtain ⟨m3, h4, h5, h6⟩ := ih g2 fun e' he' => hs e' (by simp [he'])
    refine ⟨m3, bind_ok.mpr ⟨_, h1, bind_ok.mpr ⟨_, g1, h4⟩⟩, ?_, h6.trans (g3.trans h3)⟩
    rw [List.flatMap_cons, List.cons_append, addTotal_cons, addTotal_append, ← Nat.add_assoc,
      ← Nat.add_assoc]
    exact h5

theorem variants_total {A : Alphabet} (hne : NoEmpty A) (hlen : A.length ≤ 166)
    {parseF64 : List Char → Option Rat} {transparent : Bool} {S : Nat} {m : Vm} (hm : Ready A S m)
    (hl : m.lexicons.length < 32) {f : List Char} {lines : List (Option (List Char))}
    {es : List VariantEntry} (hes : VariantLines parseF64 none (nonEmpty lines) es)
    (hs : ∀ e ∈ es, spaces e.reference % 256 < 255 ∧ ∀ v ∈ e.variants, spaces v.1 % 256 < 255)
    (p q : VocabParams) :
    ∃ m', m.readVariants parseF64 f (some {}) transparent lines = .ok m' ∧
      Ready A (S + addTotal (es.flatMap fun e => (e.reference, e.freq, p) ::
        e.variants.map fun v => (v.1, v.2.2, q))) m' ∧
      m'.lexicons = m.lexicons ++ [f] := by
  obtain ⟨m1, h1, h2, h3⟩ := addEntries_total hne hlen
    (p := { index := m.lexicons.length % 256 })
    (vp := { index := m.lexicons.length % 256
             vocabType := { indexed := true, transparent := transparent } }) rfl
    (by show m.lexicons.length % 256 < 32; omega) rfl (by show m.lexicons.length % 256 < 32; omega) es hm hs
  refine ⟨_, (read_variants _ _ _ _ _ _ _).mpr ⟨es, m1, hes, ?_, rfl⟩, ?_, rfl⟩
  · cases transparent <;> exact h1
  · have e : addTotal (es.flatMap fun e => (e.reference, e.freq, p) ::
        e.variants.map fun v => (v.1, v.2.2, q)) =
        addTotal (es.flatMap fun e => (e.reference, e.freq, { index := m.lexicons.length % 256 }) ::
        e.variants.map fun v => (v.1, v.2.2,
          ({ index := m.lexicons.length % 256
             vocabType := { indexed := true, transparent := transparent } } : VocabParams))) := by
      unfold addTotal
      simp only [List.map_flatMap, List.map_cons, List.map_map, Function.comp_def]
    rw [e]
    exact ready_fields h2 _ _

theorem resource_total {A : Alphabet} (hne : NoEmpty A) (hlen : A.length ≤ 166) {x : LoadExt} {S : Nat}
    {m : Vm} (hm : Ready A S m) (hl : m.lexicons.length < 32) {r : Resource}
    {a : List (List Char × Option Nat × VocabParams)}
    (ha : Adds x (m.lexicons.length % 256) (sourceOf r) a) (hs : ∀ y ∈ a, spaces y.1 % 256 < 255) :
    ∃ m', m.readResource x r = .ok m' ∧ Ready A (S + addTotal a) m' ∧
      m'.lexicons.length = m.lexicons.length + 1 := by
  have hvs : ∀ {es : List VariantEntry} {p q : VocabParams},
      (∀ y ∈ es.flatMap fun e => (e.reference, e.freq, p) :: e.variants.map fun v => (v.1, v.2.2, q),
        spaces y.1 % 256 < 255) →
      ∀ e ∈ es, spaces e.reference % 256 < 255 ∧ ∀ v ∈ e.variants, spaces v.1 % 256 < 255 := by
    intro es p q h e he
    refine ⟨h _ (List.mem_flatMap.mpr ⟨e, he, List.mem_cons_self⟩), fun v hv => ?_⟩
    exact h (v.1, v.2.2, q) (List.mem_flatMap.mpr ⟨e, he, List.mem_cons_of_mem _ (List.mem_map.mpr ⟨v, hv, rfl⟩)⟩)
  cases r with
  | lexicon f =>
    cases ha with
    | lexicon h1 h2 =>
      obtain ⟨m', h3, h4, h5⟩ := vocabulary_total hne hlen (p := {}) rfl hm hl h2
        (fun e he => hs _ (List.mem_map.mpr ⟨e, he, rfl⟩))
      exact ⟨m', bind_ok.mpr ⟨_, open_ok.mpr h1, h3⟩, h4, by rw [h5]; simp⟩
  | variantList f =>
    cases ha with
    | variants h1 h2 =>
      obtain ⟨m', h3, h4, h5⟩ := variants_total hne hlen hm hl (f := f) (transparent := false) h2 (hvs hs) _ _
      exact ⟨m', bind_ok.mpr ⟨_, open_ok.mpr h1, h3⟩, h4, by rw [h5]; simp⟩
  | errorList f =>
    cases ha with
    | errors h1 h2 =>
      obtain ⟨m', h3, h4, h5⟩ := variants_total hne hlen hm hl (f := f) (transparent := true) h2 (hvs hs) _ _
      exact ⟨m', bind_ok.mpr ⟨_, open_ok.mpr h1, h3⟩, h4, by rw [h5]; simp⟩

theorem resources_total {A : Alphabet} (hne : NoEmpty A) (hlen : A.length ≤ 166) {x : LoadExt}
    (rs : List Resource) : ∀ {S : Nat} {m : Vm} {as : List (List (List Char × Option Nat × VocabParams))},
    Ready A S m → m.lexicons.length + rs.length ≤ 32 →
    AddsAll x m.lexicons.length (rs.map sourceOf) as → (∀ y ∈ as.flatten, spaces y.1 % 256 < 255) →
    ∃ m', m.readResources x rs = .ok m' ∧ Ready A (S + addTotal as.flatten) m' ∧
      m'.lexicons.length = m.lexicons.length + rs.length := by
  induction rs with
  | nil =>
    intro S m as hm hl ha hs
    cases ha
    exact ⟨m, rfl, hm, rfl⟩
  | cons r rs ih =>
    intro S m as hm hl ha hs
    rw [List.length_cons] at hl
    cases ha with
    | cons h1 h2 =>
      obtain ⟨m1, g1, g2, g3⟩ := resource_total hne hlen hm (by omega) h1
        (fun y hy => hs y (by simp [hy]))
      obtain ⟨m2, g4, g5, g6⟩ := ih g2 (by omega) (by rw [g3]; exact h2)
        (fun y hy => hs y (by rw [List.flatten_cons]; exact List.mem_append_right _ hy))
      refine ⟨m2, bind_ok.mpr ⟨m1, g1, g4⟩, ?_, by rw [g6, g3, List.length_cons]; omega⟩
      rw [List.flatten_cons, addTotal_append, ← Nat.add_assoc]
      exact g5

theorem lms_total {A : Alphabet} (hne : NoEmpty A) (hlen : A.length ≤ 166) {x : LoadExt}
    (fs : List (List Char)) : ∀ {S : Nat} {m : Vm}
    {as : List (List (List Char × Option Nat × VocabParams))},
    Ready A S m → m.lexicons.length + fs.length ≤ 32 →
    AddsAll x m.lexicons.length (fs.map .lm) as → (∀ y ∈ as.flatten, spaces y.1 % 256 < 255) →
    ∃ m', m.readLms x fs = .ok m' ∧ Ready A (S + addTotal as.flatten) m' ∧
      m'.lexicons.length = m.lexicons.length + fs.length := by
  induction fs with
  | nil =>
    intro S m as hm hl ha hs
    cases ha
    exact ⟨m, rfl, hm, rfl⟩
  | cons f fs ih =>
    intro S m as hm hl ha hs
    rw [List.length_cons] at hl
    cases ha with
    | @cons _ _ _ a _ h1 h2 =>
      cases h1 with
      | lm g1 g2 =>
        rw [vocabLine_columns (p := {}) (p' := { vocabType := .LM }) rfl rfl] at g2
        obtain ⟨m1, h3, h4, h5⟩ := vocabulary_total hne hlen (p := { vocabType := .LM }) rfl hm
          (by omega) (f := f) g2 (fun e he => hs _ (by
            rw [List.flatten_cons]
            exact List.mem_append_left _ (List.mem_map.mpr ⟨e, he, rfl⟩)))
        have hl1 : m1.lexicons.length = m.lexicons.length + 1 := by rw [h5]; simp
        obtain ⟨m2, g4, g5, g6⟩ := ih h4 (by omega) (by rw [hl1]; exact h2)
          (fun y hy => hs y (by rw [List.flatten_cons]; exact List.mem_append_right _ hy))
        refine ⟨m2, bind_ok.mpr ⟨_, open_ok.mpr g1, bind_ok.mpr ⟨m1, h3, g4⟩⟩, ?_,
          by rw [g6, hl1, List.length_cons]; omega⟩
        rw [List.flatten_cons, addTotal_append, ← Nat.add_assoc]
        exact g5

theorem addsAll_split {x : LoadExt} {ss ss' : List Source} : ∀ {i : Nat}
    {as : List (List (List Char × Option Nat × VocabParams))}, AddsAll x i (ss ++ ss') as →
    ∃ as1 as2, as = as1 ++ as2 ∧ AddsAll x i ss as1 ∧ AddsAll x (i + ss.length) ss' as2 := by
  induction ss with
  | nil => intro i as h; exact ⟨[], as, rfl, .nil, h⟩
  | cons s ss ih =>
    intro i as h
    cases h with
    | cons h1 h2 =>
      obtain ⟨as1, as2, rfl, g1, g2⟩ := ih h2
      refine ⟨_ :: as1, as2, rfl, .cons h1 g1, ?_⟩
      rw [List.length_cons, show i + (ss.length + 1) = i + 1 + ss.length by omega]
      exact g2

/-! ## Building -/

theorem intoNgram_total {m : Vm} (hinv : Inv m) {id : Nat} {v : VocabValue} (hv : m.decoder[id]? = some v)
    (u : Option (HMap (List Char) Nat)) : ∃ g, m.intoNgram id u = .ok (g, u) := by
  have ht := (hinv.tokens v (List.mem_of_getElem? hv)).1
  unfold Vm.intoNgram
  simp only [hv]
  split
  · have hle : v.tokencount ≤ (splitSpaces v.text).length := by
      rw [splitSpaces_length, ht]
      have := Nat.mod_le (spaces v.text) 256
      omega
    rw [encodeTokens_eq m _ _ u hle]
    exact ⟨_, rfl⟩
  · exact ⟨_, rfl⟩

theorem addFreqSum_total {s : List Nat} (hs : s ≠ []) (len freq : Nat) :
    ∃ s', addFreqSum s len freq = .ok s' := by
  unfold addFreqSum
  simp only
  have hpos := List.length_pos_iff.mpr hs
  split
  · next h =>
    rw [List.getElem?_eq_none_iff] at h
    by_cases hl : len > 1
    · rw [if_pos hl, if_pos hl] at h
      simp only [List.length_append, List.length_replicate] at h
      omega
    · rw [if_neg hl, if_neg hl] at h
      omega
  · exact ⟨_, rfl⟩

theorem addNgram_total {ng : HMap NGram Nat} {g : NGram} {f : Nat} (h : count ng g + f < 2 ^ 32) :
    ∃ ng', addNgram ng g f = .ok ng' := by
  unfold addNgram
  unfold count at h
  cases hg : ng.get? g with
  | none => exact ⟨_, rfl⟩
  | some n =>
    rw [hg] at h
    simp only [Option.getD_some] at h
    simp only
    rw [if_neg (by omega)]
    exact ⟨_, rfl⟩

/-- The frequencies of the entries with the given ids. -/
def idTotal (m : Vm) (ids : List Nat) : Nat :=
  (ids.map fun i => ((m.decoder[i]?).map fun v => v.frequency).getD 0).sum

theorem lmLoop_total (ids : List Nat) : ∀ {m : Vm} (_ : Inv m) (u : Option (HMap (List Char) Nat)),
    (∀ i ∈ ids, i < m.decoder.length) → (∀ g, count m.ngrams g + idTotal m ids < 2 ^ 32) →
    ∃ m', m.lmLoop ids u = .ok (m', u) ∧ ∀ g, count m'.ngrams g ≤ count m.ngrams g + idTotal m ids := by
  induction ids with
  | nil => intro m _ u _ _; exact ⟨m, rfl, fun g => Nat.le_add_right _ _⟩
  | cons i ids ih =>
    intro m hinv u hi hc
    obtain ⟨v, hv⟩ : ∃ v, m.decoder[i]? = some v := ⟨_, List.getElem?_eq_getElem (hi i (by simp))⟩
    have htot : idTotal m (i :: ids) = v.frequency + idTotal m ids := by
      simp [idTotal, hv]
    rw [htot] at hc
    suffices hstep : ∃ m1, m.lmStep i u = .ok (m1, u) ∧
        ∀ g, count m1.ngrams g ≤ count m.ngrams g + v.frequency by
      obtain ⟨m1, h1, h2⟩ := hstep
      obtain ⟨_, hsame, hf, _⟩ := lmStep_cases h1
      have hinv1 := hsame.inv (hf hinv.freqSum) hinv
      have e : idTotal m1 ids = idTotal m ids := by unfold idTotal; rw [hsame.decoder]
      obtain ⟨m2, h3, h4⟩ := ih hinv1 u (fun j hj => by rw [hsame.decoder]; exact hi j (by simp [hj]))
        (fun g => by
          have a := h2 g
          have b := hc g
          rw [e]
          omega)
      refine ⟨m2, bind_ok.mpr ⟨_, h1, h3⟩, fun g => ?_⟩
      have a := h2 g
      have b := h4 g
      omega
    unfold Vm.lmStep
    simp only [hv]
    split
    · obtain ⟨g, hg⟩ := intoNgram_total hinv hv u
      rw [hg]
      simp only [bind, Except.bind]
      cases g with
      | none => exact ⟨m, rfl, fun g => by omega⟩
      | some g =>
        obtain ⟨s', hs'⟩ := addFreqSum_total hinv.freqSum g.len v.frequency
        obtain ⟨ng', hng'⟩ := addNgram_total (ng := m.ngrams) (g := g) (f := v.frequency)
          (by have := hc g; omega)
        simp only [hs', hng']
        refine ⟨_, rfl, fun g' => ?_⟩
        show count ng' g' ≤ _
        rw [addNgram_count hng' g']
        split <;> omega
    · exact ⟨m, rfl, fun g => by omega⟩

theorem fillIndex_total {asz : Nat} (hs : List (Nat × Nat)) : ∀ (index : HMap Nat AnaIndexNode),
    (∀ x ∈ hs, ∃ cc, charCount x.1 asz = .ok cc) → ∃ index', fillIndex asz hs index = .ok index' := by
  induction hs with
  | nil => intro index _; exact ⟨index, rfl⟩
  | cons x hs ih =>
    intro index h
    obtain ⟨cc, hcc⟩ := h x (by simp)
    suffices hok : ∃ i1, indexAdd asz index x.1 x.2 = .ok i1 by
      obtain ⟨i1, h1⟩ := hok
      obtain ⟨i2, h2⟩ := ih i1 fun y hy => h y (by simp [hy])
      exact ⟨i2, bind_ok.mpr ⟨i1, h1, h2⟩⟩
    unfold indexAdd
    cases index.get? x.1 with
    | some node => exact ⟨_, rfl⟩
    | none =>
      simp only [hcc]
      exact ⟨_, rfl⟩

theorem idTotal_range (m : Vm) : idTotal m (List.range m.decoder.length) = freqTotal m.decoder := by
  unfold idTotal freqTotal
  congr 1
  apply List.ext_getElem?
  intro i
  rw [List.getElem?_map, List.getElem?_map]
  by_cases hi : i < m.decoder.length
  · rw [List.getElem?_range hi, List.getElem?_eq_getElem hi]
    simp [List.getElem?_eq_getElem hi]
  · rw [List.getElem?_eq_none (by simpa using hi), List.getElem?_eq_none (by omega)]
    rfl

/-- Building succeeds if the counts of the n-grams and the frequencies do not sum to `2 ^ 32`. -/
theorem build_total_of {A : Alphabet} (hne : NoEmpty A) (hlen : A.length ≤ 166) {m : Vm} (hinv : Inv m)
    (ha : m.alphabet = A) (hS : ∀ g, count m.ngrams g + freqTotal m.decoder < 2 ^ 32) (o : Orders) :
    ∃ m', m.build o = .ok m' ∧ ∀ g, count m'.ngrams g ≤ count m.ngrams g + freqTotal m.decoder := by
  have hidx : ∃ m1, m.buildIndex o = .ok m1 := by
    unfold Vm.buildIndex
    rw [ha]
    obtain ⟨hs, hh⟩ := hashAll_total hne (by omega) m.decoder 0
    rw [hh]
    simp only [bind, Except.bind]
    cases hs with
    | nil => exact ⟨_, rfl⟩
    | cons y ys =>
      have hasz : m.alphabetSize = .ok (A.length + 1) := by
        unfold Vm.alphabetSize
        rw [ha, Nat.mod_eq_of_lt (by omega), if_neg (by omega)]
      simp only [hasz]
      obtain ⟨index, hi⟩ := fillIndex_total (asz := A.length + 1) (y :: ys) [] (by
        intro x hx
        obtain ⟨j, v, _, _, _, ha⟩ := hashAll_mem hh hx
        obtain ⟨codes, hc⟩ := encodes_exists hne A.length v.text
        rw [anahash_eq (by omega) hc] at ha
        rw [← Except.ok.inj ha]
        exact ⟨_, charCount_bag (by omega) (encodes_within hc)⟩)
      rw [hi]
      exact ⟨_, rfl⟩
  obtain ⟨m1, h1⟩ := hidx
  have hc := buildIndex_cases h1
  have hinv1 : Inv m1 := by
    rw [hc]
    exact ⟨hinv.bij, hinv.bos, hinv.eos, hinv.unk, hinv.notIndexed, hinv.tokens,
      hinv.freqSum⟩
  have hd : m1.decoder = m.decoder := by rw [hc]
  have hng : m1.ngrams = m.ngrams := by rw [hc]
  obtain ⟨m2, h2, h3⟩ := lmLoop_total (List.range m1.decoder.length) hinv1 (some [])
    (by simp) (by
      intro g
      rw [idTotal_range, hng, hd]
      exact hS g)
  have hu : o.unseen [] = [] := List.perm_nil.mp (o.unseen_perm [])
  refine ⟨{ m2 with haveLm := !m2.ngrams.isEmpty }, bind_ok.mpr ⟨m1, h1, ?_⟩, ?_⟩
  · unfold Vm.buildLm
    rw [h2]
    simp only [bind, Except.bind, hu, Vm.addUnseen]
    rfl
  · intro g
    have := h3 g
    rw [idTotal_range, hng, hd] at this
    exact this

theorem build_total {A : Alphabet} (hne : NoEmpty A) (hlen : A.length ≤ 166) {S : Nat} (hS : S < 2 ^ 32)
    {m : Vm} (hm : Ready A S m) (o : Orders) :
    ∃ m', m.build o = .ok m' ∧ freqTotal m'.decoder ≤ S ∧ ∀ g, count m'.ngrams g ≤ S := by
  have h0 : ∀ g, count m.ngrams g = 0 := by rw [hm.ngrams]; intro g; rfl
  have hf := hm.freq
  obtain ⟨m', h1, h2⟩ := build_total_of hne hlen hm.inv hm.alphabet (fun g => by rw [h0]; omega) o
  refine ⟨m', h1, ?_, fun g => ?_⟩
  · rw [(build_cases h1).1]; exact hf
  · have := h2 g
    rw [h0] at this
    omega

end Verif.Lemmas
