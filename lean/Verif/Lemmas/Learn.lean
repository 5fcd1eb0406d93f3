import Verif.Lemmas.Build

/-! # Learning -/
namespace Verif.Lemmas

open Verif.Spec Verif.Model

/-! ## What the index sees -/

/-- what the index sees of an entry -/
def sig (v : VocabValue) : List Char × Bool := (v.text, v.vocabtype.indexed)

theorem check_indexed (t : VocabType) : t.check .INDEXED = t.indexed := by
  obtain ⟨a, b, c⟩ := t
  cases a <;> cases b <;> cases c <;> rfl

theorem hashAll_sig (alphabet : Alphabet) {d d' : List VocabValue} (h : d.map sig = d'.map sig)
    (k : Nat) : hashAll alphabet k d = hashAll alphabet k d' := by
  induction d generalizing d' k with
  | nil =>
    cases d' with
    | nil => rfl
    | cons _ _ => simp at h
  | cons v d ih =>
    cases d' with
    | nil => simp at h
    | cons v' d' =>
      simp only [List.map_cons, List.cons.injEq, sig, Prod.mk.injEq] at h
      simp only [hashAll, check_indexed, h.1.1, h.1.2, ih h.2]

theorem hashAll_append (alphabet : Alphabet) (d e : List VocabValue)
    (he : ∀ v ∈ e, v.vocabtype.indexed = false) (k : Nat) :
    hashAll alphabet k (d ++ e) = hashAll alphabet k d := by
  induction d generalizing k with
  | nil =>
    induction e generalizing k with
    | nil => rfl
    | cons v e ih =>
      have h1 := he v (by simp)
      have := ih (fun w hw => he w (by simp [hw])) (k + 1)
      simp only [List.nil_append] at this
      simp [hashAll, check_indexed, h1, this]
  | cons v d ih => simp only [List.cons_append, hashAll, ih]

theorem set_sig {d : List VocabValue} {i : Nat} {v v' : VocabValue} (hv : d[i]? = some v)
    (hs : sig v' = sig v) : (d.set i v').map sig = d.map sig := by
  apply List.ext_getElem?
  intro j
  rw [List.getElem?_map, List.getElem?_map]
  by_cases e : i = j
  · subst e; rw [getElem?_set_self' hv, hv]; simp [hs]
  · rw [List.getElem?_set_ne e]

theorem core_sig {a b : VocabValue} (h : SameCore a b) : sig a = sig b := by
  simp only [sig, h.text, h.vocabtype]

theorem addVariantById_sig (m : Vm) (r v : Nat) (s : Rat) :
    (m.addVariantById r v s).1.decoder.map sig = m.decoder.map sig := by
  obtain ⟨_, hl, h⟩ := addVariantById_core m r v s
  apply List.ext_getElem?
  intro j
  rw [List.getElem?_map, List.getElem?_map]
  cases hj : (m.addVariantById r v s).1.decoder[j]? with
  | none =>
    rw [List.getElem?_eq_none_iff] at hj
    rw [List.getElem?_eq_none (by omega)]
  | some w' =>
    obtain ⟨w, hw, hc⟩ := h j w' hj
    rw [hw]; simp [core_sig hc]

/-- `d'` is `d` as far as the index sees, plus entries that are not indexed -/
def SigExt (d d' : List VocabValue) : Prop :=
  ∃ e : List (List Char × Bool), d'.map sig = d.map sig ++ e ∧ ∀ x ∈ e, x.2 = false

theorem SigExt.refl (d : List VocabValue) : SigExt d d := ⟨[], by simp, by simp⟩

theorem SigExt.trans {a b c : List VocabValue} (h : SigExt a b) (h' : SigExt b c) : SigExt a c := by
  obtain ⟨e, h1, h2⟩ := h
  obtain ⟨e', h3, h4⟩ := h'
  refine ⟨e ++ e', by rw [h3, h1, List.append_assoc], ?_⟩
  intro x hx
  rcases List.mem_append.mp hx with hx | hx
  · exact h2 x hx
  · exact h4 x hx

theorem SigExt.of_eq {a b : List VocabValue} (h : b.map sig = a.map sig) : SigExt a b :=
  ⟨[], by simpa using h, by simp⟩

theorem sigExt_hashAll {d d' : List VocabValue} (h : SigExt d d') (alphabet : Alphabet) :
    hashAll alphabet 0 d' = hashAll alphabet 0 d := by
  obtain ⟨e, h1, h2⟩ := h
  have hsplit : d' = d'.take d.length ++ d'.drop d.length := (List.take_append_drop _ _).symm
  have ht : (d'.take d.length).map sig = d.map sig := by
    rw [List.map_take, h1, List.take_append_of_le_length (by simp), List.take_of_length_le (by simp)]
  have hd : (d'.drop d.length).map sig = e := by
    rw [List.map_drop, h1, List.drop_append_of_le_length (by simp)]
    simp
  rw [hsplit, hashAll_append, hashAll_sig _ ht]
  intro v hv
  have : sig v ∈ e := by rw [← hd]; exact List.mem_map.mpr ⟨v, hv, rfl⟩
  exact h2 _ this

theorem learnId_sig {m m' : Vm} {input : List Char} {prev : Option (List Char)} {id : Nat}
    (h : m.learnId input prev = .ok (m', id)) : SigExt m.decoder m'.decoder := by
  unfold Vm.learnId at h
  split at h
  · split at h
    · cases h
    · next item hv =>
      split at h
      · split at h
        · cases h
        · cases h
          exact .of_eq (set_sig hv rfl)
      · cases h; exact .refl _
  · next hn =>
    rcases add_cases h with ⟨_, _, he, _⟩ | ⟨norm, _, _, _, _, _, rfl⟩
    · rw [hn] at he; cases he
    · exact ⟨[(input, false)], by simp [fresh, sig, learnParams, VocabType.TRANSPARENT], by simp⟩

theorem learnLoop_sig {m m' : Vm} {fs : List Finding} {prev : Option (List Char)} {c c' : Nat}
    (h : m.learnLoop fs prev c = .ok (m', c')) : SigExt m.decoder m'.decoder := by
  induction fs generalizing m prev c with
  | nil => cases h; exact .refl _
  | cons f fs ih =>
    simp only [Vm.learnLoop, bind_ok] at h
    obtain ⟨⟨m1, id⟩, h1, h2⟩ := h
    have e1 := learnId_sig h1
    simp only at h2
    split at h2
    · exact e1.trans ((SigExt.of_eq (addVariantById_sig _ _ _ _)).trans (ih h2))
    · exact e1.trans (ih h2)

theorem build_index_of_hashAll {m n m' n' : Vm} {o o' : Orders}
    (ha : n.alphabet = m.alphabet)
    (hd : hashAll m.alphabet 0 n.decoder = hashAll m.alphabet 0 m.decoder)
    (h : m.build o = .ok m') (h' : n.build o' = .ok n') :
    n'.index = m'.index ∧ ∀ k, n'.sortedindex.get? k = m'.sortedindex.get? k := by
  obtain ⟨m1, h1, e1, s1, _⟩ := build_index h
  obtain ⟨n1, h2, e2, s2, _⟩ := build_index h'
  obtain ⟨hs, hh, _, hs1, hf, he⟩ := buildIndex_spec h1
  obtain ⟨hs', hh', _, hs2, hf', he'⟩ := buildIndex_spec h2
  rw [ha, hd, hh] at hh'
  cases hh'
  have hidx : n1.index = m1.index := by
    by_cases hnil : hs = []
    · rw [he hnil, he' hnil]
    · obtain ⟨a, ha1, hfa⟩ := hf hnil
      obtain ⟨b, hb1, hfb⟩ := hf' hnil
      have : a = b := by
        simp only [Vm.alphabetSize, ha] at ha1 hb1
        rw [ha1] at hb1; cases hb1; rfl
      subst this
      rw [hfa] at hfb; exact (Except.ok.inj hfb).symm
  refine ⟨by rw [e1, e2, hidx], fun k => ?_⟩
  rw [s1, s2, hs1, hs2, hidx, sorted_get, sorted_get]

/-! ## Links -/

/-- the links of an entry -/
def links (v : VocabValue) : List VariantReference := v.variants.getD []

/-- entry `i` has the link `x` -/
def HasLink (m : Vm) (i : Nat) (x : VariantReference) : Prop :=
  ∃ v, m.decoder[i]? = some v ∧ x ∈ links v

open Classical in
theorem links_linkReference (variantid : Nat) (s : Rat) (v : VocabValue) :
    links (linkReference variantid s v) =
      if (∃ s', .referenceFor variantid s' ∈ links v) then links v
      else links v ++ [.referenceFor variantid s] := by
  unfold linkReference links
  cases hv : v.variants with
  | none => simp
  | some refs =>
    simp only [Option.getD_some]
    have hiff : (refs.any (fun x => match x with
        | .referenceFor y _ => variantid == y
        | _ => false) = true) ↔ ∃ s', VariantReference.referenceFor variantid s' ∈ refs := by
      rw [List.any_eq_true]
      constructor
      · rintro ⟨x, hx, hp⟩
        cases x with
        | referenceFor y s' => simp only [beq_iff_eq] at hp; subst hp; exact ⟨s', hx⟩
        | variantOf y s' => simp at hp
      · rintro ⟨s', hx⟩
        exact ⟨_, hx, by simp⟩
    split
    · next hb => rw [if_pos (hiff.mp hb), hv]; rfl
    · next hb => rw [if_neg (fun h => hb (hiff.mpr h))]; rfl

open Classical in
theorem links_linkVariant (refId variantid : Nat) (s : Rat) (v : VocabValue) :
    links (linkVariant refId variantid s v) =
      if (∃ s', .variantOf variantid s' ∈ links v) then links v
      else links v ++ [.variantOf refId s] := by
  unfold linkVariant links
  cases hv : v.variants with
  | none => simp
  | some refs =>
    simp only [Option.getD_some]
    have hiff : (refs.any (fun x => match x with
        | .variantOf y _ => variantid == y
        | _ => false) = true) ↔ ∃ s', VariantReference.variantOf variantid s' ∈ refs := by
      rw [List.any_eq_true]
      constructor
      · rintro ⟨x, hx, hp⟩
        cases x with
        | variantOf y s' => simp only [beq_iff_eq] at hp; subst hp; exact ⟨s', hx⟩
        | referenceFor y s' => simp at hp
      · rintro ⟨s', hx⟩
        exact ⟨_, hx, by simp⟩
    split
    · next hb => rw [if_pos (hiff.mp hb), hv]; rfl
    · next hb => rw [if_neg (fun h => hb (hiff.mpr h))]; rfl

/-- No entry is a variant of itself. -/
def NoSelf (m : Vm) : Prop := ∀ i s, ¬ HasLink m i (.variantOf i s)

open Classical in
/-- the links of an entry after `add_variant_by_id` -/
theorem addVariantById_links {m : Vm} {r v : Nat} (hne : v ≠ r) (s : Rat) (i : Nat) :
    ((m.addVariantById r v s).1.decoder[i]?).map links = (m.decoder[i]?).map fun w =>
      if i = r then
        if (∃ s', .referenceFor v s' ∈ links w) then links w else links w ++ [.referenceFor v s]
      else if i = v then
        if (∃ s', .variantOf v s' ∈ links w) then links w else links w ++ [.variantOf r s]
      else links w := by
  simp only [Vm.addVariantById, if_pos hne, modify_getElem?]
  by_cases h1 : i = r
  · subst h1
    simp only [if_neg hne, if_true, Option.map_map]
    congr 1
    funext w
    simp only [Function.comp, links_linkReference]
  · by_cases h2 : i = v
    · subst h2
      simp only [if_true, if_neg (Ne.symm h1), if_neg h1, Option.map_map]
      congr 1
      funext w
      simp only [Function.comp, links_linkVariant]
    · simp [h1, h2, Ne.symm h1, Ne.symm h2]

/-- links of `m` are among those of `m'`, and the new ones are no self-links -/
structure LinkExt (m m' : Vm) : Prop where
  mono : ∀ i x, HasLink m i x → HasLink m' i x
  noSelf : NoSelf m → NoSelf m'

theorem LinkExt.refl (m : Vm) : LinkExt m m := ⟨fun _ _ h => h, fun h => h⟩

theorem LinkExt.trans {a b c : Vm} (h : LinkExt a b) (h' : LinkExt b c) : LinkExt a c :=
  ⟨fun i x hx => h'.mono i x (h.mono i x hx), fun hn => h'.noSelf (h.noSelf hn)⟩

theorem hasLink_of_links {m m' : Vm} {i : Nat}
    (h : (m'.decoder[i]?).map links = (m.decoder[i]?).map links) (x : VariantReference) :
    HasLink m' i x ↔ HasLink m i x := by
  have key : ∀ n : Vm, HasLink n i x ↔ ∃ l, (n.decoder[i]?).map links = some l ∧ x ∈ l := by
    intro n
    simp only [HasLink, Option.map_eq_some_iff]
    constructor
    · rintro ⟨v, hv, hx⟩; exact ⟨_, ⟨v, hv, rfl⟩, hx⟩
    · rintro ⟨l, ⟨v, hv, rfl⟩, hx⟩; exact ⟨v, hv, hx⟩
  rw [key, key, h]

theorem linkExt_addVariantById (m : Vm) (r v : Nat) (s : Rat) :
    LinkExt m (m.addVariantById r v s).1 := by
  by_cases hne : v = r
  · simp only [Vm.addVariantById, hne, ne_eq, not_true_eq_false, if_false]; exact .refl m
  · have hl := fun i => addVariantById_links (m := m) hne s i
    constructor
    · rintro i x ⟨w, hw, hx⟩
      have := hl i
      rw [hw, Option.map_some, Option.map_eq_some_iff] at this
      obtain ⟨w', hw', e⟩ := this
      refine ⟨w', hw', ?_⟩
      rw [e]
      repeat' split
      all_goals simp [hx]
    · intro hn i s' ⟨w', hw', hx⟩
      have := hl i
      rw [hw', Option.map_some] at this
      obtain ⟨w, hw, e⟩ := Option.map_eq_some_iff.mp this.symm
      apply hn i s'
      refine ⟨w, hw, ?_⟩
      rw [← e] at hx
      by_cases h1 : i = r
      · subst h1
        simp only [if_true] at hx
        split at hx
        · exact hx
        · simpa using hx
      · rw [if_neg h1] at hx
        by_cases h2 : i = v
        · subst h2
          simp only [if_true] at hx
          split at hx
          · exact hx
          · simp only [List.mem_append, List.mem_singleton, VariantReference.variantOf.injEq] at hx
            rcases hx with hx | hx
            · exact hx
            · exact absurd hx.1 h1
        · rw [if_neg h2] at hx; exact hx

theorem linkExt_set {m : Vm} {i : Nat} {v v' : VocabValue} (hv : m.decoder[i]? = some v)
    (h : links v' = links v) : LinkExt m { m with decoder := m.decoder.set i v' } := by
  have key : ∀ j x, HasLink { m with decoder := m.decoder.set i v' } j x ↔ HasLink m j x := by
    intro j x
    apply hasLink_of_links
    simp only
    by_cases e : i = j
    · subst e; rw [getElem?_set_self' hv, hv]; simp [h]
    · rw [List.getElem?_set_ne e]
  exact ⟨fun j x hx => (key j x).mpr hx, fun hn j s hx => hn j s ((key j _).mp hx)⟩

theorem linkExt_push (m : Vm) (enc : HMap (List Char) Nat) {v : VocabValue} (hv : links v = []) :
    LinkExt m { m with encoder := enc, decoder := m.decoder ++ [v] } := by
  have key : ∀ j x, HasLink { m with encoder := enc, decoder := m.decoder ++ [v] } j x ↔
      HasLink m j x := by
    intro j x
    simp only [HasLink]
    constructor
    · rintro ⟨w, hw, hx⟩
      rcases Nat.lt_or_ge j m.decoder.length with hj | hj
      · rw [List.getElem?_append_left hj] at hw; exact ⟨w, hw, hx⟩
      · rw [List.getElem?_append_right hj] at hw
        have := List.mem_of_getElem? hw
        simp only [List.mem_singleton] at this
        subst this
        rw [hv] at hx; cases hx
    · rintro ⟨w, hw, hx⟩
      exact ⟨w, by rw [List.getElem?_append_left (lt_of_getElem? hw)]; exact hw, hx⟩
  exact ⟨fun j x hx => (key j x).mpr hx, fun hn j s hx => hn j s ((key j _).mp hx)⟩

theorem linkExt_add {m m' : Vm} {t : List Char} {f : Option Nat} {p : VocabParams} {id : Nat}
    (h : m.addToVocabulary t f p = .ok (m', id)) : LinkExt m m' := by
  rcases add_cases h with ⟨item, _, _, hd, _, _, rfl⟩ | ⟨norm, _, _, _, _, _, rfl⟩
  · exact linkExt_set hd rfl
  · exact linkExt_push m _ rfl

theorem linkExt_learnId {m m' : Vm} {input : List Char} {prev : Option (List Char)} {id : Nat}
    (h : m.learnId input prev = .ok (m', id)) : LinkExt m m' := by
  unfold Vm.learnId at h
  split at h
  · split at h
    · cases h
    · next item hv =>
      split at h
      · split at h
        · cases h
        · cases h; exact linkExt_set hv rfl
      · cases h; exact .refl _
  · exact linkExt_add h

theorem linkExt_learnLoop {m m' : Vm} {fs : List Finding} {prev : Option (List Char)} {c c' : Nat}
    (h : m.learnLoop fs prev c = .ok (m', c')) : LinkExt m m' := by
  induction fs generalizing m prev c with
  | nil => cases h; exact .refl _
  | cons f fs ih =>
    simp only [Vm.learnLoop, bind_ok] at h
    obtain ⟨⟨m1, id⟩, h1, h2⟩ := h
    have e1 := linkExt_learnId h1
    simp only at h2
    split at h2
    · exact e1.trans ((linkExt_addVariantById _ _ _ _).trans (ih h2))
    · exact e1.trans (ih h2)

theorem linkExt_build {m m' : Vm} {o : Orders} (h : m.build o = .ok m') : LinkExt m m' := by
  obtain ⟨_, _, _, _, e, _⟩ := build_index h
  have key : ∀ j x, HasLink m' j x ↔ HasLink m j x := by
    intro j x; simp only [HasLink, e]
  exact ⟨fun j x hx => (key j x).mpr hx, fun hn j s hx => hn j s ((key j _).mp hx)⟩

theorem linkExt_step {m m' : Vm} {op : Op} (h : m.step op = .ok m') : LinkExt m m' := by
  cases op with
  | add text f p =>
    simp only [Vm.step, bind_ok, pure_ok] at h
    obtain ⟨⟨m1, id⟩, h1, rfl⟩ := h
    exact linkExt_add h1
  | addVariant r text s f p =>
    simp only [Vm.step, Vm.addVariant, bind_ok, pure_ok] at h
    obtain ⟨⟨m1, b⟩, ⟨⟨m2, id⟩, h1, h2⟩, rfl⟩ := h
    have : m1 = (m2.addVariantById r id s).1 := by rw [h2]
    subst this
    exact (linkExt_add h1).trans (linkExt_addVariantById _ _ _ _)
  | addVariantById r v s =>
    simp only [Vm.step, Except.ok.injEq] at h
    subst h
    exact linkExt_addVariantById _ _ _ _
  | build o => exact linkExt_build h
  | learn fs ab o =>
    simp only [Vm.step, Vm.learnVariants, bind_ok, pure_ok] at h
    obtain ⟨⟨m1, c⟩, ⟨⟨m2, c2⟩, h1, h2⟩, rfl⟩ := h
    simp only at h2
    split at h2
    · simp only [bind_ok, pure_ok, Prod.mk.injEq] at h2
      obtain ⟨m3, h3, rfl, _⟩ := h2
      exact (linkExt_learnLoop h1).trans (linkExt_build h3)
    · cases h2
      exact linkExt_learnLoop h1
  | freq => cases h; exact ⟨fun _ _ h => h, fun h => h⟩
  | lexicon n => cases h; exact ⟨fun _ _ h => h, fun h => h⟩

theorem linkExt_run {m m' : Vm} {ops : List Op} (h : m.run ops = .ok m') : LinkExt m m' := by
  induction ops generalizing m with
  | nil => cases h; exact .refl _
  | cons op ops ih =>
    simp only [Vm.run, bind_ok] at h
    obtain ⟨m1, h1, h2⟩ := h
    exact (linkExt_step h1).trans (ih h2)

theorem noSelf_new (alphabet : Alphabet) : NoSelf (Vm.new alphabet) := by
  rintro i s ⟨v, hv, hx⟩
  have : v ∈ (Vm.new alphabet).decoder := List.mem_of_getElem? hv
  simp only [Vm.new, List.mem_cons, List.not_mem_nil, or_false] at this
  rcases this with rfl | rfl | rfl <;> simp [links, reserved] at hx

/-- the two links made by `add_variant_by_id` -/
theorem addVariantById_made {m : Vm} (hn : NoSelf m) {r v : Nat} (hne : v ≠ r)
    (hr : r < m.decoder.length) (hv : v < m.decoder.length) (s : Rat) :
    (∃ s', HasLink (m.addVariantById r v s).1 r (.referenceFor v s')) ∧
    HasLink (m.addVariantById r v s).1 v (.variantOf r s) := by
  have hl := fun i => addVariantById_links (m := m) hne s i
  constructor
  · have := hl r
    rw [List.getElem?_eq_getElem hr, Option.map_some, Option.map_eq_some_iff] at this
    obtain ⟨w', hw', e⟩ := this
    simp only [if_true] at e
    split at e
    · next h =>
      obtain ⟨s', h⟩ := h
      exact ⟨s', w', hw', by rw [e]; exact h⟩
    · exact ⟨s, w', hw', by rw [e]; simp⟩
  · have := hl v
    rw [List.getElem?_eq_getElem hv, Option.map_some, Option.map_eq_some_iff] at this
    obtain ⟨w', hw', e⟩ := this
    rw [if_neg hne, if_pos rfl] at e
    have hno : ¬ ∃ s', VariantReference.variantOf v s' ∈ links m.decoder[v] := by
      rintro ⟨s', hx⟩
      exact hn v s' ⟨_, List.getElem?_eq_getElem hv, hx⟩
    rw [if_neg hno] at e
    exact ⟨w', hw', by rw [e]; simp⟩

/-- The loop of learning: links of all findings, and the count. -/
theorem learnLoop_links {m m' : Vm} {fs : List Finding} {prev : Option (List Char)} {c c' : Nat}
    (hinv : Inv m) (hn : NoSelf m) (h : m.learnLoop fs prev c = .ok (m', c')) :
    c' = c + (fs.filter fun f => decide (m'.encoder.get? f.input ≠ some f.vocabId)).length ∧
    ∀ f ∈ fs, ∃ id, m'.encoder.get? f.input = some id ∧
      (f.vocabId < m.decoder.length → id ≠ f.vocabId →
        (∃ s, HasLink m' f.vocabId (.referenceFor id s)) ∧
        HasLink m' id (.variantOf f.vocabId f.distScore)) := by
  induction fs generalizing m prev c with
  | nil => cases h; simp
  | cons f fs ih =>
    simp only [Vm.learnLoop, bind_ok] at h
    obtain ⟨⟨m1, id⟩, h1, h2⟩ := h
    obtain ⟨hinv1, ext1, henc⟩ := inv_learnId hinv h1
    have hn1 := (linkExt_learnId h1).noSelf hn
    have hlen1 : m.decoder.length ≤ m1.decoder.length := by
      by_contra hlt
      have hpos : m.decoder.length - 1 < m.decoder.length := by omega
      have ht : textAt m (m.decoder.length - 1) = some (m.decoder[m.decoder.length - 1]).text := by
        simp [textAt, hpos]
      have := textAt_lt (ext1.2 _ _ ht)
      omega
    have hidlt : id < m1.decoder.length := textAt_lt ((hinv1.bij _ _).mp henc)
    simp only at h2
    split at h2
    · next hne =>
      obtain ⟨hinv2, ext2, _⟩ := inv_addVariantById hinv1 f.vocabId id f.distScore
      have hlen2 := (addVariantById_core m1 f.vocabId id f.distScore).2.1
      have hl := linkExt_addVariantById m1 f.vocabId id f.distScore
      have hadd : (m1.addVariantById f.vocabId id f.distScore).2 = true := by
        simp [Vm.addVariantById, Ne.symm hne]
      rw [if_pos hadd] at h2
      obtain ⟨hc, hall⟩ := ih hinv2 (hl.noSelf hn1) h2
      obtain ⟨hinv', ext3⟩ := inv_learnLoop hinv2 h2
      have hfin : m'.encoder.get? f.input = some id :=
        (hinv'.bij _ _).mpr (ext3.2 _ _ (ext2.2 _ _ ((hinv1.bij _ _).mp henc)))
      constructor
      · rw [List.filter_cons, hfin, if_pos (by simp; exact Ne.symm hne), List.length_cons, hc]
        omega
      · intro g hg
        rcases List.mem_cons.mp hg with rfl | hg
        · refine ⟨id, hfin, fun hlt hne' => ?_⟩
          obtain ⟨⟨s, ha⟩, hb⟩ := addVariantById_made hn1 hne' (by omega) hidlt g.distScore
          have hm := (linkExt_learnLoop h2).mono
          exact ⟨⟨s, hm _ _ ha⟩, hm _ _ hb⟩
        · obtain ⟨id', he, hk⟩ := hall g hg
          exact ⟨id', he, fun hlt => hk (by omega)⟩
    · next heq =>
      have heq : f.vocabId = id := by by_contra hx; exact heq hx
      obtain ⟨hc, hall⟩ := ih hinv1 hn1 h2
      obtain ⟨hinv', ext3⟩ := inv_learnLoop hinv1 h2
      have hfin : m'.encoder.get? f.input = some id :=
        (hinv'.bij _ _).mpr (ext3.2 _ _ ((hinv1.bij _ _).mp henc))
      constructor
      · rw [List.filter_cons, hfin, if_neg (by simp [heq]), hc]
      · intro g hg
        rcases List.mem_cons.mp hg with rfl | hg
        · exact ⟨id, hfin, fun _ hne' => absurd heq.symm hne'⟩
        · obtain ⟨id', he, hk⟩ := hall g hg
          exact ⟨id', he, fun hlt => hk (by omega)⟩

end Verif.Lemmas
