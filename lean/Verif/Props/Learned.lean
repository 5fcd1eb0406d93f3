import Verif.Props.DividedAll
import Verif.Props.Objects
import Verif.Props.LearnTotal

/-!
# What is learned from texts (C105)
-/
namespace Verif.Props

open Verif.Model Verif.Spec Verif.Lemmas

/-! ## The order of the words -/

/-- The texts of the vocabulary are the reserved ones and these, as they were first added. -/
structure Ordered (m : Vm) (ts : List (List Char)) : Prop where
  inv : Inv m
  texts : m.decoder.map VocabValue.text = firsts id ([bosText, eosText, unkText] ++ ts)

theorem texts_getElem? (m : Vm) (i : Nat) : (m.decoder.map VocabValue.text)[i]? = textAt m i :=
  List.getElem?_map ..

theorem ordered_new (alphabet : Alphabet) : Ordered (Vm.new alphabet) [] :=
  ⟨inv_new _, by
    rw [List.append_nil]
    show [bosText, eosText, unkText] = _
    decide⟩

theorem ordered_mem {m : Vm} {ts : List (List Char)} (h : Ordered m ts) (t : List Char) :
    (∃ i, textAt m i = some t) ↔ t ∈ [bosText, eosText, unkText] ++ ts := by
  have := firsts_keys id ([bosText, eosText, unkText] ++ ts) t
  rw [List.map_id, List.map_id, ← h.texts, List.mem_iff_getElem?] at this
  rw [← this]
  simp only [texts_getElem?]

theorem ordered_add {m m' : Vm} {ts : List (List Char)} (h : Ordered m ts)
    {t : List Char} {f : Option Nat} {p : VocabParams} {id : Nat}
    (ha : m.addToVocabulary t f p = .ok (m', id)) : Ordered m' (ts ++ [t]) := by
  refine ⟨(inv_add h.inv ha).1, ?_⟩
  rw [← List.append_assoc, firsts_snoc, ← h.texts, List.map_id, id_eq]
  rcases add_cases ha with ⟨item, freq, he, hd, _, _, rfl⟩ | ⟨norm, hn, _, _, _, _, rfl⟩
  · rw [if_pos ((ordered_mem h t).mp ⟨id, (h.inv.bij _ _).mp he⟩)]
    refine List.ext_getElem? fun i => ?_
    simp only [List.getElem?_map]
    by_cases e : id = i
    · subst e
      rw [getElem?_set_self' hd, hd]
      rfl
    · rw [List.getElem?_set_ne e]
  · rw [if_neg]
    · rw [List.map_append]
      rfl
    · intro hm
      obtain ⟨i, hi⟩ := (ordered_mem h t).mpr hm
      rw [(h.inv.bij _ _).mpr hi] at hn
      cases hn

theorem ordered_same {m m' : Vm} {ts : List (List Char)} (h : Ordered m ts) (hinv : Inv m')
    (ht : ∀ i, textAt m' i = textAt m i) : Ordered m' ts := by
  refine ⟨hinv, ?_⟩
  rw [← h.texts]
  refine List.ext_getElem? fun i => ?_
  rw [texts_getElem?, texts_getElem?, ht]

theorem ordered_link {m : Vm} {ts : List (List Char)} (h : Ordered m ts) (r v : Nat) (s : Rat) :
    Ordered (m.addVariantById r v s).1 ts := by
  obtain ⟨i1, _, i3⟩ := inv_addVariantById h.inv r v s
  exact ordered_same h i1 i3

theorem ordered_variants {p : VocabParams} {refId : Nat}
    {vs : List (List Char × Rat × Option Nat)} : ∀ {m m' : Vm} {ts : List (List Char)},
    Ordered m ts → addVariants p refId m vs = .ok m' → Ordered m' (ts ++ vs.map Prod.fst) := by
  induction vs with
  | nil =>
    intro m m' ts h ha
    cases ha
    rw [List.map_nil, List.append_nil]
    exact h
  | cons v vs ih =>
    intro m m' ts h ha
    obtain ⟨⟨m1, b⟩, h1, h2⟩ := bind_ok.mp ha
    obtain ⟨⟨m2, id⟩, h3, h4⟩ := bind_ok.mp h1
    have h5 := congrArg Prod.fst (pure_ok.mp h4)
    simp only at h5
    have k1 := ordered_link (ordered_add h h3) refId id v.2.1
    rw [h5] at k1
    have k2 := ih k1 h2
    rw [List.append_assoc] at k2
    exact k2

theorem ordered_entries {p q : VocabParams} {es : List VariantEntry} :
    ∀ {m m' : Vm} {ts : List (List Char)}, Ordered m ts → addEntries p q m es = .ok m' →
    Ordered m' (ts ++ es.flatMap fun e => e.reference :: e.variants.map Prod.fst) := by
  induction es with
  | nil =>
    intro m m' ts h ha
    cases ha
    rw [List.flatMap_nil, List.append_nil]
    exact h
  | cons e es ih =>
    intro m m' ts h ha
    obtain ⟨⟨m2, ref⟩, h3, h4⟩ := bind_ok.mp ha
    obtain ⟨m3, h5, h6⟩ := bind_ok.mp h4
    have k2 := ih (ordered_variants (ordered_add h h3) h5) h6
    rw [List.flatMap_cons]
    simpa using k2

theorem ordered_adds {es : List (List Char × Nat)} {p : VocabParams} : ∀ {m m' : Vm} {ts : List (List Char)},
    Ordered m ts → m.run (es.map fun e => .add e.1 (some e.2) p) = .ok m' →
    Ordered m' (ts ++ es.map Prod.fst) := by
  induction es with
  | nil =>
    intro m m' ts h hr
    cases hr
    rw [List.map_nil, List.append_nil]
    exact h
  | cons e es ih =>
    intro m m' ts h hr
    obtain ⟨m1, h1, h2⟩ := bind_ok.mp hr
    obtain ⟨⟨m2, id⟩, h3, h4⟩ := bind_ok.mp h1
    cases pure_ok.mp h4
    have k2 := ih (ordered_add h h3) h2
    rw [List.append_assoc] at k2
    exact k2

theorem ordered_with {m : Vm} {ts : List (List Char)} (h : Ordered m ts) {m' : Vm} {fr : Bool}
    (e : m' = { m with lexicons := m'.lexicons, haveFreq := fr }) : Ordered m' ts := by
  rw [e]
  generalize m'.lexicons = lx
  have hi := h.inv
  exact ⟨⟨hi.bij, hi.bos, hi.eos, hi.unk, hi.notIndexed, hi.tokens, hi.freqSum⟩, h.texts⟩

theorem ordered_resource {x : LoadExt} {r : Resource} {m m' : Vm} {ts : List (List Char)}
    (h : Ordered m ts) (hr : m.readResource x r = .ok m')
    {i : Nat} {a : List (List Char × Option Nat × VocabParams)} (ha : Adds x i (sourceOf r) a) :
    Ordered m' (ts ++ a.map Prod.fst) := by
  cases r with
  | lexicon f =>
    obtain ⟨ls, h1, h2⟩ := bind_ok.mp hr
    obtain ⟨es, m1, g1, g2, g3⟩ := (read_vocabulary _ _ _ _ _).mp h2
    cases ha with
    | @lexicon _ lines es' f1 f2 =>
    rw [open_ok.mp h1] at f1
    cases f1
    cases vocabLines_same g1 f2
    have := ordered_with (ordered_adds h g2) (m' := m') (by rw [g3])
    rw [List.map_map]
    exact this
  | variantList f =>
    obtain ⟨ls, h1, h2⟩ := bind_ok.mp hr
    obtain ⟨es, m1, g1, g2, g3⟩ := (read_variants _ _ _ _ _ _ _).mp h2
    cases ha with
    | variants f1 f2 =>
    rw [open_ok.mp h1] at f1
    cases f1
    cases variantLines_unique g1 f2
    have := ordered_with (ordered_entries h g2) (m' := m') (fr := m1.haveFreq) (by rw [g3])
    rw [List.map_flatMap]
    simp only [List.map_cons, List.map_map]
    exact this
  | errorList f =>
    obtain ⟨ls, h1, h2⟩ := bind_ok.mp hr
    obtain ⟨es, m1, g1, g2, g3⟩ := (read_variants _ _ _ _ _ _ _).mp h2
    cases ha with
    | errors f1 f2 =>
    rw [open_ok.mp h1] at f1
    cases f1
    cases variantLines_unique g1 f2
    have := ordered_with (ordered_entries h g2) (m' := m') (fr := m1.haveFreq) (by rw [g3])
    rw [List.map_flatMap]
    simp only [List.map_cons, List.map_map]
    exact this

theorem ordered_resources {x : LoadExt} {rs : List Resource} : ∀ {m m' : Vm} {ts : List (List Char)},
    Ordered m ts → m.readResources x rs = .ok m' →
    ∀ {i : Nat} {as : List (List (List Char × Option Nat × VocabParams))}, AddsAll x i (rs.map sourceOf) as →
    Ordered m' (ts ++ as.flatten.map Prod.fst) := by
  induction rs with
  | nil =>
    intro m m' ts h hr i as ha
    cases hr
    cases ha
    rw [List.flatten_nil, List.map_nil, List.append_nil]
    exact h
  | cons r rs ih =>
    intro m m' ts h hr i as ha
    obtain ⟨m1, h1, h2⟩ := bind_ok.mp hr
    cases ha with
    | cons a1 a2 =>
    have := ih (ordered_resource h h1 a1) h2 a2
    rw [List.append_assoc, ← List.map_append] at this
    exact this

theorem ordered_lms {x : LoadExt} {fs : List (List Char)} : ∀ {m m' : Vm} {ts : List (List Char)},
    Ordered m ts → m.readLms x fs = .ok m' →
    ∀ {i : Nat} {as : List (List (List Char × Option Nat × VocabParams))}, AddsAll x i (fs.map .lm) as →
    Ordered m' (ts ++ as.flatten.map Prod.fst) := by
  induction fs with
  | nil =>
    intro m m' ts h hr i as ha
    cases hr
    cases ha
    rw [List.flatten_nil, List.map_nil, List.append_nil]
    exact h
  | cons f fs ih =>
    intro m m' ts h hr i as ha
    obtain ⟨ls, h1, h2⟩ := bind_ok.mp hr
    obtain ⟨m1, h3, h4⟩ := bind_ok.mp h2
    obtain ⟨es, m2, g1, g2, g3⟩ := (read_vocabulary _ _ _ _ _).mp h3
    cases ha with
    | cons a1 a2 =>
    cases a1 with
    | @lm _ lines es' f1 f2 =>
    rw [open_ok.mp h1] at f1
    cases f1
    cases vocabLines_same g1 f2
    have k1 := ordered_with (ordered_adds h g2) (m' := m1) (by rw [g3])
    have := ih k1 h4 a2
    rw [List.append_assoc] at this
    rw [List.flatten_cons, List.map_append, List.map_map]
    exact this

/-- The texts of what is loaded. -/
theorem ordered_load {x : LoadExt} {args : LoadArgs} {o : Orders} {L : Loaded} (h : x.load args o = .ok L)
    {as : List (List (List Char × Option Nat × VocabParams))} (has : AddsAll x 0 (sourcesOf args) as) :
    Ordered L.vm (as.flatten.map Prod.fst) := by
  unfold LoadExt.load at h
  obtain ⟨m0, h0, h⟩ := bind_ok.mp h
  obtain ⟨m1, h1, h⟩ := bind_ok.mp h
  obtain ⟨m2, h2, h⟩ := bind_ok.mp h
  obtain ⟨cs, h3, h⟩ := bind_ok.mp h
  obtain ⟨book, h4, h⟩ := bind_ok.mp h
  obtain ⟨m3, h5, h⟩ := bind_ok.mp h
  cases pure_ok.mp h
  obtain ⟨lines, g0, g1⟩ := bind_ok.mp h0
  cases pure_ok.mp g1
  obtain ⟨as1, as2, rfl, a1, a2⟩ := addsAll_split has
  have k1 := ordered_lms (ordered_resources (ordered_new _) h1 a1) h2 a2
  rw [List.nil_append, ← List.map_append, ← List.flatten_append] at k1
  obtain ⟨i1, i2, i3, i4⟩ := inv_build k1.inv h5
  refine ordered_same k1 i1 fun i => ?_
  show (m3.decoder[i]?).map _ = _
  rw [i3]
  rfl

/-! ## What the loop of learning does -/

/-- The texts that begin a series, after `prev`. -/
def later : Option (List Char) → List (List Char) → List (List Char)
  | _, [] => []
  | prev, a :: l => if prev = some a then later prev l else a :: later (some a) l

theorem later_some (a : List Char) (l : List (List Char)) :
    a :: later (some a) l = l.destutter' (· ≠ ·) a := by
  induction l generalizing a with
  | nil => rfl
  | cons b l ih =>
    unfold later
    by_cases e : a = b
    · subst e
      rw [if_pos rfl, List.destutter'_cons_neg _ (by simp)]
      exact ih a
    · rw [if_neg (by simpa using e), List.destutter'_cons_pos _ (by simpa using e), ih]

theorem later_none (l : List (List Char)) : later none l = l.destutter (· ≠ ·) := by
  cases l with
  | nil => rfl
  | cons a l =>
    rw [List.destutter_cons']
    exact later_some a l

/-- The entries stay, with frequencies raised by `f`, and new ones are not looked up. -/
structure Grown (m m' : Vm) (f : List Char → Nat) : Prop where
  old : ∀ (i : Nat) v, m.decoder[i]? = some v → ∃ v', m'.decoder[i]? = some v' ∧ v'.text = v.text ∧
    v'.vocabtype = v.vocabtype ∧ v'.frequency = v.frequency + f v.text
  new : ∀ (i : Nat) v', m'.decoder[i]? = some v' → (∃ v, m.decoder[i]? = some v) ∨
    ((∀ j, textAt m j ≠ some v'.text) ∧ v'.vocabtype = .TRANSPARENT ∧ v'.frequency = f v'.text ∧
      0 < f v'.text)
  zero : ∀ t, (∀ j, textAt m' j ≠ some t) → f t = 0

theorem Grown.text {m m' : Vm} {f : List Char → Nat} (h : Grown m m' f) {i : Nat} {t : List Char}
    (ht : textAt m i = some t) : textAt m' i = some t := by
  obtain ⟨v, hv, rfl⟩ := Option.map_eq_some_iff.mp ht
  obtain ⟨v', hv', e, _⟩ := h.old i v hv
  unfold textAt
  rw [hv', Option.map_some, e]

theorem Grown.refl (m : Vm) : Grown m m fun _ => 0 :=
  ⟨fun _ v hv => ⟨v, hv, rfl, rfl, rfl⟩, fun _ v hv => .inl ⟨v, hv⟩, fun _ _ => rfl⟩

theorem Grown.trans {m m' m'' : Vm} {f g : List Char → Nat} (h : Grown m m' f) (h' : Grown m' m'' g) :
    Grown m m'' fun t => f t + g t := by
  refine ⟨?_, ?_, ?_⟩
  · intro i v hv
    obtain ⟨v1, hv1, a1, a2, a3⟩ := h.old i v hv
    obtain ⟨v2, hv2, b1, b2, b3⟩ := h'.old i v1 hv1
    exact ⟨v2, hv2, b1.trans a1, b2.trans a2, by rw [b3, a3, a1, Nat.add_assoc]⟩
  · intro i v2 hv2
    rcases h'.new i v2 hv2 with ⟨v1, hv1⟩ | ⟨n1, n2, n3, n4⟩
    · rcases h.new i v1 hv1 with hv | ⟨k1, k2, k3, k4⟩
      · exact .inl hv
      · obtain ⟨v3, hv3, b1, b2, b3⟩ := h'.old i v1 hv1
        rw [hv2] at hv3
        cases hv3
        exact .inr ⟨by rw [b1]; exact k1, b2.trans k2, by rw [b3, k3, b1], by rw [b1]; omega⟩
    · exact .inr ⟨fun j hj => n1 j (h.text hj), n2, by rw [n3, h.zero _ n1, Nat.zero_add], by omega⟩
  · intro t ht
    rw [h'.zero t ht, h.zero t fun j hj => ht j (h'.text hj)]

theorem grown_link (m : Vm) (r v : Nat) (s : Rat) : Grown m (m.addVariantById r v s).1 fun _ => 0 := by
  obtain ⟨c1, c2, c3⟩ := addVariantById_core m r v s
  refine ⟨?_, ?_, fun _ _ => rfl⟩
  · intro i w hw
    have hi := (List.getElem?_eq_some_iff.mp hw).1
    obtain ⟨w', hw'⟩ : ∃ w', (m.addVariantById r v s).1.decoder[i]? = some w' :=
      ⟨_, List.getElem?_eq_getElem (by rw [c2]; exact hi)⟩
    obtain ⟨w1, hw1, hs⟩ := c3 i w' hw'
    rw [hw] at hw1
    cases hw1
    exact ⟨w', hw', hs.text, hs.vocabtype, hs.frequency⟩
  · intro i w' hw'
    obtain ⟨w1, hw1, _⟩ := c3 i w' hw'
    exact .inl ⟨w1, hw1⟩

theorem grown_id {m m' : Vm} {t : List Char} {prev : Option (List Char)} {id : Nat} (hinv : Inv m)
    (hprev : ∀ s, prev = some s → ∃ i, textAt m i = some s)
    (h : m.learnId t prev = .ok (m', id)) :
    Grown m m' (fun s => if prev = some t then 0 else if s = t then 1 else 0) ∧
      ∀ {fr ks}, Known m fr ks → Known m' fr ks := by
  obtain ⟨hi1, hi2, hi3⟩ := inv_learnId hinv h
  unfold Vm.learnId at h
  split at h
  · next vid hvid =>
    split at h
    · cases h
    · next item hitem =>
      have htext : item.text = t := by
        have := (hinv.bij _ _).mp hvid
        simpa [textAt, hitem] using this
      by_cases hp : prev = some t
      · rw [if_neg (by simpa using hp)] at h
        cases h
        simp only [hp, if_true]
        exact ⟨.refl _, fun h => h⟩
      · rw [if_pos (by simpa using hp)] at h
        split at h
        · cases h
        · have e := (Prod.ext_iff.mp (Except.ok.inj h)).1
          simp only at e
          subst e
          simp only [hp, if_false]
          have hget : ∀ i v', (m.decoder.set vid { item with frequency := item.frequency + 1 })[i]? = some v' →
              (i = vid ∧ v' = { item with frequency := item.frequency + 1 }) ∨
              (i ≠ vid ∧ m.decoder[i]? = some v') := by
            intro i v' hv'
            by_cases e : vid = i
            · subst e
              rw [getElem?_set_self' hitem] at hv'
              cases hv'
              exact .inl ⟨rfl, rfl⟩
            · rw [List.getElem?_set_ne e] at hv'
              exact .inr ⟨Ne.symm e, hv'⟩
          refine ⟨⟨?_, ?_, ?_⟩, ?_⟩
          · intro i v hv
            by_cases e : vid = i
            · subst e
              rw [hitem] at hv
              cases hv
              exact ⟨_, getElem?_set_self' hitem, rfl, rfl, by rw [if_pos htext]⟩
            · refine ⟨v, by simp only; rw [List.getElem?_set_ne e]; exact hv, rfl, rfl, ?_⟩
              rw [if_neg, Nat.add_zero]
              rintro rfl
              have := (hinv.bij v.text i).mpr (by simp [textAt, hv])
              rw [hvid] at this
              exact e (Option.some.inj this)
          · intro i v' hv'
            rcases hget i v' hv' with ⟨rfl, _⟩ | ⟨_, h⟩
            · exact .inl ⟨_, hitem⟩
            · exact .inl ⟨_, h⟩
          · intro s hs
            rw [if_neg]
            rintro rfl
            exact hs id ((hi1.bij _ _).mp hi3)
          · intro fr ks hk
            refine known_same hk hi1 ?_ hk.counted hi2 ?_
            · rintro i s ⟨v', hv', hs⟩
              rcases hget i v' hv' with ⟨rfl, rfl⟩ | ⟨_, h⟩
              · exact hk.noSelf _ _ ⟨item, hitem, hs⟩
              · exact hk.noSelf _ _ ⟨v', h, hs⟩
            · intro i v' hv'
              rcases hget i v' hv' with ⟨rfl, rfl⟩ | ⟨_, h⟩
              · exact .inl ⟨item, hitem, rfl, rfl⟩
              · exact .inl ⟨v', h, rfl, rfl⟩
  · next hn =>
    have habs : ∀ j, textAt m j ≠ some t := by
      intro j hj
      rw [(hinv.bij _ _).mpr hj] at hn
      cases hn
    have hp : prev ≠ some t := by
      intro e
      obtain ⟨i, hi⟩ := hprev t e
      exact habs i hi
    refine ⟨?_, fun hk => known_add hk h⟩
    simp only [hp, if_false]
    rcases add_cases h with ⟨_, _, he, _⟩ | ⟨norm, _, _, _, _, _, rfl⟩
    · rw [hn] at he; cases he
    refine ⟨?_, ?_, ?_⟩
    · intro i v hv
      refine ⟨v, ?_, rfl, rfl, ?_⟩
      · simp only
        rw [List.getElem?_append_left (List.getElem?_eq_some_iff.mp hv).1]
        exact hv
      · rw [if_neg, Nat.add_zero]
        rintro rfl
        exact habs i (by simp [textAt, hv])
    · intro i v' hv'
      simp only at hv'
      rcases Nat.lt_or_ge i m.decoder.length with hi | hi
      · rw [List.getElem?_append_left hi] at hv'
        exact .inl ⟨v', hv'⟩
      · rw [List.getElem?_append_right hi] at hv'
        have := List.mem_of_getElem? hv'
        simp only [List.mem_singleton] at this
        subst this
        exact .inr ⟨habs, rfl, (if_pos rfl).symm, lt_of_lt_of_eq Nat.one_pos (if_pos rfl).symm⟩
    · intro s hs
      rw [if_neg]
      rintro rfl
      exact hs _ ((hi1.bij _ _).mp hi3)

/-- What the loop of learning does. -/
theorem learnLoop_known {fr : Bool} {fs : List Finding} : ∀ {m m' : Vm} {prev : Option (List Char)}
    {c c' : Nat} {ks new : List (List Char × List Char × Rat)}, Known m fr ks →
    (∀ s, prev = some s → ∃ i, textAt m i = some s) → m.learnLoop fs prev c = .ok (m', c') →
    List.Forall₂ (fun f k => textAt m f.vocabId = some k.1 ∧ f.input = k.2.1 ∧ f.distScore = k.2.2) fs new →
    Known m' fr (ks ++ proper new) ∧ c' = c + (proper new).length ∧
      Grown m m' fun t => (later prev (new.map fun k => k.2.1)).count t := by
  induction fs with
  | nil =>
    intro m m' prev c c' ks new hk _ h hn
    cases hn
    cases h
    rw [show proper [] = [] from rfl, List.append_nil]
    refine ⟨hk, rfl, ?_⟩
    simp only [List.map_nil, later, List.count_nil]
    exact .refl _
  | cons f fs ih =>
    intro m m' prev c c' ks new hk hprev h hn
    cases hn with
    | @cons _ k _ new hf hn =>
    obtain ⟨hf1, hf2, hf3⟩ := hf
    obtain ⟨r, k2, k3⟩ := k
    simp only at hf1 hf2 hf3
    subst hf2 hf3
    simp only [Vm.learnLoop, bind_ok] at h
    obtain ⟨⟨m1, id⟩, h1, h2⟩ := h
    simp only at h2
    obtain ⟨i1, i2, i3⟩ := inv_learnId hk.inv h1
    obtain ⟨g1, hk1⟩ := grown_id hk.inv hprev h1
    have hk1 := hk1 hk
    have hid := (i1.bij _ _).mp i3
    have hlast : (fun t => (later prev (((r, f.input, f.distScore) :: new).map fun k => k.2.1)).count t) =
        fun t => (if prev = some f.input then 0 else if t = f.input then 1 else 0) +
          (later (some f.input) (new.map fun k => k.2.1)).count t := by
      funext t
      rw [List.map_cons, later]
      by_cases hp : prev = some f.input
      · rw [if_pos hp, if_pos hp, hp, Nat.zero_add]
      · rw [if_neg hp, if_neg hp, List.count_cons, Nat.add_comm]
        by_cases e : t = f.input
        · simp [e]
        · simp [e, Ne.symm e]
    have hcons : proper ((r, f.input, f.distScore) :: new) = proper [(r, f.input, f.distScore)] ++ proper new :=
      proper_append [_] new
    rw [hlast, hcons]
    have hf1' := i2.2 _ _ hf1
    have hprev' : ∀ {M : Vm}, Extends m1 M → ∀ s, some f.input = some s → ∃ i, textAt M i = some s := by
      rintro M hM s h
      cases h
      exact ⟨id, hM.2 _ _ hid⟩
    by_cases hne : f.vocabId = id
    · rw [if_neg (by simpa using hne)] at h2
      have hr : r = f.input := by
        rw [hne, hid] at hf1'
        exact (Option.some.inj hf1').symm
      have hp : proper [(r, f.input, f.distScore)] = [] := by simp [proper, hr]
      rw [hp, List.nil_append]
      obtain ⟨k1, k2, k3⟩ := ih hk1 (hprev' (.refl _)) h2
        (hn.imp fun _ _ h => ⟨i2.2 _ _ h.1, h.2⟩)
      exact ⟨k1, k2, g1.trans k3⟩
    · rw [if_pos (by simpa using hne)] at h2
      have hr : r ≠ f.input := by
        rintro rfl
        have := (i1.bij _ _).mpr hf1'
        rw [i3] at this
        exact hne (Option.some.inj this).symm
      have hp : proper [(r, f.input, f.distScore)] = [(r, f.input, f.distScore)] := by simp [proper, hr]
      have hl := known_link hk1 hf1' hid f.distScore
      have hg := grown_link m1 f.vocabId id f.distScore
      have hadded : (m1.addVariantById f.vocabId id f.distScore).2 = true := by
        unfold Vm.addVariantById
        rw [if_pos (Ne.symm hne)]
      have hext := (inv_addVariantById i1 f.vocabId id f.distScore).2.1
      simp only [hadded, if_true] at h2
      obtain ⟨k1, k2, k3⟩ := ih hl (hprev' hext) h2
        (hn.imp fun _ _ h => ⟨hext.2 _ _ (i2.2 _ _ h.1), h.2⟩)
      refine ⟨by rw [← List.append_assoc]; exact k1, ?_, ?_⟩
      · rw [k2, hp, List.length_append, List.length_singleton, Nat.add_assoc]
      · have := g1.trans (hg.trans k3)
        simpa only [Nat.zero_add] using this

/-- The loop of learning keeps the order of the entries. -/
theorem learnLoop_ordered {fs : List Finding} : ∀ {m m' : Vm} {prev : Option (List Char)} {c c' : Nat}
    {ts : List (List Char)}, Ordered m ts → m.learnLoop fs prev c = .ok (m', c') →
    ∃ ts', Ordered m' (ts ++ ts') := by
  induction fs with
  | nil =>
    intro m m' prev c c' ts ho h
    cases h
    exact ⟨[], by rw [List.append_nil]; exact ho⟩
  | cons f fs ih =>
    intro m m' prev c c' ts ho h
    simp only [Vm.learnLoop, bind_ok] at h
    obtain ⟨⟨m1, id⟩, h1, h2⟩ := h
    simp only at h2
    obtain ⟨i1, i2, i3⟩ := inv_learnId ho.inv h1
    have h1' : ∃ ts', Ordered m1 (ts ++ ts') := by
      unfold Vm.learnId at h1
      split at h1
      · next vid hvid =>
        refine ⟨[], ?_⟩
        rw [List.append_nil]
        split at h1
        · cases h1
        · next item hitem =>
          split at h1
          · split at h1
            · cases h1
            · have e := (Prod.ext_iff.mp (Except.ok.inj h1)).1
              simp only at e
              subst e
              refine ordered_same ho i1 fun i => ?_
              unfold textAt
              by_cases e : vid = i
              · subst e
                simp only
                rw [getElem?_set_self' hitem, hitem]
                rfl
              · simp only
                rw [List.getElem?_set_ne e]
          · cases h1
            exact ho
      · exact ⟨_, ordered_add ho h1⟩
    obtain ⟨ts1, h1'⟩ := h1'
    split at h2
    · obtain ⟨ts2, h⟩ := ih (ordered_link h1' _ _ _) h2
      exact ⟨ts1 ++ ts2, by rw [← List.append_assoc]; exact h⟩
    · obtain ⟨ts2, h⟩ := ih h1' h2
      exact ⟨ts1 ++ ts2, by rw [← List.append_assoc]; exact h⟩

/-! ## A model and what it knows, while learning -/

/-- The model `m`, built from the words `W` and what was learned since, knows `s` about words. -/
structure Stocked (A : Alphabet) (o : Orders) (W : List (List Char)) (m : Vm)
    (s : Lexis × List (List Char × List Char × Rat)) : Prop where
  history : ∃ ops, (Vm.new A).run (ops ++ [.build o]) = .ok m
  short : ∀ v ∈ m.decoder, v.text.length < 65536
  known : Known m s.1.counted s.2
  indexed : ∀ t, s.1.indexed t ↔ ∃ v ∈ m.decoder, v.text = t ∧ v.vocabtype.check .INDEXED = true
  transparent : ∀ v ∈ m.decoder, v.vocabtype.check .INDEXED = true →
    s.1.transparent v.text = v.vocabtype.check .TRANSPARENT
  freq : ∀ v ∈ m.decoder, ¬ Reserved v.text → s.1.freq v.text = v.frequency
  absent : ∀ t, (∀ j, textAt m j ≠ some t) → s.1.freq t = 0
  linked : ∀ t, s.1.linked t ↔ ∃ k ∈ s.2, k.1 = t ∨ k.2.1 = t
  links : ∀ t, s.1.links t = (s.2.filter fun k => k.2.1 = t).map fun k => (k.1, k.2.2)
  refs : ∀ k ∈ s.2, k.1 ∈ W ∧ ¬ Reserved k.1
  words : ∀ t, s.1.indexed t → t ∈ W
  order : ∃ ts, Ordered m (W ++ ts)

theorem Stocked.describes {A : Alphabet} {o : Orders} {W : List (List Char)} {m : Vm}
    {s : Lexis × List (List Char × List Char × Rat)} (h : Stocked A o W m s) : Describes m s.1 := by
  have hres := indexed_not_reserved h.known.inv
  refine ⟨h.indexed, h.known.counted.symm, fun v hv hi => h.freq v hv (hres v hv hi), h.transparent,
    fun v hv hi => ?_, fun v hv hi => ?_⟩
  · obtain ⟨id, hid⟩ := List.getElem?_of_mem hv
    rw [h.linked]
    exact (h.known.linked id v hid).symm
  · obtain ⟨id, hid⟩ := List.getElem?_of_mem hv
    rw [h.links]
    refine (forall₂_mem_right (h.known.links id v hid)).imp ?_
    rintro r l ⟨⟨i, hr, ht⟩, hl⟩
    obtain ⟨k, hk, rfl⟩ := List.mem_map.mp hl
    obtain ⟨t, ht', e⟩ := Option.map_eq_some_iff.mp ht
    refine ⟨i, t, hr, ht', e, h.freq t (List.mem_of_getElem? ht') ?_⟩
    rw [e]
    exact (h.refs k (List.mem_filter.mp hk).1).2

/-- What is suggested is one of the words. -/
theorem Stocked.suggested {A : Alphabet} {o : Orders} {W : List (List Char)} {m : Vm}
    {s : Lexis × List (List Char × List Char × Rat)} (h : Stocked A o W m s) {x : TextExt} {A' : Alphabet}
    {cfg : Config} {p : Params} {text : List Char} {us : List Suggestion}
    (hs : Suggestions x A' s.1 cfg p text us) : ∀ u ∈ us, u.word ∈ W ∧ ¬ Reserved u.word := by
  intro u hu
  rcases suggestions_words hs u hu with hi | ⟨t, sc, _, hl⟩
  · refine ⟨h.words _ hi, ?_⟩
    obtain ⟨v, hv, e, hvi⟩ := (h.indexed _).mp hi
    rw [← e]
    exact indexed_not_reserved h.known.inv v hv hvi
  · rw [h.links] at hl
    obtain ⟨k, hk, e⟩ := List.mem_map.mp hl
    have := h.refs k (List.mem_filter.mp hk).1
    rw [(Prod.ext_iff.mp e).1] at this
    exact this

/-- Learning from findings, for the library. -/
theorem stocked_learn {A : Alphabet} {o : Orders} {W : List (List Char)} {m : Vm}
    {s : Lexis × List (List Char × List Char × Rat)} (h : Stocked A o W m s) {fs : List Finding}
    {new : List (List Char × List Char × Rat)}
    (hn : List.Forall₂ (fun f k => textAt m f.vocabId = some k.1 ∧ f.input = k.2.1 ∧ f.distScore = k.2.2) fs new)
    (hnew : ∀ k ∈ new, (k.1 ∈ W ∧ ¬ Reserved k.1) ∧ k.2.1.length < 65536)
    {m' : Vm} {k : Nat} (hl : m.learnVariants fs true o = .ok (m', k)) :
    k = (proper new).length ∧ Stocked A o W m' (s.1.learned new, s.2 ++ proper new) := by
  obtain ⟨⟨m1, c⟩, h1, h2⟩ := bind_ok.mp hl
  obtain ⟨m2, h3, h4⟩ := bind_ok.mp h2
  cases pure_ok.mp h4
  obtain ⟨ops, hrun⟩ := h.history
  obtain ⟨hk1, hk2, hg⟩ := learnLoop_known h.known (by simp) h1 hn
  rw [Nat.zero_add] at hk2
  rw [later_none] at hg
  obtain ⟨i1, i2, i3, i4⟩ := inv_build hk1.inv h3
  have hbc := (build_cases h3).1
  have htext : ∀ i, textAt m' i = textAt m1 i := fun i => by unfold textAt; rw [i3]
  have hknown : Known m' s.1.counted (s.2 ++ proper new) := by
    refine known_same hk1 i1 ((linkExt_build h3).noSelf hk1.noSelf) (by rw [hbc]; exact hk1.counted) i2 ?_
    intro i v hv
    rw [i3] at hv
    exact .inl ⟨v, hv, rfl, rfl⟩
  have hnewtext : ∀ v ∈ m'.decoder, (∃ v0 ∈ m.decoder, v.text = v0.text ∧ v.vocabtype = v0.vocabtype ∧
      v.frequency = v0.frequency + ((new.map fun k => k.2.1).destutter (· ≠ ·)).count v.text) ∨
      ((∀ j, textAt m j ≠ some v.text) ∧ v.vocabtype = .TRANSPARENT ∧
        v.frequency = ((new.map fun k => k.2.1).destutter (· ≠ ·)).count v.text ∧
        0 < ((new.map fun k => k.2.1).destutter (· ≠ ·)).count v.text) := by
    intro v hv
    rw [i3] at hv
    obtain ⟨i, hi⟩ := List.getElem?_of_mem hv
    rcases hg.new i v hi with ⟨v0, hv0⟩ | hh
    · obtain ⟨v', hv', a1, a2, a3⟩ := hg.old i v0 hv0
      rw [hi] at hv'
      cases hv'
      exact .inl ⟨v0, List.mem_of_getElem? hv0, a1, a2, by rw [a3, a1]⟩
    · exact .inr hh
  have hind : ∀ v ∈ m'.decoder, v.vocabtype.check .INDEXED = true → ∃ v0 ∈ m.decoder, v.text = v0.text ∧
      v.vocabtype = v0.vocabtype := by
    intro v hv hi
    rcases hnewtext v hv with ⟨v0, h0, e1, e2, _⟩ | ⟨_, e, _⟩
    · exact ⟨v0, h0, e1, e2⟩
    · rw [e] at hi
      cases hi
  refine ⟨hk2, ⟨ops ++ [.build o, .learn fs false o], ?_⟩, ?_, hknown, ?_, ?_, ?_, ?_, ?_, ?_, ?_, ?_, ?_⟩
  · have e : ops ++ [Op.build o, Op.learn fs false o] ++ [Op.build o] =
        (ops ++ [.build o]) ++ [.learn fs false o, .build o] := by simp
    rw [e]
    refine run_append_ok hrun (bind_ok.mpr ⟨m1, bind_ok.mpr ⟨(m1, _), bind_ok.mpr ⟨_, h1, rfl⟩, rfl⟩,
      bind_ok.mpr ⟨m', h3, rfl⟩⟩)
  · intro v hv
    rcases hnewtext v hv with ⟨v0, h0, e1, _⟩ | ⟨_, _, _, e⟩
    · rw [e1]
      exact h.short v0 h0
    · have hm := (List.destutter_sublist _ _).subset (List.count_pos_iff.mp e)
      obtain ⟨k, hk, e⟩ := List.mem_map.mp hm
      rw [← e]
      exact (hnew k hk).2
  · intro t
    show s.1.indexed t ↔ _
    rw [h.indexed]
    constructor
    · rintro ⟨v, hv, rfl, hi⟩
      obtain ⟨i, hv⟩ := List.getElem?_of_mem hv
      obtain ⟨v', hv', e1, e2, _⟩ := hg.old i v hv
      rw [← i3] at hv'
      exact ⟨v', List.mem_of_getElem? hv', e1, by rw [e2]; exact hi⟩
    · rintro ⟨v, hv, rfl, hi⟩
      obtain ⟨v0, h0, e1, e2⟩ := hind v hv hi
      exact ⟨v0, h0, e1.symm, by rw [← e2]; exact hi⟩
  · intro v hv hi
    obtain ⟨v0, h0, e1, e2⟩ := hind v hv hi
    rw [e1, e2]
    exact h.transparent v0 h0 (by rw [← e2]; exact hi)
  · intro v hv hr
    show s.1.freq v.text + _ = _
    rcases hnewtext v hv with ⟨v0, h0, e1, _, e3⟩ | ⟨habs, _, e, _⟩
    · rw [e3, e1, h.freq v0 h0 (by rw [← e1]; exact hr)]
    · rw [e, h.absent _ habs, Nat.zero_add]
  · intro t ht
    show s.1.freq t + _ = 0
    have ht : ∀ j, textAt m1 j ≠ some t := fun j => by rw [← htext]; exact ht j
    rw [hg.zero t ht, h.absent t fun j hj => ht j (hg.text hj)]
  · intro t
    show (s.1.linked t ∨ ∃ k ∈ proper new, k.1 = t ∨ k.2.1 = t) ↔ _
    rw [h.linked]
    simp only [List.mem_append, or_and_right, exists_or]
  · intro t
    show s.1.links t ++ _ = _
    rw [h.links, List.filter_append, List.map_append]
  · intro k hk
    rcases List.mem_append.mp hk with hk | hk
    · exact h.refs k hk
    · exact (hnew k (List.mem_filter.mp hk).1).1
  · exact h.words
  · obtain ⟨ts, ho⟩ := h.order
    obtain ⟨ts', ho'⟩ := learnLoop_ordered ho h1
    refine ⟨ts ++ ts', ?_⟩
    rw [← List.append_assoc]
    exact ordered_same ho' i1 htext

/-- Learning from lines, decomposed. -/
theorem learnFrom_ok {m m' : Vm} {x : TextExt} {cfg : TextConfig} {p : TextParams} {ls : List (List Char)}
    {strict : Bool} {o : Orders} {k : Nat} (h : m.learnFrom x cfg p ls strict true o = .ok (m', k)) :
    ∃ fss, List.Forall₂ (fun l fs => m.findForLearning x cfg p strict l = .ok fs) ls fss ∧
      m.learnVariants fss.flatten true o = .ok (m', k) := by
  have unf : m.learnFrom x cfg p ls strict true o =
      (if p.singleThread then collectSeq (m.findForLearning x cfg p strict) ls
        else collectPar (m.findForLearning x cfg p strict) (x.sched ls.length) ls) >>=
      fun all => m.learnVariants all.flatten true o := by
    unfold Vm.learnFrom
    cases p.singleThread <;> rfl
  rw [unf] at h
  obtain ⟨fss, h1, h2⟩ := bind_ok.mp h
  refine ⟨fss, collectSeq_ok.mp ?_, h2⟩
  cases hs : p.singleThread
  · rw [hs] at h1
    exact (collectPar_perm (x.sched_perm _)).mp h1
  · rw [hs] at h1
    exact h1

/-- Learning from whole lines, for the library. -/
theorem stocked_whole {A : Alphabet} (hne : NoEmpty A) (hlen : A.length ≤ 166) {o : Orders}
    {W : List (List Char)} {m : Vm} {s : Lexis × List (List Char × List Char × Rat)} (h : Stocked A o W m s)
    {x : TextExt} {cfg : TextConfig} {p : TextParams}
    (hw : cfg.weights.sum x.f64 ≠ 0) (hfw : 0 ≤ p.variant.freqWeight)
    (ha : Fits p.variant.maxAnagramDistance) (he : Fits p.variant.maxEditDistance)
    {ls : List (List Char)}
    (hls : ∀ l ∈ ls, l ≠ [] ∧ l.length < 65536 ∧ ShortEnough x A p.variant l)
    {m' : Vm} {k : Nat} (hl : m.learnFrom x cfg p ls true true o = .ok (m', k)) :
    ∃ s', Learns (FoundWhole x A cfg.toConfig p.variant) ls s s' k ∧ Stocked A o W m' s' := by
  obtain ⟨fss, h1, h2⟩ := learnFrom_ok hl
  obtain ⟨ops, hrun⟩ := h.history
  have hrefs : ∀ v ∈ m.decoder, ∀ t sc, VariantReference.variantOf t sc ∈ v.variants.getD [] →
      t < m.decoder.length := by
    intro v hv t sc ht
    obtain ⟨id, hid⟩ := List.getElem?_of_mem hv
    obtain ⟨l, i, e, hi⟩ := forall₂_exists (h.known.links id v hid) _ (List.mem_filter.mpr ⟨ht, rfl⟩)
    cases e
    obtain ⟨t', ht', _⟩ := Option.map_eq_some_iff.mp hi
    exact (List.getElem?_eq_some_iff.mp ht').1
  have hall : ∃ uss, List.Forall₂ (Suggestions x A s.1 cfg.toConfig p.variant) ls uss ∧
      List.Forall₂ (fun f k => textAt m f.vocabId = some k.1 ∧ f.input = k.2.1 ∧ f.distScore = k.2.2)
        fss.flatten ((ls.zip uss).flatMap fun y => y.2.map fun u => (u.word, y.1, u.score)) := by
    clear h2 hl
    induction h1 with
    | nil => exact ⟨[], .nil, .nil⟩
    | @cons l fs ls fss hf _ ih =>
      obtain ⟨uss, i1, i2⟩ := ih fun l hl => hls l (List.mem_cons_of_mem _ hl)
      obtain ⟨b1, _, b3⟩ := hls l List.mem_cons_self
      obtain ⟨res, us, g1, g2, g3⟩ := find_variants_exact A hne hlen ops o m hrun h.short hrefs s.1 h.describes
        x cfg.toConfig p.variant hw hfw ha he l b1 b3
      refine ⟨us :: uss, .cons g2 i1, ?_⟩
      have hfs : fs = res.map fun r => ⟨l, r.vocabId, r.distScore⟩ := by
        unfold Vm.findForLearning at hf
        rw [if_pos rfl] at hf
        obtain ⟨rs, q1, q2⟩ := bind_ok.mp hf
        rw [g1] at q1
        cases q1
        exact (pure_ok.mp q2).symm
      rw [List.flatten_cons, List.zip_cons_cons, List.flatMap_cons, hfs]
      refine List.rel_append ?_ i2
      rw [List.forall₂_map_left_iff, List.forall₂_map_right_iff]
      refine g3.imp fun r u hru => ⟨?_, rfl, hru.score⟩
      obtain ⟨v, e1, e2⟩ := hru.word
      unfold textAt
      rw [e1, ← e2]
      rfl
  obtain ⟨uss, hu, hn⟩ := hall
  obtain ⟨e, hs⟩ := stocked_learn h hn (by
    intro k hk
    obtain ⟨y, hy, hk⟩ := List.mem_flatMap.mp hk
    obtain ⟨u, hu', rfl⟩ := List.mem_map.mp hk
    obtain ⟨hy1, hy2⟩ := List.of_mem_zip hy
    obtain ⟨l, _, hs⟩ := mem_of_forall₂_right hu hy2
    exact ⟨h.suggested hs u hu', (hls _ hy1).2.1⟩) h2
  exact ⟨_, ⟨_, ⟨uss, hu, rfl⟩, rfl, e⟩, hs⟩

/-- A model that was loaded. -/
theorem stocked_load {x : LoadExt} {args : LoadArgs} {o : Orders} {L : Loaded}
    (h : x.load args o = .ok L) (hcount : (sourcesOf args).length ≤ 256)
    {as : List (List (List Char × Option Nat × VocabParams))} (has : AddsAll x 0 (sourcesOf args) as)
    {kss : List (List (List Char × List Char × Rat))} (hk : List.Forall₂ (Gives x) (sourcesOf args) kss)
    (hrefs : ∀ k ∈ kss.flatten, ¬ Reserved k.1) (hshort : ∀ v ∈ L.vm.decoder, v.text.length < 65536) :
    Stocked L.vm.alphabet o (as.flatten.map Prod.fst) L.vm
      (lexisFrom (sourcesOf args) as kss, proper kss.flatten) := by
  obtain ⟨_, ops, _, _, _, _, hrun, _⟩ := loaded_history h
  have hd := describes_load h hcount has hk hrefs
  have hknown := known_load h has hk
  have ho := ordered_load h has
  have hword : ∀ t, ¬ Reserved t → (∃ i, textAt L.vm i = some t) → t ∈ as.flatten.map Prod.fst := by
    intro t hr hi
    rcases List.mem_append.mp ((ordered_mem ho t).mp hi) with hm | hm
    · refine absurd ?_ hr
      simp only [List.mem_cons, List.not_mem_nil, or_false] at hm
      exact hm
    · exact hm
  refine ⟨⟨ops, hrun⟩, hshort, hknown, hd.indexed, hd.transparent, loaded_freq h hcount has kss, ?_,
    fun _ => Iff.rfl, fun _ => rfl, ?_, ?_, ⟨[], by rw [List.append_nil]; exact ho⟩⟩
  · intro t ht
    show List.foldr max 0 _ = 0
    have : as.flatten.filter (fun a => a.1 = t) = [] := by
      rw [List.filter_eq_nil_iff]
      intro a ha e
      have e : a.1 = t := by simpa using e
      obtain ⟨i, hi⟩ := (ordered_mem ho t).mpr (List.mem_append_right _ (e ▸ List.mem_map_of_mem ha))
      exact ht i hi
    rw [this]
    rfl
  · intro k hk'
    have hr := hrefs k (List.mem_filter.mp hk').1
    exact ⟨hword _ hr (hknown.entries k hk').1, hr⟩
  · intro t ht
    obtain ⟨v, hv, rfl, hi⟩ := (hd.indexed t).mp ht
    obtain ⟨i, hv⟩ := List.getElem?_of_mem hv
    exact hword _ (indexed_not_reserved hknown.inv v (List.mem_of_getElem? hv) hi)
      ⟨i, by unfold textAt; rw [hv]; rfl⟩

/-! ## What is printed -/

theorem firsts_filter (p : List Char → Bool) (l : List (List Char)) :
    (firsts id l).filter p = firsts id (l.filter p) := by
  induction l with
  | nil => rfl
  | cons a l ih =>
    rw [List.filter_cons]
    by_cases h : p a = true
    · rw [if_pos h]
      simp only [firsts]
      rw [List.filter_cons_of_pos h, ← ih, List.filter_filter, List.filter_filter]
      congr 1
      refine List.filter_congr fun b _ => Bool.and_comm _ _
    · rw [if_neg h]
      simp only [firsts]
      rw [List.filter_cons_of_neg h, ← ih, List.filter_filter]
      refine List.filter_congr fun b _ => ?_
      by_cases e : b = a
      · subst e
        simp [Bool.not_eq_true _ ▸ h]
      · simp [e]

theorem firsts_append_sub (a b : List (List Char)) (h : ∀ t ∈ b, t ∈ a) : firsts id (a ++ b) = firsts id a := by
  induction b using List.reverseRecOn with
  | nil => rw [List.append_nil]
  | append_singleton b t ih =>
    rw [← List.append_assoc, firsts_snoc, ih fun u hu => h u (List.mem_append_left _ hu), List.map_id, id_eq,
      if_pos (List.mem_append_left _ (h t (List.mem_append_right _ List.mem_cons_self)))]

theorem flatMap_filter {β : Type} (f : List Char → List β) (l : List (List Char)) :
    l.flatMap f = (l.filter fun t => f t ≠ []).flatMap f := by
  induction l with
  | nil => rfl
  | cons a l ih =>
    by_cases h : f a = []
    · rw [List.filter_cons_of_neg (by simpa using h), List.flatMap_cons, h, List.nil_append, ih]
    · rw [List.filter_cons_of_pos (by simpa using h), List.flatMap_cons, List.flatMap_cons, ih]

theorem stocked_text {A : Alphabet} {o : Orders} {W : List (List Char)} {m : Vm}
    {s : Lexis × List (List Char × List Char × Rat)} (h : Stocked A o W m s) {showF : Rat → List Char}
    {text : List Char} {ws : List FileWrite} (ht : LearnText showF m text ws) :
    ws = [] ∧ text = (firsts id W).flatMap (learnedRow showF s.2) := by
  obtain ⟨rfl, found, hf, rfl⟩ := ht
  refine ⟨rfl, ?_⟩
  obtain ⟨ts, ho⟩ := h.order
  have hrow : (m.decoder.zip found).flatMap (fun e => if e.2 = [] then [] else
      e.1.text ++ (e.2.flatMap fun u => '\t' :: u.1.text ++ '\t' :: showF u.2) ++ ['\n']) =
      (m.decoder.map VocabValue.text).flatMap (learnedRow showF s.2) := by
    have hk : ∀ v ∈ m.decoder, List.Forall₂ (fun r l => textAt m r.1 = some l.1 ∧ r.2 = l.2) (refersTo v)
        (variantsIn s.2 v.text) := by
      intro v hv
      obtain ⟨i, hi⟩ := List.getElem?_of_mem hv
      exact h.known.refers i v hi
    unfold Refer at hf
    generalize hD : m.decoder = D at hf hk ⊢
    have hf' : List.Forall₂ (fun v us => List.Forall₂ (fun r (u : VocabValue × Rat) =>
        m.decoder[r.1]? = some u.1 ∧ u.2 = r.2) (refersTo v) us) D found := by rw [hD]; exact hf
    clear hf hD
    induction hf' with
    | nil => rfl
    | @cons v us D found h1 _ ih =>
      rw [List.zip_cons_cons, List.flatMap_cons, List.map_cons, List.flatMap_cons,
        ih fun v hv => hk v (List.mem_cons_of_mem _ hv)]
      congr 1
      have hv := hk v List.mem_cons_self
      have hus : us.map (fun u => (u.1.text, u.2)) = variantsIn s.2 v.text := by
        refine forall₂_unique (R := fun (r : Nat × Rat) (l : List Char × Rat) =>
          textAt m r.1 = some l.1 ∧ r.2 = l.2) ?_ ?_ hv
        · rintro r l l' ⟨a1, a2⟩ ⟨b1, b2⟩
          rw [a1] at b1
          exact Prod.ext (Option.some.inj b1) (a2.symm.trans b2)
        · rw [List.forall₂_map_right_iff]
          refine h1.imp fun r u hu => ⟨?_, hu.2.symm⟩
          unfold textAt
          rw [hu.1]
          rfl
      unfold learnedRow
      rw [← hus]
      by_cases e : us = []
      · subst e
        rfl
      · rw [if_neg e, if_neg (by simpa using e), List.flatMap_map]
  rw [hrow, ho.texts]
  have hnone : ∀ t, learnedRow showF s.2 t ≠ [] → t ∈ W ∧ ¬ Reserved t := by
    intro t ht
    have hv : variantsIn s.2 t ≠ [] := by
      intro e
      unfold learnedRow at ht
      rw [if_pos e] at ht
      exact ht rfl
    by_contra hc
    apply hv
    unfold variantsIn
    have : s.2.filter (fun k => k.1 = t) = [] := by
      rw [List.filter_eq_nil_iff]
      intro k hk e
      have e : k.1 = t := by simpa using e
      exact hc (e ▸ h.refs k hk)
    rw [this]
    rfl
  rw [flatMap_filter, firsts_filter, List.filter_append, List.filter_append]
  have h0 : [bosText, eosText, unkText].filter (fun t => learnedRow showF s.2 t ≠ []) = [] := by
    rw [List.filter_eq_nil_iff]
    intro t ht e
    refine (hnone t (by simpa using e)).2 ?_
    simp only [List.mem_cons, List.not_mem_nil, or_false] at ht
    exact ht
  rw [h0, List.nil_append, firsts_append_sub, ← firsts_filter, ← flatMap_filter]
  intro t ht
  obtain ⟨_, ht⟩ := List.mem_filter.mp ht
  exact List.mem_filter.mpr ⟨(hnone t (by simpa using ht)).1, ht⟩

/-! ## All rounds and inputs -/

theorem rounds_sim {σ τ : Type} {R : σ → τ → Prop} {step : σ → σ → Nat → Prop} {step' : τ → τ → Nat → Prop}
    (hstep : ∀ a b k s, R a s → step a b k → ∃ s', step' s s' k ∧ R b s') {n : Nat} {a b : σ}
    (h : Rounds step n a b) : ∀ {s}, R a s → ∃ s', Rounds step' n s s' ∧ R b s' := by
  induction h with
  | none => intro s hs; exact ⟨s, .none, hs⟩
  | last h =>
    intro s hs
    obtain ⟨s', h1, h2⟩ := hstep _ _ _ _ hs h
    exact ⟨s', .last h1, h2⟩
  | more h hk _ ih =>
    intro s hs
    obtain ⟨s1, h1, h2⟩ := hstep _ _ _ _ hs h
    obtain ⟨s2, h3, h4⟩ := ih h2
    exact ⟨s2, .more h1 hk h3, h4⟩

theorem learnAll_sim {σ τ : Type} {R : σ → τ → Prop} {step : List (List Char) → σ → σ → Nat → Prop}
    {step' : List (List Char) → τ → τ → Nat → Prop} {report : σ → List Char → List FileWrite → Prop}
    {report' : τ → List Char → List FileWrite → Prop} {n : Nat}
    (hrep : ∀ a s t ws, R a s → report a t ws → report' s t ws) {a : σ}
    {inputs : List (List (Option (List Char)))} {texts : List (List Char)} {wss : List (List FileWrite)}
    (h : LearnAll step n report a inputs texts wss) :
    (∀ lines ∈ inputs, ∀ a b k s, R a s → step (untilError lines) a b k →
      ∃ s', step' (untilError lines) s s' k ∧ R b s') →
    ∀ {s}, R a s → LearnAll step' n report' s inputs texts wss := by
  induction h with
  | nil => intro _ s _; exact .nil
  | cons h1 h2 _ ih =>
    intro hstep s hs
    obtain ⟨s', g1, g2⟩ := rounds_sim (hstep _ List.mem_cons_self) h1 hs
    exact .cons g1 (hrep _ _ _ _ g2 h2) (ih (fun l hl => hstep l (List.mem_cons_of_mem _ hl)) g2)

theorem learnAll_writes {σ : Type} {step : List (List Char) → σ → σ → Nat → Prop}
    {report : σ → List Char → List FileWrite → Prop} {n : Nat} (hrep : ∀ s t ws, report s t ws → ws = []) {a : σ}
    {inputs : List (List (Option (List Char)))} {texts : List (List Char)} {wss : List (List FileWrite)}
    (h : LearnAll step n report a inputs texts wss) : wss = texts.map fun _ => [] := by
  induction h with
  | nil => rfl
  | cons _ h _ ih => rw [List.map_cons, hrep _ _ _ h, ih]

/-- What learning prints, given what each round does to models that know words as `R` says. -/
theorem learn_prints {x : ToolExt} (hf : ∀ s, ';' ∈ s → x.parseF32 s = none) (hpos : StrictMono x.pos)
    (hmarks : MarksOk x.load.isSpace) (hsp : x.text.isAlpha ' ' = false) (hsolve : SolverOk x.text.solve)
    {c : CommandLine} (hc : Accepted c) (hsub : c.sub = .learn)
    {strict : Bool} (hstrict : strict = true ↔ Given c .strict)
    (hj : ¬ Given c .json) (hmo : ¬ Given c .multiOutput)
    {as : List (List (List Char × Option Nat × VocabParams))} {w : Weights} {p : TextParams}
    (hfiles : UsableFiles x c as) (hnum : UsableNumbers x c w p)
    (hlenient : ¬ Given c .strict → 1 ≤ p.maxSeq ∧
      (0 < p.lmWeight → ∀ a ∈ as.flatten, ∀ ws, TokensOf a.1 ws → ws.length ≤ 255))
    {v : List Char} {n : Nat} (hv : InForce c .iterations "1".toList v) (hn : NumberText 255 v n)
    {files : List (List Char)} {inputs : List (List (Option (List Char)))} (hin : InputsOf x files inputs)
    (hlines : ∀ lines ∈ inputs, ∀ l ∈ untilError lines, LearnLine x c p.maxNgram l)
    (hcount : (n * inputs.length + 1) *
      ((as.flatten.map fun a => a.2.1.getD 1).sum + n * (inputs.map bytesOf).sum) < 2 ^ 32)
    {L : Loaded} (asked : Asked x c L w p) {A : Alphabet}
    {R : Vm → Lexis × List (List Char × List Char × Rat) → Prop}
    (hR : ∀ m s, R m s → Stocked A x.orders (as.flatten.map Prod.fst) m s)
    {step : List (List Char) → Lexis × List (List Char × List Char × Rat) →
      Lexis × List (List Char × List Char × Rat) → Nat → Prop}
    (hstep : ∀ lines ∈ inputs, ∀ m m' k s, R m s →
      m.learnFrom x.text (x.config c L w) p (untilError lines) strict true x.orders = .ok (m', k) →
      ∃ s', step (untilError lines) s s' k ∧ R m' s')
    {s : Lexis × List (List Char × List Char × Rat)} (hs : R L.vm s) :
    ∃ texts, x.main c files = .ok (.output texts.flatten (texts.map fun _ => [])) ∧
      LearnAll step n (LearnedText x.showF as) s inputs texts (texts.map fun _ => []) := by
  obtain ⟨t, ws, hmain⟩ := learn_succeeds hf hpos hmarks hsp hsolve hc hsub hfiles hnum hlenient hv hn hin hlines
    hcount
  have hout := hmain
  have hstr : c.isPresent .strict = strict := by
    rw [Bool.eq_iff_iff, isPresent_flag (by rw [hsub]; rfl), hstrict]
  have hmul : c.isPresent .multiOutput = false := by
    rw [← Bool.not_eq_true]
    exact fun h => hmo ((isPresent_flag (by rw [hsub]; rfl)).mp h)
  have hp : c.isPresent .json = false := by
    rw [← Bool.not_eq_true, isPresent_iff rfl]; exact hj
  have hit : c.parsed .iterations (parseUnsigned 255) = .ok n := by
    rw [parsed_default (by rw [hsub]; rfl) (hc.2 _ (by decide))]
    exact ⟨v, hv, (parseUnsigned_iff _ _ _).mpr hn⟩
  rw [asked_main hf hpos hc (by rw [hsub]; decide) (by rw [hsub]; decide) asked] at hmain
  unfold ToolExt.modes at hmain
  rw [inputsOf_iff.mpr hin, hsub] at hmain
  change x.learn c L (x.config c L w) p inputs = _ at hmain
  unfold ToolExt.learn at hmain
  rw [hit, hp, hmul, hstr] at hmain
  obtain ⟨n', hn', hmain⟩ := bind_ok.mp hmain
  cases hn'
  obtain ⟨⟨t, ws'⟩, h5, h6⟩ := bind_ok.mp hmain
  have h6 := pure_ok.mp h6
  simp only [bracketed, Bool.false_eq_true, if_false, List.nil_append, List.append_nil] at h6
  cases h6
  obtain ⟨texts, h7, rfl⟩ := learnInputs_iff.mp h5
  simp only [Bool.false_eq_true, if_false] at h7
  have hsim := learnAll_sim (R := R) (step' := step)
    (report' := LearnedText x.showF as) (fun m s t ws hs ht => stocked_text (hR m s hs) ht) h7
    (fun lines hl m m' k s hs h => hstep lines hl m m' k s hs h) hs
  have hws := learnAll_writes (fun _ _ _ h => h.1) hsim
  rw [hws] at hsim hout
  exact ⟨texts, hout, hsim⟩

theorem UsableNumbers.fits {x : ToolExt} {c : CommandLine} {w : Weights} {p : TextParams}
    (h : UsableNumbers x c w p) : Fits p.variant.maxAnagramDistance ∧ Fits p.variant.maxEditDistance := by
  obtain ⟨q, hq, _, hqn⟩ := h.params
  constructor
  · obtain ⟨v, _, hv⟩ := hq.anagram
    rw [hqn.anagram] at hv
    exact fits_of_text hv
  · obtain ⟨v, _, hv⟩ := hq.edit
    rw [hqn.edit] at hv
    exact fits_of_text hv

/-- **C105**: what `learn --strict` prints. -/
theorem learn_strict_prints {x : ToolExt} (hf : ∀ s, ';' ∈ s → x.parseF32 s = none) (hpos : StrictMono x.pos)
    (hmarks : MarksOk x.load.isSpace) (hsp : x.text.isAlpha ' ' = false) (hsolve : SolverOk x.text.solve)
    (hb : x.load.isSpace '\\' = false)
    {c : CommandLine} (hc : Accepted c) (hsub : c.sub = .learn) (hstrict : Given c .strict)
    (hj : ¬ Given c .json) (hmo : ¬ Given c .multiOutput)
    {as : List (List (List Char × Option Nat × VocabParams))} {w : Weights} {p : TextParams}
    (hfiles : UsableFiles x c as) (hnum : UsableNumbers x c w p)
    (hfw : 0 ≤ p.variant.freqWeight)
    {afile : List Char} {alines : List (Option (List Char))} {alphabet : Alphabet}
    (ha : (.alphabet, afile) ∈ c.given) (hal : x.load.file afile = some alines)
    (hae : List.Forall₂ (AlphabetLine x.load.isSpace) (nonEmpty alines) alphabet)
    {kss : List (List (List Char × List Char × Rat))}
    (hk : List.Forall₂ (Gives x.load) (sourcesGiven c) kss) (hrefs : ∀ k ∈ kss.flatten, ¬ Reserved k.1)
    {cs : List Confusable} (hcs : ConfusablesGiven x c cs)
    {early : Bool} (hearly : early = true ↔ Given c .earlyConfusables)
    {v : List Char} {n : Nat} (hv : InForce c .iterations "1".toList v) (hn : NumberText 255 v n)
    {files : List (List Char)} {inputs : List (List (Option (List Char)))} (hin : InputsOf x files inputs)
    (hlines : ∀ lines ∈ inputs, ∀ l ∈ untilError lines, LearnLine x c p.maxNgram l ∧
      ShortEnough x.text alphabet p.variant l)
    (hcount : (n * inputs.length + 1) *
      ((as.flatten.map fun a => a.2.1.getD 1).sum + n * (inputs.map bytesOf).sum) < 2 ^ 32) :
    ∃ texts, x.main c files = .ok (.output texts.flatten (texts.map fun _ => [])) ∧
      LearnAll (Learns (FoundWhole x.text alphabet ⟨w, cs, early, x.editScript⟩ p.variant)) n
        (LearnedText x.showF as) (lexisFrom (sourcesGiven c) as kss, proper kss.flatten) inputs texts
        (texts.map fun _ => []) := by
  obtain ⟨args, L, asked, hL, _, hsrc, hsz, hadds, hcfg, halpha, _, _⟩ :=
    resources_listed hmarks hb hc hfiles hnum hfw ha hal hae hk hrefs hcs hearly
  obtain ⟨args', L', _, hload', hL', hLF', ha6, _, _, _, hshort⟩ := usable_loads hmarks hfiles
  have hLL := loadedFor_unique hpos hc hLF' asked.1
  subst hLL
  obtain ⟨_, _, _, _, _, hne, _⟩ := loaded_history hL
  obtain ⟨hfa, hfe⟩ := UsableNumbers.fits hnum
  have hst := stocked_load hL (by omega) hadds (hsrc ▸ hk) hrefs hshort
  rw [hsrc, halpha] at hst
  rw [halpha] at ha6 hne
  have hcw : (x.config c L' w).weights.sum x.text.f64 ≠ 0 := hnum.nonzero
  refine learn_prints hf hpos hmarks hsp hsolve hc hsub (strict := true) (by simpa using hstrict) hj hmo hfiles
    hnum (fun h => absurd hstrict h) hv hn hin (fun ls hls l hl => (hlines ls hls l hl).1) hcount asked
    (fun _ _ h => h) ?_ hst
  intro lines hl m m' k s hs hstep
  rw [← hcfg]
  refine stocked_whole hne ha6 hs hcw hfw hfa hfe ?_ hstep
  intro l hll
  obtain ⟨g1, g2⟩ := hlines lines hl l hll
  have := g1.strict hstrict
  exact ⟨this.1, by omega, g2⟩

/-- `learn --strict --iterations 2 --alphabet a --errors e --lexicon l --variants v --confusables c
--early-confusables --score-threshold 0.0 --cutoff-threshold 0.0` -/
def exLearnE : CommandLine :=
  { exQueryE with
    sub := .learn
    given := (.strict, []) :: (.iterations, ['2']) :: exQueryE.given.filter fun g => g.1 ≠ .outputLexmatch }

example : ∃ texts, exToolR.main exLearnE [['q'], ['-']] = .ok (.output texts.flatten (texts.map fun _ => [])) ∧
    LearnAll (Learns (FoundWhole exText [["a".toList, "A".toList], ["b".toList]]
        ⟨⟨1 / 2, 1 / 8, 1 / 8, 1 / 8, 1 / 8⟩, exLoaded.confusables, true, exToolR.editScript⟩
        (exNumbers exLearnE).variant)) 2
      (LearnedText exToolR.showF (exAdded.take 3))
      (lexisFrom [.errors ['e'], .lexicon ['l'], .variants ['v']] (exAdded.take 3) exLinksE,
        proper exLinksE.flatten)
      [[some "ab".toList], exToolR.stdin] texts (texts.map fun _ => []) := by
  refine learn_strict_prints (x := exToolR) (c := exLearnE) (v := ['2']) (n := 2) ex_noSemicolon ex_pos
    ex_marks rfl refSolver_ok rfl
    (accepted_of (by decide) (by decide)) rfl ⟨[], by decide⟩ (not_given (by decide)) (not_given (by decide))
    ⟨⟨{ exArgs with lm := [] }, by constructor <;> decide, exLoadableQuery⟩, by decide⟩
    (exUsableNumbers (accepted_of (by decide) (by decide)) rfl (by decide +kernel) rfl
      (exSome exTextParams (by decide +kernel)) (.inl (by decide +kernel))) (by decide +kernel)
    (afile := ['a']) (by decide) rfl exAlphabetE
    (kss := exLinksE) exGivesE (by unfold Reserved; decide) (exConfusablesE (by decide))
    (early := true) (by simp only [true_iff]; exact ⟨[], by decide⟩)
    (.inl (by decide)) ((parseUnsigned_iff _ _ _).mp (by decide))
    (inputs := [[some "ab".toList], exToolR.stdin]) (inputsOf_iff.mp (by decide)) ?_ (by decide)
  intro lines hl l h
  have hs : l ≠ [] ∧ l.length ≤ 30 ∧ l.countP (· == ' ') < 255 := by
    have hall : ∀ ls ∈ [[some "ab".toList], exToolR.stdin], ∀ l ∈ untilError ls,
        l ≠ [] ∧ l.length ≤ 30 ∧ l.countP (· == ' ') < 255 := by decide
    exact hall lines hl l h
  exact ⟨⟨hs.2.2, fun _ => ⟨hs.1, by omega⟩, fun h => absurd ⟨[], by decide⟩ h⟩, exShort30 rfl hs.2.1⟩

/-- What is printed after the file, and again after standard input. -/
example : exToolR.main exLearnE [['q'], ['-']] = .ok (.output
    ("b\tbb\t0.5\tab\t0.5\nab\tba\t0.5\nba\tab\t0.5\n".toList ++
      "b\tbb\t0.5\tab\t0.5\tab b\t0.5\nab\tba\t0.5\tab b\t0.5\nba\tab\t0.5\tab b\t0.5\n".toList) [[], []]) := by
  decide +kernel

end Verif.Props
