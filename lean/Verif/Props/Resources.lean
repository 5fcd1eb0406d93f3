import Verif.Spec.Objects
import Verif.Spec.Learned
import Verif.Props.Suggest

/-!
# Queries over all kinds of resources (C100)
-/
namespace Verif.Props

open Verif.Model Verif.Spec Verif.Lemmas

theorem check_transparent' (t : VocabType) : t.check .TRANSPARENT = t.transparent := by
  obtain ⟨a, b, c⟩ := t
  cases a <;> cases b <;> cases c <;> rfl

/-! ## The links of what is loaded -/

/-- The links to references. -/
abbrev isVariantOf : VariantReference → Bool
  | .variantOf _ _ => true
  | .referenceFor _ _ => false

/-- The model has exactly these links. -/
structure Known (m : Vm) (fr : Bool) (ks : List (List Char × List Char × Rat)) : Prop where
  inv : Inv m
  noSelf : NoSelf m
  counted : m.haveFreq = fr
  entries : ∀ k ∈ ks, (∃ i, textAt m i = some k.1) ∧ ∃ i, textAt m i = some k.2.1
  linked : ∀ (i : Nat) v, m.decoder[i]? = some v →
    (v.variants.isSome = true ↔ ∃ k ∈ ks, k.1 = v.text ∨ k.2.1 = v.text)
  links : ∀ (i : Nat) v, m.decoder[i]? = some v →
    List.Forall₂ (fun r l => ∃ id, r = .variantOf id l.2 ∧ textAt m id = some l.1)
      ((v.variants.getD []).filter isVariantOf)
      ((ks.filter fun k => k.2.1 = v.text).map fun k => (k.1, k.2.2))
  refers : ∀ (i : Nat) v, m.decoder[i]? = some v →
    List.Forall₂ (fun r l => textAt m r.1 = some l.1 ∧ r.2 = l.2) (refersTo v) (variantsIn ks v.text)

theorem known_new (alphabet : Alphabet) : Known (Vm.new alphabet) false [] := by
  have hnone : ∀ v ∈ (Vm.new alphabet).decoder, v.variants = none := by
    intro v hv
    simp only [Vm.new, List.mem_cons, List.not_mem_nil, or_false] at hv
    rcases hv with rfl | rfl | rfl <;> rfl
  refine ⟨inv_new _, noSelf_new _, rfl, by simp, ?_, ?_, ?_⟩
  · intro i v hv
    rw [hnone v (List.mem_of_getElem? hv)]
    simp
  · intro i v hv
    rw [hnone v (List.mem_of_getElem? hv)]
    exact .nil
  · intro i v hv
    unfold refersTo
    rw [hnone v (List.mem_of_getElem? hv)]
    exact .nil

/-- Entries with the same text and links. -/
theorem known_same {m m' : Vm} {fr : Bool} {ks : List (List Char × List Char × Rat)} (h : Known m fr ks)
    (hinv : Inv m') (hself : NoSelf m') (hf : m'.haveFreq = fr) (hext : Extends m m')
    (hd : ∀ (i : Nat) v', m'.decoder[i]? = some v' →
      (∃ v, m.decoder[i]? = some v ∧ v'.text = v.text ∧ v'.variants = v.variants) ∨
      (m.encoder.get? v'.text = none ∧ v'.variants = none)) : Known m' fr ks := by
  have hnew : ∀ t, m.encoder.get? t = none → ∀ k ∈ ks, k.1 ≠ t ∧ k.2.1 ≠ t := by
    rintro t ht k hk
    obtain ⟨⟨i, hi⟩, ⟨j, hj⟩⟩ := h.entries k hk
    constructor <;> rintro rfl
    · rw [(h.inv.bij _ _).mpr hi] at ht; cases ht
    · rw [(h.inv.bij _ _).mpr hj] at ht; cases ht
  refine ⟨hinv, hself, hf, ?_, ?_, ?_, ?_⟩
  · intro k hk
    obtain ⟨⟨i, hi⟩, ⟨j, hj⟩⟩ := h.entries k hk
    exact ⟨⟨i, hext.2 _ _ hi⟩, ⟨j, hext.2 _ _ hj⟩⟩
  · intro i v' hv'
    rcases hd i v' hv' with ⟨v, hv, e1, e2⟩ | ⟨e1, e2⟩
    · rw [e1, e2]
      exact h.linked i v hv
    · rw [e2]
      constructor
      · intro h; cases h
      · rintro ⟨k, hk, e⟩
        obtain ⟨n1, n2⟩ := hnew _ e1 k hk
        exact (e.elim n1 n2).elim
  · intro i v' hv'
    rcases hd i v' hv' with ⟨v, hv, e1, e2⟩ | ⟨e1, e2⟩
    · rw [e1, e2]
      exact (h.links i v hv).imp fun r l => fun ⟨id, hr, ht⟩ => ⟨id, hr, hext.2 _ _ ht⟩
    · have : (ks.filter fun k => k.2.1 = v'.text) = [] :=
        List.filter_eq_nil_iff.mpr fun k hk => by simpa using (hnew _ e1 k hk).2
      rw [e2, this]
      exact .nil
  · intro i v' hv'
    rcases hd i v' hv' with ⟨v, hv, e1, e2⟩ | ⟨e1, e2⟩
    · have := h.refers i v hv
      unfold refersTo at this ⊢
      rw [e1, e2]
      exact this.imp fun r l => fun ⟨ht, hr⟩ => ⟨hext.2 _ _ ht, hr⟩
    · have : (ks.filter fun k => k.1 = v'.text) = [] :=
        List.filter_eq_nil_iff.mpr fun k hk => by simpa using (hnew _ e1 k hk).1
      unfold refersTo variantsIn
      rw [e2, this]
      exact .nil

theorem known_add {m m' : Vm} {fr : Bool} {ks : List (List Char × List Char × Rat)} (h : Known m fr ks)
    {t : List Char} {f : Option Nat} {p : VocabParams} {id : Nat}
    (ha : m.addToVocabulary t f p = .ok (m', id)) : Known m' fr ks := by
  obtain ⟨a1, a2, a3⟩ := inv_add h.inv ha
  have hs := (linkExt_add ha).noSelf h.noSelf
  refine known_same h a1 hs ?_ a2 ?_
  · rcases add_cases ha with ⟨item, freq, _, hd, _, _, rfl⟩ | ⟨norm, _, _, _, _, _, rfl⟩ <;> exact h.counted
  · intro i v' hv'
    rcases add_cases ha with ⟨item, freq, _, hd, _, _, rfl⟩ | ⟨norm, hn, _, _, _, _, rfl⟩
    · left
      by_cases e : id = i
      · subst e
        simp only at hv'
        rw [getElem?_set_self' hd] at hv'
        cases hv'
        exact ⟨item, hd, rfl, rfl⟩
      · simp only at hv'
        rw [List.getElem?_set_ne e] at hv'
        exact ⟨v', hv', rfl, rfl⟩
    · simp only at hv'
      rcases Nat.lt_or_ge i m.decoder.length with hi | hi
      · rw [List.getElem?_append_left hi] at hv'
        exact .inl ⟨v', hv', rfl, rfl⟩
      · rw [List.getElem?_append_right hi] at hv'
        have := List.mem_of_getElem? hv'
        simp only [List.mem_singleton] at this
        subst this
        exact .inr ⟨hn, rfl⟩

theorem linkReference_some (v : Nat) (s : Rat) (w : VocabValue) :
    (linkReference v s w).variants.isSome = true ∧ (linkReference v s w).text = w.text ∧
    ((linkReference v s w).variants.getD []).filter isVariantOf =
      (w.variants.getD []).filter isVariantOf := by
  unfold linkReference
  split
  · next h => rw [h]; exact ⟨rfl, rfl, rfl⟩
  · next refs h =>
    split
    · rw [h]; exact ⟨rfl, rfl, rfl⟩
    · rw [h]
      refine ⟨rfl, rfl, ?_⟩
      simp [isVariantOf]

theorem linkVariant_some (r v : Nat) (s : Rat) (w : VocabValue) :
    (linkVariant r v s w).variants.isSome = true ∧ (linkVariant r v s w).text = w.text := by
  unfold linkVariant
  split
  · exact ⟨rfl, rfl⟩
  · next refs h =>
    split
    · rw [h]; exact ⟨rfl, rfl⟩
    · exact ⟨rfl, rfl⟩

theorem refersTo_linkVariant (r v : Nat) (s : Rat) (w : VocabValue) :
    refersTo (linkVariant r v s w) = refersTo w := by
  unfold refersTo linkVariant
  split
  · next h => rw [h]; rfl
  · next refs h =>
    split
    · rw [h]
    · rw [h]
      simp

theorem refersTo_linkReference (v : Nat) (s : Rat) (w : VocabValue) :
    refersTo (linkReference v s w) =
      if v ∈ (refersTo w).map Prod.fst then refersTo w else refersTo w ++ [(v, s)] := by
  have any : ∀ refs : List VariantReference, (refs.any fun x => match x with
      | .referenceFor y _ => v == y
      | _ => false) = true ↔ v ∈ (refs.filterMap fun r => match r with
        | .referenceFor id score => some (id, score)
        | .variantOf _ _ => none).map Prod.fst := by
    intro refs
    induction refs with
    | nil => simp
    | cons r refs ih =>
      cases r with
      | variantOf _ _ => simpa using ih
      | referenceFor y t =>
        rw [List.any_cons, Bool.or_eq_true, ih]
        simp
  unfold refersTo linkReference
  split
  · next h => rw [h]; simp
  · next refs h =>
    split
    · next hc =>
      rw [h]
      exact (if_pos ((any refs).mp hc)).symm
    · next hc =>
      rw [h]
      refine Eq.trans ?_ (if_neg fun e => hc ((any refs).mpr e)).symm
      simp

theorem firsts_snoc {α β : Type} [DecidableEq β] (key : α → β) (l : List α) (a : α) :
    firsts key (l ++ [a]) = if key a ∈ l.map key then firsts key l else firsts key l ++ [a] := by
  induction l with
  | nil => simp [firsts]
  | cons b l ih =>
    rw [List.cons_append]
    unfold firsts
    rw [ih]
    by_cases h : key a ∈ l.map key
    · rw [if_pos h, List.map_cons, if_pos (List.mem_cons_of_mem _ h)]
    · rw [if_neg h, List.filter_append, List.map_cons]
      by_cases e : key a = key b
      · rw [if_pos (by rw [e]; exact List.mem_cons_self)]
        simp [e]
      · rw [if_neg (by simp only [List.mem_cons, not_or]; exact ⟨e, h⟩)]
        simp [e]

theorem firsts_keys {α β : Type} [DecidableEq β] (key : α → β) (l : List α) (b : β) :
    b ∈ (firsts key l).map key ↔ b ∈ l.map key := by
  induction l with
  | nil => simp [firsts]
  | cons a l ih =>
    unfold firsts
    rw [List.map_cons, List.mem_cons, List.map_cons, List.mem_cons, ← ih]
    by_cases e : b = key a
    · simp [e]
    · simp only [e, false_or, List.mem_map, List.mem_filter]
      constructor
      · rintro ⟨c, ⟨hc, _⟩, rfl⟩
        exact ⟨c, hc, rfl⟩
      · rintro ⟨c, hc, rfl⟩
        exact ⟨c, ⟨hc, by simpa using e⟩, rfl⟩

theorem known_link {m : Vm} {fr : Bool} {ks : List (List Char × List Char × Rat)} (h : Known m fr ks)
    {r v : Nat} {a b : List Char} (hr : textAt m r = some a) (hv : textAt m v = some b) (s : Rat) :
    Known (m.addVariantById r v s).1 fr (ks ++ proper [(a, b, s)]) := by
  by_cases hne : v = r
  · subst hne
    rw [hr] at hv
    cases hv
    have e : proper [(a, a, s)] = [] := by simp [proper]
    rw [e, List.append_nil]
    simp only [Vm.addVariantById, ne_eq, not_true_eq_false, if_false]
    exact h
  have hab : a ≠ b := by
    rintro rfl
    have e1 := (h.inv.bij _ _).mpr hr
    rw [(h.inv.bij _ _).mpr hv] at e1
    exact hne (Option.some.inj e1)
  have e : proper [(a, b, s)] = [(a, b, s)] := by simp [proper, hab]
  rw [e]
  obtain ⟨i1, i2, i3⟩ := inv_addVariantById h.inv r v s
  have hs := (linkExt_addVariantById m r v s).noSelf h.noSelf
  obtain ⟨c1, c2, c3⟩ := addVariantById_core m r v s
  have hcases : ∀ (i : Nat) w', (m.addVariantById r v s).1.decoder[i]? = some w' → ∃ w,
      m.decoder[i]? = some w ∧ w'.text = w.text ∧
      ((i = r ∧ w.text = a ∧ w' = linkReference v s w) ∨
        (i = v ∧ w.text = b ∧ w' = linkVariant r v s w) ∨
        (w.text ≠ a ∧ w.text ≠ b ∧ w' = w)) := by
    intro i w' hw'
    simp only [Vm.addVariantById, if_pos hne, modify_getElem?] at hw'
    by_cases h1 : v = i
    · subst h1
      rw [if_pos rfl, if_neg (Ne.symm hne)] at hw'
      obtain ⟨w, hw, rfl⟩ := Option.map_eq_some_iff.mp hw'
      refine ⟨w, hw, (linkVariant_some _ _ _ _).2, .inr (.inl ⟨rfl, ?_, rfl⟩)⟩
      simpa [textAt, hw] using hv
    · rw [if_neg h1] at hw'
      by_cases h2 : r = i
      · subst h2
        rw [if_pos rfl] at hw'
        obtain ⟨w, hw, rfl⟩ := Option.map_eq_some_iff.mp hw'
        refine ⟨w, hw, (linkReference_some _ _ _).2.1, .inl ⟨rfl, ?_, rfl⟩⟩
        simpa [textAt, hw] using hr
      · rw [if_neg h2] at hw'
        have hi := (h.inv.bij w'.text i).mpr (by simp [textAt, hw'])
        refine ⟨w', hw', rfl, .inr (.inr ⟨?_, ?_, rfl⟩)⟩
        · rintro e
          rw [e, (h.inv.bij _ _).mpr hr] at hi
          exact h2 (Option.some.inj hi)
        · rintro e
          rw [e, (h.inv.bij _ _).mpr hv] at hi
          exact h1 (Option.some.inj hi)
  refine ⟨i1, hs, by rw [c1]; exact h.counted, ?_, ?_, ?_, ?_⟩
  · intro k hk
    simp only [i3]
    rcases List.mem_append.mp hk with hk | hk
    · exact h.entries k hk
    · cases List.mem_singleton.mp hk
      exact ⟨⟨r, hr⟩, ⟨v, hv⟩⟩
  · intro i w' hw'
    obtain ⟨w, hw, ht, hc⟩ := hcases i w' hw'
    rw [ht]
    rcases hc with ⟨_, rfl, rfl⟩ | ⟨_, rfl, rfl⟩ | ⟨n1, n2, rfl⟩
    · exact ⟨fun _ => ⟨_, List.mem_append_right _ List.mem_cons_self, .inl rfl⟩,
        fun _ => (linkReference_some _ _ _).1⟩
    · exact ⟨fun _ => ⟨_, List.mem_append_right _ List.mem_cons_self, .inr rfl⟩,
        fun _ => (linkVariant_some _ _ _ _).1⟩
    · rw [h.linked i w' hw]
      constructor
      · rintro ⟨k, hk, e⟩
        exact ⟨k, List.mem_append_left _ hk, e⟩
      · rintro ⟨k, hk, e⟩
        rcases List.mem_append.mp hk with hk | hk
        · exact ⟨k, hk, e⟩
        · cases List.mem_singleton.mp hk
          exact (e.elim (fun e => n1 e.symm) fun e => n2 e.symm).elim
  · intro i w' hw'
    obtain ⟨w, hw, ht, hc⟩ := hcases i w' hw'
    simp only [i3]
    have old := h.links i w hw
    rw [ht, List.filter_append, List.map_append]
    rcases hc with ⟨_, rfl, rfl⟩ | ⟨rfl, rfl, rfl⟩ | ⟨n1, n2, rfl⟩
    · rw [(linkReference_some _ _ _).2.2]
      simpa [Ne.symm hab] using old
    · have e : (linkVariant r i s w).variants.getD [] = w.variants.getD [] ++ [.variantOf r s] := by
        have := links_linkVariant r i s w
        rw [if_neg] at this
        · exact this
        · rintro ⟨s', hs'⟩
          exact h.noSelf i s' ⟨w, hw, hs'⟩
      rw [e, List.filter_append]
      refine List.rel_append old ?_
      simp only [List.filter_cons, decide_true, if_true, List.filter_nil, List.map_cons, List.map_nil]
      exact .cons ⟨r, rfl, hr⟩ .nil
    · simpa [Ne.symm n2] using old
  · intro i w' hw'
    obtain ⟨w, hw, ht, hc⟩ := hcases i w' hw'
    simp only [i3]
    have old := h.refers i w hw
    rw [ht]
    have other : w.text ≠ a → variantsIn (ks ++ [(a, b, s)]) w.text = variantsIn ks w.text := by
      intro hn
      unfold variantsIn
      rw [List.filter_append]
      simp [Ne.symm hn]
    rcases hc with ⟨_, rfl, rfl⟩ | ⟨rfl, rfl, rfl⟩ | ⟨n1, n2, rfl⟩
    · have e1 : variantsIn (ks ++ [(w.text, b, s)]) w.text =
          if b ∈ ((ks.filter fun k => k.1 = w.text).map fun k => (k.2.1, k.2.2)).map Prod.fst then
            variantsIn ks w.text else variantsIn ks w.text ++ [(b, s)] := by
        unfold variantsIn
        rw [List.filter_append, List.map_append]
        simp only [List.filter_cons, decide_true, if_true, List.filter_nil, List.map_cons, List.map_nil]
        rw [firsts_snoc]
        congr 1
      have e2 : v ∈ (refersTo w).map Prod.fst ↔
          b ∈ ((ks.filter fun k => k.1 = w.text).map fun k => (k.2.1, k.2.2)).map Prod.fst := by
        rw [← firsts_keys Prod.fst ((ks.filter fun k => k.1 = w.text).map fun k => (k.2.1, k.2.2))]
        constructor
        · intro hm
          obtain ⟨r', hr', rfl⟩ := List.mem_map.mp hm
          obtain ⟨l, hl, e, _⟩ := mem_of_forall₂_left old hr'
          rw [hv] at e
          rw [Option.some.inj e]
          exact List.mem_map_of_mem hl
        · intro hm
          obtain ⟨l, hl, rfl⟩ := List.mem_map.mp hm
          obtain ⟨r', hr', e, _⟩ := mem_of_forall₂_right old hl
          have := (h.inv.bij _ _).mpr e
          rw [(h.inv.bij _ _).mpr hv] at this
          rw [Option.some.inj this]
          exact List.mem_map_of_mem hr'
      rw [refersTo_linkReference, e1]
      by_cases hm : v ∈ (refersTo w).map Prod.fst
      · rw [if_pos hm, if_pos (e2.mp hm)]
        exact old
      · rw [if_neg hm, if_neg fun e => hm (e2.mpr e)]
        exact List.rel_append old (.cons ⟨hv, rfl⟩ .nil)
    · rw [other (Ne.symm hab), refersTo_linkVariant]
      exact old
    · rw [other n1]
      exact old

theorem known_variants {p : VocabParams} {refId : Nat} {ref : List Char} {fr : Bool}
    {vs : List (List Char × Rat × Option Nat)} : ∀ {m m' : Vm} {ks : List (List Char × List Char × Rat)},
    Known m fr ks → textAt m refId = some ref → addVariants p refId m vs = .ok m' →
    Known m' fr (ks ++ proper (vs.map fun v => (ref, v.1, v.2.1))) ∧ Extends m m' := by
  induction vs with
  | nil =>
    intro m m' ks h _ ha
    cases ha
    rw [List.map_nil, show proper [] = [] from rfl, List.append_nil]
    exact ⟨h, .refl _⟩
  | cons v vs ih =>
    intro m m' ks h hr ha
    obtain ⟨⟨m1, b⟩, h1, h2⟩ := bind_ok.mp ha
    obtain ⟨⟨m2, id⟩, h3, h4⟩ := bind_ok.mp h1
    have h5 := congrArg Prod.fst (pure_ok.mp h4)
    simp only at h5
    obtain ⟨a1, a2, a3⟩ := inv_add h.inv h3
    have k1 := known_link (known_add h h3) (a2.2 _ _ hr) ((a1.bij _ _).mp a3) v.2.1
    have hx := (inv_addVariantById a1 refId id v.2.1).2.1
    rw [h5] at k1 hx
    obtain ⟨k2, k3⟩ := ih k1 (hx.2 _ _ (a2.2 _ _ hr)) h2
    refine ⟨?_, (a2.trans hx).trans k3⟩
    rw [List.append_assoc] at k2
    unfold proper at k2 ⊢
    rw [← List.filter_append] at k2
    exact k2

theorem known_entries {p q : VocabParams} {fr : Bool} {es : List VariantEntry} :
    ∀ {m m' : Vm} {ks : List (List Char × List Char × Rat)}, Known m fr ks → addEntries p q m es = .ok m' →
    Known m' fr (ks ++ proper (es.flatMap fun e => e.variants.map fun v => (e.reference, v.1, v.2.1))) := by
  induction es with
  | nil =>
    intro m m' ks h ha
    cases ha
    rw [List.flatMap_nil, show proper [] = [] from rfl, List.append_nil]
    exact h
  | cons e es ih =>
    intro m m' ks h ha
    obtain ⟨⟨m2, ref⟩, h3, h4⟩ := bind_ok.mp ha
    obtain ⟨m3, h5, h6⟩ := bind_ok.mp h4
    obtain ⟨a1, a2, a3⟩ := inv_add h.inv h3
    have k1 := (known_variants (known_add h h3) ((a1.bij _ _).mp a3) h5).1
    have k2 := ih k1 h6
    rw [List.append_assoc] at k2
    unfold proper at k2 ⊢
    rw [← List.filter_append] at k2
    rw [List.flatMap_cons]
    exact k2

theorem known_adds {fr : Bool} {ks : List (List Char × List Char × Rat)}
    {es : List (List Char × Nat)} {p : VocabParams} : ∀ {m m' : Vm}, Known m fr ks →
    m.run (es.map fun e => .add e.1 (some e.2) p) = .ok m' → Known m' fr ks := by
  induction es with
  | nil => intro m m' h hr; cases hr; exact h
  | cons e es ih =>
    intro m m' h hr
    obtain ⟨m1, h1, h2⟩ := bind_ok.mp hr
    obtain ⟨⟨m2, id⟩, h3, h4⟩ := bind_ok.mp h1
    cases pure_ok.mp h4
    exact ih (known_add h h3) h2

theorem known_with {m : Vm} {fr fr' : Bool} {ks : List (List Char × List Char × Rat)} (h : Known m fr ks)
    {m' : Vm} (e : m' = { m with lexicons := m'.lexicons, haveFreq := fr' }) : Known m' fr' ks := by
  rw [e]
  generalize m'.lexicons = lx
  have hi := h.inv
  exact ⟨⟨hi.bij, hi.bos, hi.eos, hi.unk, hi.notIndexed, hi.tokens, hi.freqSum⟩, h.noSelf, rfl, h.entries, h.linked, h.links, h.refers⟩

theorem vocabLines_same {p : VocabParams} {ls : List (List Char)} {es es' : List (List Char × Nat)}
    (h : List.Forall₂ (VocabLine p) ls es) (h' : List.Forall₂ (VocabLine p) ls es') : es = es' := by
  induction h generalizing es' with
  | nil => cases h'; rfl
  | cons a1 _ ih =>
    cases h' with
    | cons a2 a3 => rw [vocabLine_unique a1 a2, ih a3]

/-- Whether a source makes frequencies count. -/
def countsFor (y : Source × List (List Char × Option Nat × VocabParams)) : Bool :=
  match y.1 with | .lexicon _ => !y.2.isEmpty | _ => false

theorem known_resource {x : LoadExt} {r : Resource} {m m' : Vm} {fr : Bool}
    {ks k : List (List Char × List Char × Rat)} (h : Known m fr ks) (hr : m.readResource x r = .ok m')
    {i : Nat} {a : List (List Char × Option Nat × VocabParams)} (ha : Adds x i (sourceOf r) a)
    (hk : Gives x (sourceOf r) k) :
    Known m' (fr || countsFor (sourceOf r, a)) (ks ++ proper k) := by
  cases r with
  | lexicon f =>
    obtain ⟨ls, h1, h2⟩ := bind_ok.mp hr
    obtain ⟨es, m1, g1, g2, g3⟩ := (read_vocabulary _ _ _ _ _).mp h2
    cases hk
    rw [show proper [] = [] from rfl, List.append_nil]
    cases ha with
    | @lexicon _ lines es' f1 f2 =>
    rw [open_ok.mp h1] at f1
    cases f1
    cases vocabLines_same g1 f2
    refine known_with (known_adds h g2) (m' := m') ?_
    rw [g3, h.counted]
    have : countsFor (sourceOf (.lexicon f), es.map fun e => (e.1, some e.2, ({ index := i } : VocabParams))) =
        !es.isEmpty := by
      cases es <;> rfl
    rw [this]
    rfl
  | variantList f =>
    obtain ⟨ls, h1, h2⟩ := bind_ok.mp hr
    obtain ⟨es, m1, g1, g2, g3⟩ := (read_variants _ _ _ _ _ _ _).mp h2
    cases hk with
    | variants f1 f2 =>
    rw [open_ok.mp h1] at f1
    cases f1
    cases variantLines_unique g1 f2
    rw [show countsFor (sourceOf (.variantList f), a) = false from rfl, Bool.or_false]
    have k1 := known_entries h g2
    refine known_with k1 (m' := m') ?_
    rw [g3, ← k1.counted]
  | errorList f =>
    obtain ⟨ls, h1, h2⟩ := bind_ok.mp hr
    obtain ⟨es, m1, g1, g2, g3⟩ := (read_variants _ _ _ _ _ _ _).mp h2
    cases hk with
    | errors f1 f2 =>
    rw [open_ok.mp h1] at f1
    cases f1
    cases variantLines_unique g1 f2
    rw [show countsFor (sourceOf (.errorList f), a) = false from rfl, Bool.or_false]
    have k1 := known_entries h g2
    refine known_with k1 (m' := m') ?_
    rw [g3, ← k1.counted]

theorem proper_append (a b : List (List Char × List Char × Rat)) : proper (a ++ b) = proper a ++ proper b :=
  List.filter_append ..

theorem known_resources {x : LoadExt} {rs : List Resource} : ∀ {m m' : Vm} {fr : Bool}
    {ks : List (List Char × List Char × Rat)}, Known m fr ks → m.readResources x rs = .ok m' →
    ∀ {i : Nat} {as : List (List (List Char × Option Nat × VocabParams))}
      {kss : List (List (List Char × List Char × Rat))}, AddsAll x i (rs.map sourceOf) as →
      List.Forall₂ (Gives x) (rs.map sourceOf) kss →
    Known m' (fr || ((rs.map sourceOf).zip as).any countsFor) (ks ++ proper kss.flatten) := by
  induction rs with
  | nil =>
    intro m m' fr ks h hr i as kss ha hk
    cases hr
    cases hk
    rw [List.flatten_nil, show proper [] = [] from rfl, List.append_nil]
    simpa using h
  | cons r rs ih =>
    intro m m' fr ks h hr i as kss ha hk
    obtain ⟨m1, h1, h2⟩ := bind_ok.mp hr
    cases ha with
    | cons a1 a2 =>
    cases hk with
    | cons k1 k2 =>
    have := ih (known_resource h h1 a1 k1) h2 a2 k2
    rw [List.flatten_cons, proper_append, ← List.append_assoc]
    rw [Bool.or_assoc] at this
    exact this

theorem known_lms {x : LoadExt} {fs : List (List Char)} : ∀ {m m' : Vm} {fr : Bool}
    {ks : List (List Char × List Char × Rat)}, Known m fr ks → m.readLms x fs = .ok m' →
    Known m' fr ks := by
  induction fs with
  | nil => intro m m' fr ks h hr; cases hr; exact h
  | cons f fs ih =>
    intro m m' fr ks h hr
    obtain ⟨ls, h1, h2⟩ := bind_ok.mp hr
    obtain ⟨m1, h3, h4⟩ := bind_ok.mp h2
    obtain ⟨es, m2, g1, g2, g3⟩ := (read_vocabulary _ _ _ _ _).mp h3
    have k1 := known_adds h g2
    refine ih (known_with k1 (m' := m1) ?_) h4
    rw [g3, h.counted, show (VocabType.LM).check .INDEXED = false from rfl, Bool.and_false, Bool.false_and,
      Bool.or_false]

theorem gives_lms {x : LoadExt} {fs : List (List Char)} {kss : List (List (List Char × List Char × Rat))}
    (h : List.Forall₂ (Gives x) (fs.map .lm) kss) : kss.flatten = [] := by
  induction fs generalizing kss with
  | nil => cases h; rfl
  | cons f fs ih =>
    cases h with
    | cons h1 h2 =>
      cases h1
      rw [List.flatten_cons, List.nil_append]
      exact ih h2

theorem addsAll_split {x : LoadExt} {ss ss' : List Source} : ∀ {i : Nat}
    {as : List (List (List Char × Option Nat × VocabParams))}, AddsAll x i (ss ++ ss') as →
    ∃ a b, as = a ++ b ∧ AddsAll x i ss a ∧ AddsAll x (i + ss.length) ss' b := by
  induction ss with
  | nil => intro i as h; exact ⟨[], as, rfl, .nil, h⟩
  | cons s ss ih =>
    intro i as h
    cases h with
    | @cons _ _ _ a1 as1 h1 h2 =>
    obtain ⟨a, b, rfl, h3, h4⟩ := ih h2
    refine ⟨a1 :: a, b, rfl, .cons h1 h3, ?_⟩
    rw [List.length_cons, show i + (ss.length + 1) = i + 1 + ss.length by omega]
    exact h4

theorem forall₂_split {α β : Type} {R : α → β → Prop} {l l' : List α} : ∀ {k : List β},
    List.Forall₂ R (l ++ l') k → ∃ a b, k = a ++ b ∧ List.Forall₂ R l a ∧ List.Forall₂ R l' b := by
  induction l with
  | nil => intro k h; exact ⟨[], k, rfl, .nil, h⟩
  | cons x l ih =>
    intro k h
    cases h with
    | cons h1 h2 =>
      obtain ⟨a, b, rfl, h3, h4⟩ := ih h2
      exact ⟨_ :: a, b, rfl, .cons h1 h3, h4⟩

/-- The links of what was loaded, and whether frequencies count. -/
theorem known_load {x : LoadExt} {args : LoadArgs} {o : Orders} {L : Loaded} (h : x.load args o = .ok L)
    {as : List (List (List Char × Option Nat × VocabParams))} (has : AddsAll x 0 (sourcesOf args) as)
    {kss : List (List (List Char × List Char × Rat))} (hk : List.Forall₂ (Gives x) (sourcesOf args) kss) :
    Known L.vm (((sourcesOf args).zip as).any countsFor) (proper kss.flatten) := by
  unfold LoadExt.load at h
  obtain ⟨m0, h0, h⟩ := bind_ok.mp h
  obtain ⟨m1, h1, h⟩ := bind_ok.mp h
  obtain ⟨m2, h2, h⟩ := bind_ok.mp h
  obtain ⟨cs, h3, h⟩ := bind_ok.mp h
  obtain ⟨book, h4, h⟩ := bind_ok.mp h
  obtain ⟨m3, h5, h⟩ := bind_ok.mp h
  cases pure_ok.mp h
  obtain ⟨lines, g0, g1⟩ := bind_ok.mp h0
  cases pure_ok.mp g1
  obtain ⟨as1, as2, rfl, a1, a2⟩ := addsAll_split has
  obtain ⟨ks1, ks2, rfl, b1, b2⟩ := forall₂_split hk
  have k1 := known_lms (known_resources (known_new _) h1 a1 b1) h2
  have hlen := addsAll_length a1
  have hz : ((sourcesOf args).zip (as1 ++ as2)).any countsFor =
      (false || ((args.resources.map sourceOf).zip as1).any countsFor) := by
    unfold sourcesOf
    rw [List.zip_append hlen.symm, List.any_append, Bool.false_or]
    have : ((args.lm.map Source.lm).zip as2).any countsFor = false := by
      rw [List.any_eq_false]
      rintro ⟨s, a⟩ hy
      obtain ⟨f, _, rfl⟩ := List.mem_map.mp (List.of_mem_zip hy).1
      exact Bool.false_ne_true
    rw [this, Bool.or_false]
  rw [hz, List.flatten_append, gives_lms b2, List.append_nil]
  obtain ⟨i1, i2, i3, i4⟩ := inv_build k1.inv h5
  have hs := (linkExt_build h5).noSelf k1.noSelf
  refine known_same k1 i1 hs ?_ i2 ?_
  · rw [(build_cases h5).1]
    exact k1.counted
  · intro i v hv
    have hv : m3.decoder[i]? = some v := hv
    rw [i3] at hv
    exact .inl ⟨v, hv, rfl, rfl⟩

/-- The entry of a word that is not reserved, in terms of its additions. -/
theorem loaded_word {x : LoadExt} {args : LoadArgs} {o : Orders} {L : Loaded}
    (h : x.load args o = .ok L) (hcount : (sourcesOf args).length ≤ 256)
    {as : List (List (List Char × Option Nat × VocabParams))} (has : AddsAll x 0 (sourcesOf args) as)
    {v : VocabValue} (hv : v ∈ L.vm.decoder) (hr : ¬ Reserved v.text) :
    ∃ b bs, addsOf v.text as.flatten = b :: bs ∧ Combined .max (frequencies (b :: bs)) v.frequency ∧
      (v.vocabtype.check .TRANSPARENT = true ↔ ∀ a ∈ b :: bs, a.2.vocabType.check .TRANSPARENT = true) ∧
      v.vocabtype.indexed = b.2.vocabType.indexed := by
  obtain ⟨_, _, _, _, _, _, hrun, _⟩ := loaded_history h
  have hinv : Inv L.vm := (inv_run (inv_new _) hrun).1
  obtain ⟨id, hid⟩ := List.getElem?_of_mem hv
  have he : L.vm.encoder.get? v.text = some id := (hinv.bij _ _).mpr (by simp [textAt, hid])
  obtain ⟨hno, hyes⟩ := loaded_entry h hcount has v.text hr
  cases hadds : addsOf v.text as.flatten with
  | nil => rw [hno hadds] at he; cases he
  | cons b bs =>
    obtain ⟨id', v', ⟨e1, e2, _⟩, hc, _, ht, hi, _⟩ := hyes b bs hadds
    rw [he] at e1
    cases e1
    rw [hid] at e2
    cases e2
    exact ⟨b, bs, rfl, hc, ht, hi⟩

theorem addsOf_head {t : List Char} {adds : List (List Char × Option Nat × VocabParams)}
    {b : Option Nat × VocabParams} {bs : List (Option Nat × VocabParams)} (h : addsOf t adds = b :: bs) :
    adds.find? (fun a => a.1 = t) = some (t, b) := by
  unfold addsOf at h
  induction adds with
  | nil => cases h
  | cons a adds ih =>
    rw [List.find?_cons]
    rw [List.filter_cons] at h
    by_cases e : a.1 = t
    · simp only [e, decide_true, if_true, List.map_cons] at h
      cases h
      simp only [e, decide_true]
      rw [← e]
    · simp only [e, decide_false, Bool.false_eq_true, if_false] at h ⊢
      exact ih h

theorem foldr_max {l : List Nat} {n : Nat} (h1 : n ∈ l) (h2 : ∀ k ∈ l, k ≤ n) : l.foldr max 0 = n := by
  induction l with
  | nil => cases h1
  | cons a l ih =>
    rw [List.foldr_cons]
    have hle : ∀ l : List Nat, (∀ k ∈ l, k ≤ n) → l.foldr max 0 ≤ n := by
      intro l
      induction l with
      | nil => intro _; exact Nat.zero_le _
      | cons b l ih =>
        intro h
        exact max_le (h b List.mem_cons_self) (ih fun k hk => h k (List.mem_cons_of_mem _ hk))
    have h3 := hle l fun k hk => h2 k (List.mem_cons_of_mem _ hk)
    rcases List.mem_cons.mp h1 with rfl | h1
    · exact max_eq_left h3
    · rw [ih h1 fun k hk => h2 k (List.mem_cons_of_mem _ hk)]
      exact max_eq_right (h2 a List.mem_cons_self)

theorem indexed_not_reserved {m : Vm} (hinv : Inv m) : ∀ v ∈ m.decoder, v.vocabtype.check .INDEXED = true →
    ¬ Reserved v.text := by
  intro v hv hi hR
  obtain ⟨id, hid⟩ := List.getElem?_of_mem hv
  have he : m.encoder.get? v.text = some id := (hinv.bij _ _).mpr (by simp [textAt, hid])
  rw [check_indexed'] at hi
  have hlt : id < 3 := by
    rcases hR with e | e | e <;> rw [e] at he
    · have h0 := (hinv.bij _ _).mpr hinv.bos
      change m.encoder.get? bosText = some id at he
      rw [h0] at he; cases he; decide
    · have h0 := (hinv.bij _ _).mpr hinv.eos
      change m.encoder.get? eosText = some id at he
      rw [h0] at he; cases he; decide
    · have h0 := (hinv.bij _ _).mpr hinv.unk
      change m.encoder.get? unkText = some id at he
      rw [h0] at he; cases he; decide
  rw [hinv.notIndexed id hlt v hid] at hi
  cases hi

/-- The frequencies are those that the sources say. -/
theorem loaded_freq {x : LoadExt} {args : LoadArgs} {o : Orders} {L : Loaded}
    (h : x.load args o = .ok L) (hcount : (sourcesOf args).length ≤ 256)
    {as : List (List (List Char × Option Nat × VocabParams))} (has : AddsAll x 0 (sourcesOf args) as)
    (kss : List (List (List Char × List Char × Rat))) : ∀ v ∈ L.vm.decoder, ¬ Reserved v.text →
      (lexisFrom (sourcesOf args) as kss).freq v.text = v.frequency := by
  intro v hv hr
  obtain ⟨b, bs, hb, hc, _⟩ := loaded_word h hcount has hv hr
  have e : (as.flatten.filter fun a => a.1 = v.text).map (fun a => a.2.1.getD 1) = frequencies (b :: bs) := by
    rw [← hb]
    unfold frequencies addsOf
    rw [List.map_map]
    rfl
  show List.foldr max 0 _ = _
  rw [e]
  exact foldr_max hc.1 fun k hk => hc.2 k hk

/-- **C100**, for the library: what the sources say about words is what the model knows about them after
loading. -/
theorem describes_load {x : LoadExt} {args : LoadArgs} {o : Orders} {L : Loaded}
    (h : x.load args o = .ok L) (hcount : (sourcesOf args).length ≤ 256)
    {as : List (List (List Char × Option Nat × VocabParams))} (has : AddsAll x 0 (sourcesOf args) as)
    {kss : List (List (List Char × List Char × Rat))} (hk : List.Forall₂ (Gives x) (sourcesOf args) kss)
    (hrefs : ∀ k ∈ kss.flatten, ¬ Reserved k.1) :
    Describes L.vm (lexisFrom (sourcesOf args) as kss) := by
  have known := known_load h has hk
  have hinv := known.inv
  have hres := indexed_not_reserved hinv
  have hfreq := loaded_freq h hcount has kss
  refine ⟨fun t => ?_, known.counted.symm, fun v hv hi => hfreq v hv (hres v hv hi), fun v hv hi => ?_,
    fun v hv hi => ?_, fun v hv hi => ?_⟩
  · constructor
    · rintro ⟨hr, a, ha, hi⟩
      have hat : a.1 = t := by simpa using List.find?_some ha
      have hmem : a.2 ∈ addsOf t as.flatten := mem_addsOf.mpr (by rw [← hat]; exact List.mem_of_find?_eq_some ha)
      cases hb : addsOf t as.flatten with
      | nil => rw [hb] at hmem; cases hmem
      | cons b bs =>
        obtain ⟨id, v, ⟨e1, e2, e3⟩, _, _, _, e4, _⟩ := (loaded_entry h hcount has t hr).2 b bs hb
        rw [addsOf_head hb] at ha
        cases ha
        refine ⟨v, List.mem_of_getElem? e2, e3, ?_⟩
        rw [check_indexed', e4]
        exact hi
    · rintro ⟨v, hv, rfl, hi⟩
      have hr := hres v hv hi
      obtain ⟨b, bs, hb, _, _, h4⟩ := loaded_word h hcount has hv hr
      refine ⟨hr, _, addsOf_head hb, ?_⟩
      rw [← h4, ← check_indexed']
      exact hi
  · obtain ⟨b, bs, hb, _, ht, _⟩ := loaded_word h hcount has hv (hres v hv hi)
    rw [Bool.eq_iff_iff, ht, ← hb]
    show (as.flatten.all fun a => a.1 ≠ v.text || a.2.2.vocabType.transparent) = true ↔ _
    rw [List.all_eq_true]
    constructor
    · intro h a ha
      have := h _ (mem_addsOf.mp ha)
      simpa [check_transparent'] using this
    · intro h a ha
      by_cases e : a.1 = v.text
      · have := h a.2 (mem_addsOf.mpr (by rw [← e]; exact ha))
        rw [check_transparent'] at this
        simp [this]
      · simp [e]
  · obtain ⟨id, hid⟩ := List.getElem?_of_mem hv
    exact (known.linked id v hid).symm
  · obtain ⟨id, hid⟩ := List.getElem?_of_mem hv
    refine (forall₂_mem_right (known.links id v hid)).imp ?_
    rintro r l ⟨⟨i, hr, ht⟩, hl⟩
    obtain ⟨k, hk, rfl⟩ := List.mem_map.mp hl
    obtain ⟨t, ht', e⟩ := Option.map_eq_some_iff.mp ht
    refine ⟨i, t, hr, ht', e, hfreq t (List.mem_of_getElem? ht') ?_⟩
    rw [e]
    exact hrefs k (List.mem_filter.mp (List.mem_filter.mp hk).1).1

/-- What is suggested is looked up, or a word that is looked up is a variant of it. -/
theorem suggestions_words {x : TextExt} {alphabet : Alphabet} {L : Lexis} {cfg : Config} {p : Params}
    {text : List Char} {us : List Suggestion} (h : Suggestions x alphabet L cfg p text us) :
    ∀ u ∈ us, L.indexed u.word ∨ ∃ t s, L.indexed t ∧ (u.word, s) ∈ L.links t := by
  obtain ⟨factor, top, base, weighted, all, ranked, kept, final, h⟩ := h
  have h1 : ∀ u ∈ weighted, L.indexed u.word := by
    have hb : ∀ u ∈ base, L.indexed u.word := fun u hu => ((h.scored.mem u).mp hu).1.indexed
    by_cases e : cfg.confusables ≠ [] ∧ cfg.confusablesBeforePruning = true
    · rw [h.early e]
      intro u hu
      obtain ⟨v, hv, rfl⟩ := List.mem_map.mp hu
      exact hb v hv
    · rw [h.notEarly e]
      exact hb
  have h2 : ∀ u ∈ all, L.indexed u.word ∨ ∃ t s, L.indexed t ∧ (u.word, s) ∈ L.links t := by
    by_cases e : ∃ t s, Reached x alphabet L cfg.weights p text t s ∧ L.linked t
    · rw [h.linked e]
      intro u hu
      obtain ⟨v, hv, hu⟩ := List.mem_flatMap.mp hu
      rcases List.mem_append.mp hu with hu | hu
      · obtain ⟨l, hl, rfl⟩ := List.mem_map.mp hu
        exact .inr ⟨v.word, l.2, h1 v hv, hl⟩
      · split at hu
        · cases hu
        · rw [List.mem_singleton.mp hu]
          exact .inl (h1 v hv)
    · rw [h.notLinked e]
      exact fun u hu => .inl (h1 u hu)
  have h3 : ∀ u ∈ ranked, L.indexed u.word ∨ ∃ t s, L.indexed t ∧ (u.word, s) ∈ L.links t := by
    intro u hu
    obtain ⟨v, hv, rfl⟩ := List.mem_map.mp (h.perm.mem_iff.mp hu)
    exact h2 v hv
  have h4 : ∀ u ∈ kept, L.indexed u.word ∨ ∃ t s, L.indexed t ∧ (u.word, s) ∈ L.links t := by
    intro u hu
    rw [h.first] at hu
    exact h3 u ((List.destutter_sublist _ _).subset ((firstOnes_sublist _ _ _ _).subset hu))
  have h5 : ∀ u ∈ final, L.indexed u.word ∨ ∃ t s, L.indexed t ∧ (u.word, s) ∈ L.links t := by
    by_cases e : cfg.confusables ≠ [] ∧ cfg.confusablesBeforePruning = false
    · intro u hu
      obtain ⟨v, hv, rfl⟩ := List.mem_map.mp ((h.late e).1.mem_iff.mp hu)
      exact h4 v hv
    · rw [h.notLate e]
      exact h4
  intro u hu
  rw [h.result] at hu
  exact h5 u ((closeOnes_sublist _ _ _ _).subset hu)

theorem confusableLine_unique {x : LoadExt} {l : List Char} {c c' : Confusable} (h : ConfusableLine x l c)
    (h' : ConfusableLine x l c') : c = c' := by
  obtain ⟨s, r, w, h1, h2, h3⟩ := h
  obtain ⟨s', r', w', h1', h2', h3'⟩ := h'
  have e : s :: r = s' :: r' := ((fieldsOf_iff _ _).mp h1).symm.trans ((fieldsOf_iff _ _).mp h1')
  cases e
  have e : w = w' := by
    rcases h2 with ⟨e1, e2⟩ | ⟨v, vs, e1, e2⟩
    · rcases h2' with ⟨e1', e2'⟩ | ⟨v', vs', e1', e2'⟩
      · rw [e2, e2']
      · rw [e1] at e1'; cases e1'
    · rcases h2' with ⟨e1', e2'⟩ | ⟨v', vs', e1', e2'⟩
      · rw [e1] at e1'; cases e1'
      · rw [e1] at e1'
        cases e1'
        rw [e2] at e2'
        exact Option.some.inj e2'
  rw [e, h3'] at h3
  cases h3
  rfl

theorem forall₂_unique {α β : Type} {R : α → β → Prop} (hR : ∀ a b b', R a b → R a b' → b = b') {l : List α}
    {k k' : List β} (h : List.Forall₂ R l k) (h' : List.Forall₂ R l k') : k = k' := by
  induction h generalizing k' with
  | nil => cases h'; rfl
  | cons h1 _ ih =>
    cases h' with
    | cons h1' h2' => rw [hR _ _ _ h1 h1', ih h2']

theorem forall₂_exists {α β : Type} {R : α → β → Prop} {l : List α} {k : List β} (h : List.Forall₂ R l k) :
    ∀ a ∈ l, ∃ b, R a b := by
  induction h with
  | nil => intro a ha; cases ha
  | cons h _ ih =>
    intro a ha
    rcases List.mem_cons.mp ha with rfl | ha
    · exact ⟨_, h⟩
    · exact ih a ha

/-- What is loaded with the resources of a command line, and what is suggested with it. -/
theorem resources_listed {x : ToolExt} (hmarks : MarksOk x.load.isSpace) (hb : x.load.isSpace '\\' = false)
    {c : CommandLine} (hc : Accepted c)
    {as : List (List (List Char × Option Nat × VocabParams))} {w : Weights} {p : TextParams}
    (hfiles : UsableFiles x c as) (hnum : UsableNumbers x c w p)
    (hfw : 0 ≤ p.variant.freqWeight)
    {afile : List Char} {alines : List (Option (List Char))} {alphabet : Alphabet}
    (ha : (.alphabet, afile) ∈ c.given) (hal : x.load.file afile = some alines)
    (hae : List.Forall₂ (AlphabetLine x.load.isSpace) (nonEmpty alines) alphabet)
    {kss : List (List (List Char × List Char × Rat))}
    (hk : List.Forall₂ (Gives x.load) (sourcesGiven c) kss) (hrefs : ∀ k ∈ kss.flatten, ¬ Reserved k.1)
    {cs : List Confusable} (hcs : ConfusablesGiven x c cs)
    {early : Bool} (hearly : early = true ↔ Given c .earlyConfusables) :
    ∃ args L, Asked x c L w p ∧ x.load.load args x.orders = .ok L ∧
      args.contextrules = c.given.filterMap (fun g => if g.1 = .contextrules then some g.2 else none) ∧
      sourcesOf args = sourcesGiven c ∧ (sourcesOf args).length ≤ 32 ∧ AddsAll x.load 0 (sourcesOf args) as ∧
      (x.config c L w).toConfig = ⟨w, cs, early, x.editScript⟩ ∧
      L.vm.alphabet = alphabet ∧ Describes L.vm (lexisFrom (sourcesGiven c) as kss) ∧
      ∀ l, l ≠ [] → ShortEnough x.text alphabet p.variant l → ∃ vs us,
        L.vm.findVariants x.text.toExt ⟨w, cs, early, x.editScript⟩ p.variant l = .ok vs ∧
        Suggestions x.text alphabet (lexisFrom (sourcesGiven c) as kss) ⟨w, cs, early, x.editScript⟩
          p.variant l us ∧
        List.Forall₂ (fun v u => SuggestedBy L.vm v u ∧ (∃ col, VariantColumns x c L p v col ∧
            SuggestionColumn x c ((sourcesGiven c).map Source.name) as p.variant u col) ∧
            ∀ j, VariantObject x c L p v j →
              SuggestionObject x c ((sourcesGiven c).map Source.name) as p.variant u j) vs us := by
  obtain ⟨args, L, hn, hload, hL, hLF, ha6, hlex32, _, _, hshort⟩ := usable_loads hmarks hfiles
  have asked : Asked x c L w p := ⟨hLF, hnum.weights, hnum.params, hnum.cutoff, hnum.debug⟩
  have hsrc : sourcesOf args = sourcesGiven c := by
    unfold sourcesOf sourcesGiven
    rw [hn.resources, hn.lm]
  have hsz := hload.sources
  obtain ⟨lines, ops, _, hl1, hl2, hne, hrun, _, _, _, _, hnames⟩ := loaded_history hL
  have halpha : L.vm.alphabet = alphabet := by
    have := hc.2 .alphabet (by decide) _ _ ha hn.alphabet
    rw [← this, hal] at hl1
    cases hl1
    obtain ⟨es, _, e2, e3⟩ := read_alphabet_entries hb [] alines
    rw [hl2, e2, List.nil_append, e3 alphabet hae]
  subst halpha
  have hconf : L.confusables = cs := by
    obtain ⟨news, h1, h2⟩ := loaded_confusables hL
    obtain ⟨css, h3, h4⟩ := hcs
    rw [hn.confusables] at h1
    rw [h2, h4]
    congr 1
    refine forall₂_unique ?_ h1 h3
    rintro f n n' ⟨ls, g1, g2⟩ ⟨ls', g1', g2'⟩
    rw [g1] at g1'
    cases g1'
    exact forall₂_unique (R := ConfusableLine x.load) (fun _ _ _ => confusableLine_unique) g2 g2'
  have hcfg : (x.config c L w).toConfig = ⟨w, cs, early, x.editScript⟩ := by
    have e : c.isPresent .earlyConfusables = early := by
      rw [Bool.eq_iff_iff, hearly]
      exact isPresent_iff rfl
    show (⟨w, L.confusables, c.isPresent .earlyConfusables, x.editScript⟩ : Config) = _
    rw [hconf, e]
  obtain ⟨q, hq, _, hqn⟩ := hnum.params
  have hfa : Fits p.variant.maxAnagramDistance := by
    obtain ⟨v, _, hv⟩ := hq.anagram
    rw [hqn.anagram] at hv
    exact fits_of_text hv
  have hfe : Fits p.variant.maxEditDistance := by
    obtain ⟨v, _, hv⟩ := hq.edit
    rw [hqn.edit] at hv
    exact fits_of_text hv
  have hdesc : Describes L.vm (lexisFrom (sourcesGiven c) as kss) := by
    have := describes_load hL (by omega) hload.words (hsrc ▸ hk) hrefs
    rw [hsrc] at this
    exact this
  refine ⟨args, L, asked, hL, hn.rules, hsrc, hsz, hload.words, hcfg, rfl, hdesc, ?_⟩
  intro l hln hsh
  have hve : ∀ v ∈ L.vm.decoder, ∀ t s, VariantReference.variantOf t s ∈ v.variants.getD [] →
      t < L.vm.decoder.length := by
    have known := known_load hL hload.words (hsrc ▸ hk)
    intro v hv t s ht
    obtain ⟨id, hid⟩ := List.getElem?_of_mem hv
    obtain ⟨l, i, e, hi⟩ := forall₂_exists (known.links id v hid) _
      (List.mem_filter.mpr ⟨ht, rfl⟩)
    cases e
    obtain ⟨t', ht', _⟩ := Option.map_eq_some_iff.mp hi
    exact (List.getElem?_eq_some_iff.mp ht').1
  obtain ⟨res, us, h1, h2, h3⟩ := find_variants_exact L.vm.alphabet hne ha6 ops x.orders L.vm hrun hshort hve
    _ hdesc x.text ⟨w, cs, early, x.editScript⟩ p.variant hnum.nonzero hfw hfa hfe l hln hsh
  refine ⟨res, us, h1, h2, ?_⟩
  have hnr : ∀ u ∈ us, ¬ Reserved u.word := by
    intro u hu
    rcases suggestions_words h2 u hu with h | ⟨t, s, _, h⟩
    · exact h.1
    · obtain ⟨k, hk, e⟩ := List.mem_map.mp h
      have : u.word = k.1 := (congrArg Prod.fst e).symm
      rw [this]
      exact hrefs k (List.mem_filter.mp (List.mem_filter.mp hk).1).1
  rw [← hsrc, ← hnames]
  refine (forall₂_mem_right h3).imp ?_
  rintro r u ⟨hru, hu⟩
  refine ⟨hru, ?_⟩
  obtain ⟨v, hv, ht⟩ := hru.word
  have hsc : r.score x.text.f64 p.variant.freqWeight = u.overall x.text.f64 p.variant.freqWeight := by
    unfold VariantResult.score Suggestion.overall
    rw [hru.score, hru.freq]
  have hr : ¬ Reserved v.text := ht ▸ hnr u hu
  classical
  have hhas : ∀ n : List Char × List (List Char × Option Nat × VocabParams),
      decide (∃ a ∈ n.2, a.1 = v.text) = true ↔ ∃ a ∈ n.2, a.1 = v.text := fun n =>
    decide_eq_true_iff
  have hnm := lexicons_of_word hL hsz hload.words hv hr hhas
  constructor
  · by_cases hg : Given c .outputLexmatch
    · refine ⟨_, ⟨v, hv, _, .inr ⟨hg, hlex32, rfl⟩, rfl⟩, _,
        .inr ⟨hg, fun n => decide (∃ a ∈ n.2, a.1 = v.text), ?_, rfl⟩, ?_⟩
      · rw [← ht]; exact hhas
      · rw [← ht, hsc, hnm]
    · exact ⟨_, ⟨v, hv, _, .inl ⟨hg, rfl⟩, rfl⟩, _, .inl ⟨hg, rfl⟩, by rw [← ht, hsc]⟩
  · rintro j ⟨v', via, lex, e1, e2, e3, rfl⟩
    rw [hv] at e1
    cases e1
    have hvia : via = (u.via.map fun t => ("via".toList, Json.str t)).toList := by
      rcases hru.via with ⟨k1, k2⟩ | ⟨i, y, k1, k2, k3⟩
      · rw [k2]
        rcases e2 with ⟨_, e⟩ | ⟨_, _, e, _⟩
        · exact e
        · rw [k1] at e; cases e
      · rw [k3]
        rcases e2 with ⟨e, _⟩ | ⟨i', y', e, e', e''⟩
        · rw [k1] at e; cases e
        · rw [k1] at e
          cases e
          rw [k2] at e'
          cases e'
          exact e''
    rcases e3 with ⟨hg, rfl⟩ | ⟨hg, rfl⟩
    · exact ⟨[], .inl ⟨hg, rfl⟩, by rw [hvia, ← ht, hsc, hru.score, hru.freq]⟩
    · refine ⟨_, .inr ⟨hg, fun n => decide (∃ a ∈ n.2, a.1 = v.text), ?_, rfl⟩, ?_⟩
      · rw [← ht]; exact hhas
      · have e : (List.map (fun n : List Char × Nat => Json.str n.1)
            (L.vm.lexicons.zipIdx.filter fun n => v.lexindex.testBit n.2)) =
            ((L.vm.lexicons.zip as).filter fun n => decide (∃ a ∈ n.2, a.1 = v.text)).map fun n => .str n.1 := by
          have := congrArg (List.map Json.str) hnm
          rw [List.map_map, List.map_map] at this
          exact this
        rw [e, hvia, ← ht, hsc, hru.score, hru.freq]

/-- **C100**: with lexicons, variant lists, error lists and confusables, and without `--json`, a query prints
for each line of the input the line and what is suggested for it, with the scores.  The lines must not be
empty, nor too long, and the lists must not have reserved words as references. -/
theorem query_prints_suggestions {x : ToolExt} (hf : ∀ s, ';' ∈ s → x.parseF32 s = none)
    (hpos : StrictMono x.pos) (hmarks : MarksOk x.load.isSpace) (hb : x.load.isSpace '\\' = false)
    {c : CommandLine} (hc : Accepted c) (hsub : c.sub = .query) (hj : ¬ Given c .json)
    {as : List (List (List Char × Option Nat × VocabParams))} {w : Weights} {p : TextParams}
    (hfiles : UsableFiles x c as) (hnum : UsableNumbers x c w p)
    (hfw : 0 ≤ p.variant.freqWeight)
    {afile : List Char} {alines : List (Option (List Char))} {alphabet : Alphabet}
    (ha : (.alphabet, afile) ∈ c.given) (hal : x.load.file afile = some alines)
    (hae : List.Forall₂ (AlphabetLine x.load.isSpace) (nonEmpty alines) alphabet)
    {kss : List (List (List Char × List Char × Rat))}
    (hk : List.Forall₂ (Gives x.load) (sourcesGiven c) kss) (hrefs : ∀ k ∈ kss.flatten, ¬ Reserved k.1)
    {cs : List Confusable} (hcs : ConfusablesGiven x c cs)
    {early : Bool} (hearly : early = true ↔ Given c .earlyConfusables)
    {files : List (List Char)}
    {inputs : List (List (Option (List Char)))} (hin : InputsOf x files inputs)
    (hread : p.singleThread = false → ∀ lines ∈ inputs, none ∉ lines)
    (hlines : ∀ l ∈ inputs.flatMap readable, l ≠ [] ∧ ShortEnough x.text alphabet p.variant l) :
    ∃ rows, List.Forall₂ (SuggestionRow x c alphabet (lexisFrom (sourcesGiven c) as kss)
        ⟨w, cs, early, x.editScript⟩ as p.variant) (inputs.flatMap readable) rows ∧
      x.main c files = .ok (.output rows.flatten []) := by
  obtain ⟨args, L, asked, _, _, _, _, _, hcfg, _, _, find⟩ := resources_listed hmarks hb hc hfiles hnum hfw ha hal
    hae hk hrefs hcs hearly
  have row : ∀ l ∈ inputs.flatMap readable, ∃ row,
      (∃ vs, L.vm.findVariants x.text.toExt (x.config c L w).toConfig p.variant l = .ok vs ∧
        QueryRow x c L p l vs row) ∧
      SuggestionRow x c alphabet (lexisFrom (sourcesGiven c) as kss) ⟨w, cs, early, x.editScript⟩ as
        p.variant l row := by
    intro l hl
    obtain ⟨hne, hsh⟩ := hlines l hl
    obtain ⟨vs, us, h1, h2, h3⟩ := find l hne hsh
    obtain ⟨cols, h4, h5⟩ : ∃ cols, List.Forall₂ (VariantColumns x c L p) vs cols ∧
        List.Forall₂ (SuggestionColumn x c ((sourcesGiven c).map Source.name) as p.variant) us cols := by
      clear h1 h2
      induction h3 with
      | nil => exact ⟨[], .nil, .nil⟩
      | cons h _ ih =>
        obtain ⟨cols, i1, i2⟩ := ih
        obtain ⟨_, ⟨col, c1, c2⟩, _⟩ := h
        exact ⟨col :: cols, .cons c1 i1, .cons c2 i2⟩
    exact ⟨_, ⟨vs, by rw [hcfg]; exact h1, cols, h4, rfl⟩, us, cols, h2, h5, rfl⟩
  obtain ⟨rows, h1, h2⟩ := forall₂_both row
  exact ⟨rows, h2, (query_run hf hpos hc hsub hj files _ _).mpr
    ⟨rfl, L, w, p, _, inputs, asked, settings_iff.mpr rfl, hin, hread, rows, h1, rfl⟩⟩

/-! ### Examples -/

/-- `query --alphabet a --errors e --lexicon l --variants v --confusables c --early-confusables
--output-lexmatch --score-threshold 0.0 --cutoff-threshold 0.0` -/
def exQueryE : CommandLine :=
  { sub := .query, debug := none
    given := [(.alphabet, ['a']), (.errors, ['e']), (.lexicon, ['l']), (.variants, ['v']),
      (.confusables, ['c']), (.earlyConfusables, []), (.outputLexmatch, []), (.scoreThreshold, "0.0".toList),
      (.cutoffThreshold, "0.0".toList)] }

/-- `query --alphabet a --errors e --lexicon l --variants v --confusables c --stop-exact` -/
def exQueryX : CommandLine :=
  { sub := .query, debug := none
    given := [(.alphabet, ['a']), (.errors, ['e']), (.lexicon, ['l']), (.variants, ['v']),
      (.confusables, ['c']), (.stopExact, [])] }

/-- The links in the lists: `bb` is an error for `b`, and `ba` is a variant of `ab`. -/
def exLinksE : List (List (List Char × List Char × Rat)) :=
  [[("b".toList, "bb".toList, 1 / 2)], [], [("ab".toList, "ba".toList, 9 / 10)]]

theorem exGivesE : List.Forall₂ (Gives exLoadR) [.errors ['e'], .lexicon ['l'], .variants ['v']] exLinksE := by
  have plain : ∀ {l r v s : List Char} {q : Rat}, splitChar '\t' l = [r, v, s] → exParseF64 s = some q →
      VariantLines exParseF64 none [l] [⟨r, none, [(v, q, none)]⟩] := by
    intro l r v s q h1 h2
    have hf := (fieldsOf_iff _ _).mpr h1
    exact .tells (.noFreq hf (by simp)) (.plain (.mk hf (.cons h2 .nil)) .nil)
  refine .cons ?_ (.cons ?_ (.cons ?_ .nil))
  · exact Gives.errors (x := exLoadR) (f := ['e']) (lines := [some "b\tbb\t0.5".toList])
      (es := [⟨['b'], none, [(['b', 'b'], 1 / 2, none)]⟩]) rfl
      (plain (s := "0.5".toList) (by decide) (by decide +kernel))
  · exact Gives.lexicon
  · exact Gives.variants (x := exLoadR) (f := ['v']) (lines := [some "ab\tba\t0.9".toList, some [], none])
      (es := [⟨"ab".toList, none, [("ba".toList, 9 / 10, none)]⟩]) rfl
      (plain (s := "0.9".toList) (by decide) (by decide +kernel))

/-- What the model knows after loading all this. -/
example : ∃ L, exLoadR.load { exArgs with lm := [] } exOrders = .ok L ∧
    Describes L.vm (lexisFrom [.errors ['e'], .lexicon ['l'], .variants ['v']] (exAdded.take 3) exLinksE) :=
  ⟨_, rfl, describes_load (x := exLoadR) (args := { exArgs with lm := [] }) (o := exOrders) rfl (by decide)
    exLoadableQuery.words exGivesE (by unfold Reserved; decide)⟩

theorem exConfusablesE {c : CommandLine} (h : (c.given.filterMap fun g => if g.1 = .confusables then some g.2
    else none) = [['c']]) : ConfusablesGiven exToolR c exLoaded.confusables := by
  obtain ⟨news, h1, h2⟩ := loaded_confusables exLoaded_ok
  refine ⟨news, ?_, h2⟩
  rw [h]
  cases h1 with
  | cons h1 h3 =>
    cases h3
    refine .cons ?_ .nil
    obtain ⟨lines, h4, h5⟩ := h1
    exact ⟨lines, h4, h5⟩

/-- A query for `ab`, `ab b` and `bb`, with confusables first; and one that stops at exact matches. -/
example : ∀ q ∈ [(exQueryE, true), (exQueryX, false)],
    ∃ rows, List.Forall₂ (SuggestionRow exToolR q.1 [["a".toList, "A".toList], ["b".toList]]
        (lexisFrom [.errors ['e'], .lexicon ['l'], .variants ['v']] (exAdded.take 3) exLinksE)
        ⟨⟨1 / 2, 1 / 8, 1 / 8, 1 / 8, 1 / 8⟩, exLoaded.confusables, q.2, exToolR.editScript⟩
        (exAdded.take 3) (exNumbers q.1).variant)
        ["ab".toList, "ab b".toList, "bb".toList] rows ∧
      exToolR.main q.1 [['q'], ['-']] = .ok (.output rows.flatten []) := by
  obtain ⟨entries, e1, e2, _⟩ := read_alphabet_entries (isSpace := exToolR.load.isSpace) rfl []
    [some "a\tA".toList, some ['b']]
  have he : entries = [["a".toList, "A".toList], ["b".toList]] := by
    rw [List.nil_append] at e2
    rw [← e2]
    decide
  rw [he] at e1
  have hread : ∀ lines ∈ [[some "ab".toList], exToolR.stdin], none ∉ lines := by
    intro lines hl
    simp only [List.mem_cons, List.not_mem_nil, or_false] at hl
    rcases hl with rfl | rfl <;> decide
  have hlines : ∀ l ∈ [[some "ab".toList], exToolR.stdin].flatMap readable, l ≠ [] ∧ l.length ≤ 4 := by
    have e : [[some "ab".toList], exToolR.stdin].flatMap readable =
        ["ab".toList, "ab b".toList, "bb".toList] := by decide
    rw [e]
    decide
  have hd : ∀ c, c = exQueryE ∨ c = exQueryX → (exNumbers c).variant.maxAnagramDistance = .absolute 3 := by
    rintro c (rfl | rfl) <;> rfl
  have short : ∀ c, c = exQueryE ∨ c = exQueryX → ∀ l : List Char, l.length ≤ 4 →
      ShortEnough exText [["a".toList, "A".toList], ["b".toList]] (exNumbers c).variant l := by
    intro c hc l hl
    have := exShortS hl
    unfold ShortEnough at this ⊢
    rw [hd c hc]
    exact this
  intro q hq
  simp only [List.mem_cons, List.not_mem_nil, or_false] at hq
  rcases hq with rfl | rfl
  · exact query_prints_suggestions (x := exToolR) (c := exQueryE) ex_noSemicolon ex_pos ex_marks rfl
      (accepted_of (by decide) (by decide)) rfl (not_given (by decide))
      ⟨⟨{ exArgs with lm := [] }, by constructor <;> decide, exLoadableQuery⟩, by decide⟩
      (exUsableNumbers (accepted_of (by decide) (by decide)) rfl (by decide +kernel) rfl
        (exSome exTextParams (by decide +kernel)) (.inl (by decide +kernel)))
      (by decide +kernel) (afile := ['a']) (by decide) rfl e1
      (kss := exLinksE) exGivesE (by unfold Reserved; decide) (exConfusablesE (by decide))
      (early := true) (by simp only [true_iff]; exact ⟨[], by decide⟩)
      (inputs := [[some "ab".toList], exToolR.stdin]) (inputsOf_iff.mp (by decide)) (fun _ => hread)
      fun l hl => ⟨(hlines l hl).1, short _ (.inl rfl) l (hlines l hl).2⟩
  · exact query_prints_suggestions (x := exToolR) (c := exQueryX) ex_noSemicolon ex_pos ex_marks rfl
      (accepted_of (by decide) (by decide)) rfl (not_given (by decide))
      ⟨⟨{ exArgs with lm := [] }, by constructor <;> decide, exLoadableQuery⟩, by decide⟩
      (exUsableNumbers (accepted_of (by decide) (by decide)) rfl (by decide +kernel) rfl
        (exSome exTextParams (by decide +kernel)) (.inr (by decide +kernel)))
      (by decide +kernel) (afile := ['a']) (by decide) rfl e1
      (kss := exLinksE) exGivesE (by unfold Reserved; decide) (exConfusablesE (by decide))
      (early := false) (by simp only [Bool.false_eq_true, false_iff]; exact not_given (by decide))
      (inputs := [[some "ab".toList], exToolR.stdin]) (inputsOf_iff.mp (by decide)) (fun _ => hread)
      fun l hl => ⟨(hlines l hl).1, short _ (.inr rfl) l (hlines l hl).2⟩

/-- Here `bb` is not printed, but `b`; and `ab` twice, the second time as what `ba` is a variant of. -/
example : exToolR.main exQueryE [['q'], ['-']] = .ok (.output
    ("ab\tab\t1\t\t\"l;v\"\tb\t0.5\t\t\"e;l\"\tba\t0.5\t\t\"v\"\tab\t0.5\t\t\"l;v\"\n".toList ++
      "ab b\tab\t0.5\t\t\"l;v\"\tb\t0.5\t\t\"e;l\"\nbb\tb\t0.5\t\t\"e;l\"\n".toList) []) := by
  decide +kernel

end Verif.Props
