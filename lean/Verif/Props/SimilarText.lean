import Verif.Spec.SimilarText
import Verif.Props.SimilarRuns
import Verif.Props.Search

/-!
# What searches for single words with lexicons find and print (C95)
-/
namespace Verif.Props

open Verif.Spec Verif.Model Verif.Lemmas

/-! ## The words of a text -/

/-- A text ends with a letter, a separator, or not at all. -/
theorem segmented_last {isAlpha : Char → Bool} {text : List Char} {l : List Seg}
    (h : Segmented isAlpha text l) (hne : text ≠ []) (hl : ∀ c ∈ text.getLast?, isAlpha c = false) :
    ∀ p ∈ l, p.2 ≠ [] := by
  obtain ⟨l', ⟨w, s⟩, rfl⟩ := List.eq_nil_or_concat l |>.resolve_left h.ne
  have hd := h.seps_ne
  rw [List.concat_eq_append] at *
  rw [List.dropLast_concat] at hd
  intro p hp
  rcases List.mem_append.mp hp with hp | hp
  · exact hd p hp
  cases List.mem_singleton.mp hp
  intro e
  have e : s = [] := e
  subst e
  have ht := h.text_eq
  rw [flat_append, flat, flat, List.append_nil, List.append_nil] at ht
  by_cases hw : w = []
  · subst hw
    cases l' with
    | nil => exact hne (by rw [← ht]; rfl)
    | cons q l' => exact h.words_ne ([], []) (by simp) rfl
  · rw [← ht, List.getLast?_append_of_ne_nil _ hw] at hl
    have := hl _ (List.getLast?_eq_some_getLast hw)
    rw [h.words (w, []) (by simp) _ (List.getLast_mem hw)] at this
    cases this

/-- A text that does not begin with a letter. -/
theorem segmented_first {isAlpha : Char → Bool} {text : List Char} {l : List Seg}
    (h : Segmented isAlpha text l) (hl : ∀ c ∈ text.head?, isAlpha c = false) :
    ∃ s l', l = ([], s) :: l' := by
  match l, h.ne with
  | (w, s) :: l', _ =>
    cases w with
    | nil => exact ⟨s, l', rfl⟩
    | cons c w =>
      have := hl c (by rw [← h.text_eq]; simp [flat])
      rw [h.words _ List.mem_cons_self c (by simp)] at this
      cases this

/-- The runs of one word are the words of the text. -/
theorem words_of_text {isAlpha : Char → Bool} {text : List Char} {segs : List Seg}
    (h : Segmented isAlpha text segs) :
    WordsOf isAlpha text ((runsFrom 1 0 segs).map fun m => (m.first, m.text)) ∧
    ∀ m ∈ runsFrom 1 0 segs, m.last = m.first + byteLen m.text := by
  have hof : ∀ m, m ∈ runsFrom 1 0 segs ↔
      ∃ a w s b, segs = a ++ (w, s) :: b ∧ w ≠ [] ∧ m = spanAt (byteLen (flat a)) [(w, s)] := by
    intro m
    rw [mem_runsFrom]
    constructor
    · rintro ⟨a, r, b, h1, h2, h3, rfl⟩
      match r, h2 with
      | [(w, s)], _ => exact ⟨a, w, s, b, by rw [h1]; simp, h3, by simp⟩
    · rintro ⟨a, w, s, b, h1, h2, rfl⟩
      exact ⟨a, [(w, s)], b, by rw [h1]; simp, rfl, h2, by simp⟩
  refine ⟨⟨?_, ?_⟩, ?_⟩
  · rw [List.pairwise_map]
    have := (ngrams_faithful (a := []) (b := []) (cur := segs) (by simpa using h) 1).2
    exact this
  · intro b t
    rw [List.mem_map]
    constructor
    · rintro ⟨m, hm, e⟩
      obtain ⟨a, w, s, l, e1, hw, rfl⟩ := (hof m).mp hm
      obtain ⟨rfl, rfl⟩ := Prod.mk.inj e
      refine ⟨flat a, s ++ flat l, ?_, rfl, hw, ?_, ?_, ?_⟩
      · rw [← h.text_eq, e1, flat_append, flat]
        simp [spanAt, stretch]
      · exact h.words (w, s) (by rw [e1]; simp)
      · intro c hc
        rcases List.eq_nil_or_concat a with rfl | ⟨a', ⟨w', s'⟩, rfl⟩
        · cases hc
        rw [List.concat_eq_append] at *
        have hs' : s' ≠ [] := h.seps_ne (w', s') (by rw [e1]; simp)
        rw [flat_append, flat, flat, List.append_nil, ← List.append_assoc,
          List.getLast?_append_of_ne_nil _ hs'] at hc
        exact h.seps (w', s') (by rw [e1]; simp) c (List.mem_of_getLast? hc)
      · intro c hc
        cases s with
        | cons d s =>
          have hc : some d = some c := hc
          cases hc
          exact h.seps (w, c :: s) (by rw [e1]; simp) c (by simp)
        | nil =>
          cases l with
          | nil => cases hc
          | cons q l =>
            refine absurd rfl (h.seps_ne (w, []) ?_)
            rw [e1, List.dropLast_append_of_ne_nil (by simp), List.dropLast_cons_of_ne_nil (by simp)]
            simp
    · rintro ⟨pre, post, e, rfl, ht, ht', hpre, hpost⟩
      obtain ⟨P, hP, _⟩ := findBoundaries_eq isAlpha pre
      obtain ⟨Q, hQ, _⟩ := findBoundaries_eq isAlpha post
      obtain ⟨s, Q', rfl⟩ := segmented_first hQ hpost
      obtain ⟨P', hP1, hP2, hP3, hP4, hP5⟩ : ∃ P' : List Seg, flat P' = pre ∧
          (∀ p ∈ P', ∀ c ∈ p.1, isAlpha c = true) ∧ (∀ p ∈ P', ∀ c ∈ p.2, isAlpha c = false) ∧
          (∀ p ∈ P'.tail, p.1 ≠ []) ∧ (∀ p ∈ P', p.2 ≠ []) := by
        by_cases hp : pre = []
        · subst hp
          exact ⟨[], rfl, by simp, by simp, by simp, by simp⟩
        · exact ⟨P, hP.text_eq, hP.words, hP.seps, hP.words_ne, segmented_last hP hp hpre⟩
      have hseg : Segmented isAlpha text (P' ++ (t, s) :: Q') := by
        refine ⟨by simp, ?_, ?_, ?_, ?_, ?_⟩
        · have := hQ.text_eq
          rw [flat, List.nil_append] at this
          rw [flat_append, flat, hP1, e, ← this]
          simp
        · intro p hp
          rcases List.mem_append.mp hp with hp | hp
          · exact hP2 p hp
          · rcases List.mem_cons.mp hp with rfl | hp
            · exact ht'
            · exact hQ.words p (List.mem_cons_of_mem _ hp)
        · intro p hp
          rcases List.mem_append.mp hp with hp | hp
          · exact hP3 p hp
          · rcases List.mem_cons.mp hp with rfl | hp
            · exact hQ.seps ([], s) List.mem_cons_self
            · exact hQ.seps p (List.mem_cons_of_mem _ hp)
        · intro p hp
          cases P' with
          | nil => exact hQ.words_ne p hp
          | cons q P' =>
            rcases List.mem_append.mp (show p ∈ P' ++ (t, s) :: Q' from hp) with hp | hp
            · exact hP4 p hp
            · rcases List.mem_cons.mp hp with rfl | hp
              · exact ht
              · exact hQ.words_ne p hp
        · intro p hp
          rw [List.dropLast_append_of_ne_nil (by simp)] at hp
          rcases List.mem_append.mp hp with hp | hp
          · exact hP5 p hp
          · cases Q' with
            | nil => cases hp
            | cons q Q' =>
              rw [List.dropLast_cons_of_ne_nil (by simp)] at hp
              rcases List.mem_cons.mp hp with rfl | hp
              · exact hQ.seps_ne ([], s) (by simp)
              · exact hQ.seps_ne p (by rw [List.dropLast_cons_of_ne_nil (by simp)];
                                        exact List.mem_cons_of_mem _ hp)
      have := segmented_unique h hseg
      exact ⟨_, (hof _).mpr ⟨P', t, s, Q', this, ht, rfl⟩, by rw [hP1]; rfl⟩
  · intro m hm
    obtain ⟨a, w, s, b, _, _, rfl⟩ := (hof m).mp hm
    rfl

/-! ## Models without a language model -/

/-- Nothing is in the language model. -/
structure NoLm (m : Vm) : Prop where
  inv : Inv m
  ngrams : m.ngrams = []
  types : ∀ v ∈ m.decoder, v.vocabtype.lm = false

theorem noLm_adds {m m' : Vm} {ops : List Op} (hm : NoLm m)
    (hops : ∀ op ∈ ops, ∃ t f p, op = .add t f p ∧ ¬ Reserved t ∧ p.vocabType.lm = false)
    (h : m.run ops = .ok m') : NoLm m' := by
  induction ops generalizing m with
  | nil => cases h; exact hm
  | cons op ops ih =>
    obtain ⟨m1, h1, h2⟩ := bind_ok.mp h
    refine ih ?_ (fun o ho => hops o (List.mem_cons_of_mem _ ho)) h2
    obtain ⟨t, f, p, rfl, hr, hp⟩ := hops op List.mem_cons_self
    refine ⟨(inv_step hm.inv h1).1, ?_, ?_⟩
    · rw [(step_noBuild (op := .add t f p) trivial h1).1, hm.ngrams]
    · obtain ⟨⟨m2, id⟩, h3, h4⟩ := bind_ok.mp h1
      cases pure_ok.mp h4
      unfold Vm.addToVocabulary at h3
      simp only at h3
      split at h3
      · next vid hvid =>
        split at h3
        · cases h3
        · next item hitem =>
          obtain ⟨fr, _, h3⟩ := bind_ok.mp h3
          obtain ⟨bit, _, h3⟩ := bind_ok.mp h3
          cases pure_ok.mp h3
          intro v hv
          rcases List.mem_or_eq_of_mem_set hv with hv | rfl
          · exact hm.types v hv
          · have hi := hm.types item (List.mem_of_getElem? hitem)
            have htext := (hm.inv.bij t _).mp hvid
            show (updateType _ item.vocabtype p.vocabType).lm = false
            unfold updateType
            rw [if_neg]
            · split
              · show (item.vocabtype.lm ^^ false) = false
                rw [hi]
                rfl
              · exact hi
            · rintro (e | e | e)
              · rw [e, show BOS = 0 from rfl, hm.inv.bos] at htext
                exact hr (.inl (Option.some.inj htext).symm)
              · rw [e, show EOS = 1 from rfl, hm.inv.eos] at htext
                exact hr (.inr (.inl (Option.some.inj htext).symm))
              · rw [e, show UNK = 2 from rfl, hm.inv.unk] at htext
                exact hr (.inr (.inr (Option.some.inj htext).symm))
      · obtain ⟨norm, _, h3⟩ := bind_ok.mp h3
        obtain ⟨bit, _, h3⟩ := bind_ok.mp h3
        split at h3
        · cases h3
        · cases pure_ok.mp h3
          intro v hv
          rcases List.mem_append.mp hv with hv | hv
          · exact hm.types v hv
          · cases List.mem_singleton.mp hv
            exact hp

theorem vocabLines_unique {params : VocabParams} {ls : List (List Char)} {es es' : List (List Char × Nat)}
    (h : List.Forall₂ (VocabLine params) ls es) (h' : List.Forall₂ (VocabLine params) ls es') : es = es' := by
  induction h generalizing es' with
  | nil => cases h'; rfl
  | cons a1 _ ih =>
    cases h' with
    | cons a2 a3 => rw [vocabLine_unique a1 a2, ih a3]

theorem noLm_resources {x : LoadExt} {rs : List Resource} {m m' : Vm} {i : Nat}
    {as : List (List (List Char × Option Nat × VocabParams))} (hm : NoLm m)
    (hlex : ∀ r ∈ rs, ∃ f, r = .lexicon f) (h : m.readResources x rs = .ok m')
    (has : AddsAll x i (rs.map sourceOf) as) (hr : ∀ a ∈ as.flatten, ¬ Reserved a.1) : NoLm m' := by
  induction rs generalizing m i as with
  | nil => cases h; exact hm
  | cons r rs ih =>
    obtain ⟨m1, k1, k2⟩ := bind_ok.mp h
    obtain ⟨f, rfl⟩ := hlex r List.mem_cons_self
    obtain ⟨ls, k4, k3⟩ := bind_ok.mp k1
    cases has with
    | @cons _ _ _ a as' h1 h2 =>
    refine ih ?_ (fun r hr => hlex r (List.mem_cons_of_mem _ hr)) k2 h2 fun a ha => hr a (by simp [ha])
    obtain ⟨es, m2, e1, e2, rfl⟩ := (read_vocabulary _ _ _ _ _).mp k3
    cases h1 with
    | @lexicon _ lines es' g1 g2 =>
    have : ls = lines := by
      unfold LoadExt.open at k4
      rw [g1] at k4
      exact (Except.ok.inj k4).symm
    subst this
    cases vocabLines_unique e1 g2
    have := noLm_adds hm (fun op hop => by
      obtain ⟨e, he, rfl⟩ := List.mem_map.mp hop
      refine ⟨_, _, _, rfl, hr (e.1, some e.2, { index := i % 256 }) ?_, rfl⟩
      rw [List.flatten_cons]
      exact List.mem_append_left _ (List.mem_map.mpr ⟨e, he, rfl⟩)) e2
    have inv := this.inv
    exact ⟨⟨inv.bij, inv.bos, inv.eos, inv.unk, inv.notIndexed, inv.tokens, inv.freqSum⟩, this.ngrams,
      this.types⟩

theorem noLm_loop {m m' : Vm} {ids : List Nat} {u u' : Option (HMap (List Char) Nat)}
    (hm : ∀ v ∈ m.decoder, v.vocabtype.lm = false) (h : m.lmLoop ids u = .ok (m', u')) : m' = m := by
  induction ids generalizing u with
  | nil => cases h; rfl
  | cons id ids ih =>
    obtain ⟨⟨m1, u1⟩, h1, h2⟩ := bind_ok.mp h
    have : m1 = m := by
      unfold Vm.lmStep at h1
      split at h1
      · cases h1
      · next v hv =>
        rw [check_lm, hm v (List.mem_of_getElem? hv)] at h1
        cases h1
        rfl
    subst this
    exact ih h2

/-- With lexicons only, and no reserved words in them, there is no language model. -/
theorem noLm_load {x : LoadExt} {args : LoadArgs} {o : Orders} {L : Loaded}
    (h : x.load args o = .ok L) (hlex : ∀ s ∈ sourcesOf args, ∃ f, s = .lexicon f)
    {as : List (List (List Char × Option Nat × VocabParams))} (has : AddsAll x 0 (sourcesOf args) as)
    (hr : ∀ a ∈ as.flatten, ¬ Reserved a.1) : L.vm.haveLm = false := by
  have hlm : args.lm = [] := by
    cases hlm : args.lm with
    | nil => rfl
    | cons f fs =>
      obtain ⟨g, hg⟩ := hlex (.lm f) (by unfold sourcesOf; rw [hlm]; simp)
      cases hg
  unfold sourcesOf at has hlex
  rw [hlm, List.map_nil, List.append_nil] at has hlex
  unfold LoadExt.load at h
  obtain ⟨m0, h0, h⟩ := bind_ok.mp h
  obtain ⟨m1, h1, h⟩ := bind_ok.mp h
  obtain ⟨m2, h2, h⟩ := bind_ok.mp h
  obtain ⟨cs, h3, h⟩ := bind_ok.mp h
  obtain ⟨book, h4, h⟩ := bind_ok.mp h
  obtain ⟨m3, h5, h⟩ := bind_ok.mp h
  cases pure_ok.mp h
  obtain ⟨lines, g0, g1⟩ := bind_ok.mp h0
  cases pure_ok.mp g1
  rw [hlm] at h2
  cases h2
  have hn : NoLm m1 := by
    refine noLm_resources ⟨inv_new _, rfl, ?_⟩ (fun r hr => ?_) h1 has hr
    · intro v hv
      simp only [Vm.new, List.mem_cons, List.not_mem_nil, or_false] at hv
      rcases hv with rfl | rfl | rfl <;> rfl
    · obtain ⟨f, hf⟩ := hlex (sourceOf r) (List.mem_map_of_mem hr)
      cases r with
      | lexicon f => exact ⟨f, rfl⟩
      | variantList f => cases hf
      | errorList f => cases hf
  obtain ⟨mi, i1, i2⟩ := bind_ok.mp h5
  have e := buildIndex_cases i1
  obtain ⟨ml, j1, j2, _⟩ := buildLm_cases i2
  have hd : ∀ v ∈ mi.decoder, v.vocabtype.lm = false := by
    rw [e]; exact hn.types
  rw [noLm_loop hd j1] at j2
  have hg : mi.ngrams = [] := by rw [e]; exact hn.ngrams
  rw [j2, hg]
  rfl

/-! ## What is printed -/

/-- The words of the lexicons are in the index. -/
theorem index_of_words {x : LoadExt} {args : LoadArgs} {o : Orders} {L : Loaded}
    (h : x.load args o = .ok L) (hcount : (sourcesOf args).length ≤ 256)
    (hlex : ∀ s ∈ sourcesOf args, ∃ f, s = .lexicon f)
    {as : List (List (List Char × Option Nat × VocabParams))} (has : AddsAll x 0 (sourcesOf args) as) :
    L.vm.index.isEmpty = true ↔ ∀ a ∈ as.flatten, Reserved a.1 := by
  obtain ⟨w1, w2⟩ := words_of_entries h hcount hlex has
  obtain ⟨lines, ops, as', hal, hal', hne, hrun, _⟩ := loaded_history h
  constructor
  · intro he a ha
    by_contra hr
    have hb : BddAbove {k | ∃ b ∈ as.flatten, b.1 = a.1 ∧ b.2.1.getD 1 = k} := by
      refine (Set.Finite.subset (List.finite_toSet (as.flatten.map fun b => b.2.1.getD 1)) ?_).bddAbove
      rintro n ⟨b, hb, _, e⟩
      exact List.mem_map.mpr ⟨b, hb, e⟩
    have hn : {k | ∃ b ∈ as.flatten, b.1 = a.1 ∧ b.2.1.getD 1 = k}.Nonempty := ⟨_, a, ha, rfl, rfl⟩
    obtain ⟨id, v, k1, k2, k3, k4⟩ := w2 a.1 _ hr ⟨Nat.sSup_mem hn hb, fun n hn => le_csSup hb hn⟩
    rw [check_indexed'] at k4
    obtain ⟨k, node, _, hk⟩ := (built_of_run hrun).complete id v k1 k4
    rw [List.isEmpty_iff.mp he] at hk
    cases hk
  · intro hr
    rw [List.isEmpty_iff]
    by_contra hne
    obtain ⟨⟨k, node⟩, hk⟩ := List.exists_mem_of_ne_nil _ hne
    obtain ⟨node', hnode⟩ : ∃ node', L.vm.index.get? k = some node' := by
      generalize L.vm.index = ix at hk
      induction ix with
      | nil => cases hk
      | cons e ix ih =>
        obtain ⟨k', n'⟩ := e
        unfold HMap.get?
        split
        · exact ⟨_, rfl⟩
        · next h =>
          rcases List.mem_cons.mp hk with e | hk
          · cases e
            exact absurd rfl h
          · exact ih hk
    obtain ⟨h1, _, h2, _⟩ := (built_of_run hrun).node k node' hnode
    obtain ⟨id, hid⟩ := List.exists_mem_of_ne_nil _ h1
    obtain ⟨v, hv, hi, _⟩ := (h2 id).mp hid
    obtain ⟨j1, j2, _⟩ := w1 id v hv (by rw [check_indexed']; exact hi)
    obtain ⟨a, ha, e, _⟩ := j2.1
    exact j1 (e ▸ hr a ha)

/-- If the variants of all words are found, the matches in a text are the words. -/
theorem text_words {vm : Vm} {x : TextExt} {cfg : TextConfig} {p : TextParams}
    (hsp : x.isAlpha ' ' = false) (hn : p.maxNgram = 1) (hu : p.unicodeoffsets = false)
    (hlm : vm.haveLm = false) (hrb : cfg.contextRules = []) (hidx : vm.index.isEmpty = false)
    {text : List Char}
    (find : ∀ b t, WordAt x.isAlpha text b t →
      ∃ vs, vm.findVariants x.toExt cfg.toConfig p.variant t = .ok vs) :
    ∃ ms, vm.findAllMatches x cfg p text = .ok ms ∧
      WordsOf x.isAlpha text (ms.map fun m => (m.first, m.text)) ∧
      ∀ m ∈ ms, m.last = m.first + byteLen m.text ∧ m.tag = [] ∧ m.selected = some 0 ∧
        ∃ vs, m.variants = some vs ∧ vm.findVariants x.toExt cfg.toConfig p.variant m.text = .ok vs := by
  obtain ⟨segs, hs, _⟩ := findBoundaries_eq x.isAlpha text
  obtain ⟨hws, hlast⟩ := words_of_text hs
  have hwm := hws.mem
  have each : ∀ word ∈ runsFrom 1 0 segs, ∃ m : Match,
      (∃ v, vm.findVariants x.toExt cfg.toConfig p.variant word.text = .ok v ∧
        m = { word with variants := some v, selected := some 0 }) ∧
      (m.first, m.text) = (word.first, word.text) ∧ m.last = m.first + byteLen m.text ∧ m.tag = [] ∧
      m.selected = some 0 ∧
      ∃ vs, m.variants = some vs ∧ vm.findVariants x.toExt cfg.toConfig p.variant m.text = .ok vs := by
    intro word hword
    obtain ⟨vs, h1⟩ := find _ _ ((hwm _ _).mp (List.mem_map.mpr ⟨word, hword, rfl⟩))
    refine ⟨{ word with variants := some vs, selected := some 0 }, ⟨vs, h1, rfl⟩, rfl, hlast word hword, ?_,
      rfl, vs, rfl, h1⟩
    obtain ⟨_, _, _, _, _, _, rfl⟩ := mem_runsFrom.mp hword
    rfl
  obtain ⟨ms, h1, h2⟩ := forall₂_both each
  refine ⟨ms, ?_, ?_, ?_⟩
  · by_cases ht : text = []
    · have : runsFrom 1 0 segs = [] := by
        rw [List.eq_nil_iff_forall_not_mem]
        intro m hm
        obtain ⟨pre, post, e, _, hne, _⟩ := (hwm _ _).mp (List.mem_map.mpr ⟨m, hm, rfl⟩)
        rw [ht] at e
        have := List.append_eq_nil_iff.mp e.symm
        exact hne (List.append_eq_nil_iff.mp this.1).2
      rw [this] at h1
      cases h1
      unfold Vm.findAllMatches
      rw [if_pos ht]
    · rw [unigram_search hsp hn hlm hrb hu ht hidx hs]
      exact h1
  · have : ms.map (fun m => (m.first, m.text)) = (runsFrom 1 0 segs).map fun m => (m.first, m.text) := by
      symm
      rw [← List.forall₂_eq_eq_eq, List.forall₂_map_left_iff, List.forall₂_map_right_iff]
      exact h2.imp fun _ _ h => h.1.symm
    rw [this]
    exact hws
  · intro m hm
    obtain ⟨_, _, _, h⟩ := mem_of_forall₂_right h2 hm
    exact h

/-- If the columns for all words are known, a search for single words prints them. -/
theorem search_words {columns : List Char → List (List Char) → Prop} {x : ToolExt}
    (hf : ∀ s, ';' ∈ s → x.parseF32 s = none) (hpos : StrictMono x.pos) (hsp : x.text.isAlpha ' ' = false)
    {c : CommandLine} (hc : Accepted c) (hsub : c.sub = .search) (hj : ¬ Given c .json)
    {w : Weights} {p : TextParams} (hnum : UsableNumbers x c w p) (hn : p.maxNgram = 1)
    {L : Loaded} (asked : Asked x c L w p) (hlm : L.vm.haveLm = false)
    (hrb : L.book.rules = []) (hidx : L.vm.index.isEmpty = false)
    {alphabet : Alphabet}
    (find : ∀ t, t ≠ [] → ShortEnough x.text alphabet p.variant t → ∃ vs cols,
      L.vm.findVariants x.text.toExt (x.config c L w).toConfig p.variant t = .ok vs ∧
      List.Forall₂ (VariantColumns x c L p) vs cols ∧ columns t cols)
    {files : List (List Char)}
    {inputs : List (List (Option (List Char)))} (hin : InputsOf x files inputs)
    (hlines : ∀ lines ∈ inputs, ∀ text, SearchedIn c lines text → ∀ b t, WordAt x.text.isAlpha text b t →
      ShortEnough x.text alphabet p.variant t) :
    ∃ texts, List.Forall₂ (WordsText x c columns) inputs texts ∧
      x.main c files = .ok (.output texts.flatten []) := by
  obtain ⟨q, hq, hqu, hqn⟩ := hnum.params
  have hu : p.unicodeoffsets = false := by rw [hqn.offsets, hqu]
  -- the matches in a text
  have one : ∀ text, (∀ b t, WordAt x.text.isAlpha text b t → ShortEnough x.text alphabet p.variant t) →
      ∃ ws ms rows, WordsOf x.text.isAlpha text ws ∧
        L.vm.findAllMatches x.text (x.config c L w) p text = .ok ms ∧
        List.Forall₂ (MatchRow x c L p) ms rows ∧
        List.Forall₂ (WordRow columns) ws rows := by
    intro text hshort
    have hne : ∀ {b t}, WordAt x.text.isAlpha text b t → t ≠ [] := fun h => by
      obtain ⟨_, _, _, _, h, _⟩ := h; exact h
    obtain ⟨ms, h1, h2, h3⟩ := text_words (cfg := x.config c L w) hsp hn hu hlm hrb hidx (text := text)
      (fun b t h => by
        obtain ⟨vs, _, h1, _⟩ := find t (hne h) (hshort b t h)
        exact ⟨vs, h1⟩)
    have each : ∀ m ∈ ms, ∃ row, MatchRow x c L p m row ∧ WordRow columns (m.first, m.text) row := by
      intro m hm
      obtain ⟨e1, _, e2, vs, e3, e4⟩ := h3 m hm
      have hw := (h2.mem _ _).mp (List.mem_map.mpr ⟨m, hm, rfl⟩)
      obtain ⟨vs', cols, k1, k2, k3⟩ := find m.text (hne hw) (hshort _ _ hw)
      rw [e4] at k1
      cases k1
      refine ⟨_, ⟨cols, ?_, rfl⟩, cols, k3, by rw [e1]⟩
      rw [e3]
      refine ⟨vs, ?_, k2⟩
      rw [e2]
      cases vs with
      | nil => exact .inr ⟨fun i h => by simp, rfl⟩
      | cons r vs => exact .inl ⟨0, r, rfl, rfl, rfl⟩
    obtain ⟨rows, g1, g2⟩ := forall₂_both each
    refine ⟨_, ms, rows, h2, h1, g1, ?_⟩
    rw [List.forall₂_map_left_iff]
    exact g2
  -- the text for an input
  have input : ∀ lines ∈ inputs, ∃ text,
      SearchText x c L p (L.vm.findAllMatches x.text (x.config c L w) p) lines text ∧
      WordsText x c columns lines text := by
    intro lines hli
    obtain ⟨perLine, hper⟩ : ∃ b : Bool, b = true ↔ Given c .perLine := by
      classical
      exact ⟨decide (Given c .perLine), decide_eq_true_iff⟩
    obtain ⟨sep, hsep⟩ : ∃ sep, (Given c .retainLinebreaks ∧ sep = '\n') ∨
        (¬ Given c .retainLinebreaks ∧ sep = ' ') := by
      by_cases h : Given c .retainLinebreaks
      · exact ⟨_, .inl ⟨h, rfl⟩⟩
      · exact ⟨_, .inr ⟨h, rfl⟩⟩
    obtain ⟨gs, hg, _⟩ := search_output (x.printer c L p) (fun _ => .ok []) false false perLine lines
    have group : ∀ g ∈ gs, ∃ z : List (Nat × List Char) × List Match × List (List Char),
        (WordsOf x.text.isAlpha ([sep].intercalate g) z.1 ∧
          L.vm.findAllMatches x.text (x.config c L w) p ([sep].intercalate g) = .ok z.2.1) ∧
        List.Forall₂ (MatchRow x c L p) z.2.1 z.2.2 ∧
        List.Forall₂ (WordRow columns) z.1 z.2.2 := by
      intro g hgm
      obtain ⟨ws, ms, rows, h1, h2, h3, h4⟩ := one ([sep].intercalate g)
        (hlines lines hli _ ⟨perLine, sep, gs, g, hper, hsep, hg, hgm, rfl⟩)
      exact ⟨(ws, ms, rows), ⟨h1, h2⟩, h3, h4⟩
    obtain ⟨zs, h1, h2⟩ := forall₂_both group
    refine ⟨_, ⟨perLine, sep, gs, zs.map fun z => z.2.1, zs.map fun z => z.2.2, hper, hsep, hg, ?_, ?_, rfl⟩,
      perLine, sep, gs, zs.map Prod.fst, zs.map fun z => z.2.2, hper, hsep, hg, ?_, ?_, rfl⟩
    · rw [List.forall₂_map_right_iff]
      exact h1.imp fun _ _ h => h.2
    · rw [List.forall₂_map_left_iff, List.forall₂_map_right_iff, List.forall₂_same]
      intro z hz
      obtain ⟨_, _, h, _⟩ := mem_of_forall₂_right h2 hz
      exact h
    · rw [List.forall₂_map_right_iff]
      exact h1.imp fun _ _ h => h.1
    · rw [List.forall₂_map_left_iff, List.forall₂_map_right_iff, List.forall₂_same]
      intro z hz
      obtain ⟨_, _, _, h⟩ := mem_of_forall₂_right h2 hz
      exact h
  obtain ⟨texts, h1, h2⟩ := forall₂_both input
  exact ⟨texts, h2, (search_run hf hpos hc hsub hj files _ _).mpr
    ⟨rfl, L, w, p, _, inputs, texts, asked, settings_iff.mpr rfl, hin, h1, rfl⟩⟩

/-- **C95**: with lexicons only (no variant lists, error lists, confusables, language models and context
rules), for single words, and without `--json` and stop criterion, a search prints for each word of the text,
in order, the word, its offsets and what is shown of the ranking of the words of the lexicons that are
similar to it, with their scores.  The lexicons must have a word, and no reserved ones; the words of the text
must not be too long. -/
theorem search_prints_similar {x : ToolExt} (hf : ∀ s, ';' ∈ s → x.parseF32 s = none)
    (hpos : StrictMono x.pos) (hmarks : MarksOk x.load.isSpace) (hb : x.load.isSpace '\\' = false)
    (hsp : x.text.isAlpha ' ' = false)
    {c : CommandLine} (hc : Accepted c) (hsub : c.sub = .search) (hj : ¬ Given c .json)
    (hplain : ∀ o ∈ [OptName.variants, .errors, .confusables, .lm, .contextrules, .stopExact], ¬ Given c o)
    {as : List (List (List Char × Option Nat × VocabParams))} {w : Weights} {p : TextParams}
    (hfiles : UsableFiles x c as) (hnum : UsableNumbers x c w p)
    (hfw : 0 ≤ p.variant.freqWeight) (hn : p.maxNgram = 1)
    (hwords : as.flatten ≠ []) (hr : ∀ a ∈ as.flatten, ¬ Reserved a.1)
    {afile : List Char} {alines : List (Option (List Char))} {alphabet : Alphabet}
    (ha : (.alphabet, afile) ∈ c.given) (hal : x.load.file afile = some alines)
    (hae : List.Forall₂ (AlphabetLine x.load.isSpace) (nonEmpty alines) alphabet)
    {files : List (List Char)}
    {inputs : List (List (Option (List Char)))} (hin : InputsOf x files inputs)
    (hlines : ∀ lines ∈ inputs, ∀ text, SearchedIn c lines text → ∀ b t, WordAt x.text.isAlpha text b t →
      ShortEnough x.text alphabet p.variant t) :
    ∃ texts, List.Forall₂ (SimilarText x c alphabet
        (c.given.filterMap fun g => if g.1 = .lexicon then some g.2 else none) as w p.variant)
        inputs texts ∧
      x.main c files = .ok (.output texts.flatten []) := by
  obtain ⟨args, L, asked, hL, hrules, hsz, hlex, has, find⟩ := lexicons_loaded hmarks hb hc
    (fun o ho => hplain o (by simp only [List.mem_cons, List.not_mem_nil, or_false] at ho ⊢; tauto))
    hfiles hnum hfw ha hal hae
  have hlm := noLm_load hL hlex has hr
  have hidx : L.vm.index.isEmpty = false := by
    rw [← Bool.not_eq_true, index_of_words hL (by omega) hlex has]
    obtain ⟨a, ha⟩ := List.exists_mem_of_ne_nil _ hwords
    exact fun h => hr a ha (h a ha)
  have hrb : L.book.rules = [] := by
    have h0 : args.contextrules = [] := by
      rw [hrules, List.filterMap_eq_nil_iff]
      intro g hg
      rw [if_neg]
      intro e
      exact hplain .contextrules (by simp) ⟨g.2, e ▸ hg⟩
    unfold LoadExt.load at hL
    obtain ⟨_, _, h⟩ := bind_ok.mp hL
    obtain ⟨_, _, h⟩ := bind_ok.mp h
    obtain ⟨_, _, h⟩ := bind_ok.mp h
    obtain ⟨_, _, h⟩ := bind_ok.mp h
    obtain ⟨bk, h4, h⟩ := bind_ok.mp h
    obtain ⟨_, _, h⟩ := bind_ok.mp h
    cases pure_ok.mp h
    rw [h0] at h4
    cases h4
    rfl
  exact search_words hf hpos hsp hc hsub hj hnum hn asked hlm hrb hidx find hin hlines

/-- **C95**: if the lexicons have no words (but reserved ones), a search prints nothing, whatever the text
and the other options are. -/
theorem search_without_words {x : ToolExt} (hf : ∀ s, ';' ∈ s → x.parseF32 s = none)
    (hpos : StrictMono x.pos) (hmarks : MarksOk x.load.isSpace)
    {c : CommandLine} (hc : Accepted c) (hsub : c.sub = .search) (hj : ¬ Given c .json)
    (hplain : ∀ o ∈ [OptName.variants, .errors, .lm], ¬ Given c o)
    {as : List (List (List Char × Option Nat × VocabParams))} {w : Weights} {p : TextParams}
    (hfiles : UsableFiles x c as) (hnum : UsableNumbers x c w p)
    (hwords : ∀ a ∈ as.flatten, Reserved a.1)
    {files : List (List Char)}
    {inputs : List (List (Option (List Char)))} (hin : InputsOf x files inputs) :
    x.main c files = .ok (.output [] []) := by
  obtain ⟨args, L, asked, _, hload, hL, _, hlex, _⟩ := lexicons_only hmarks hplain hfiles hnum
  have hsz := hload.sources
  have hidx := (index_of_words hL (by omega) hlex hload.words).mpr hwords
  have none : ∀ text, L.vm.findAllMatches x.text (x.config c L w) p text = .ok [] := by
    intro text
    unfold Vm.findAllMatches
    rw [hidx]
    split <;> rfl
  refine (search_run hf hpos hc hsub hj files _ _).mpr
    ⟨rfl, L, w, p, _, inputs, inputs.map fun _ => [], asked, settings_iff.mpr rfl, hin, ?_, ?_⟩
  · rw [List.forall₂_map_right_iff, List.forall₂_same]
    intro lines _
    obtain ⟨perLine, hper⟩ : ∃ b : Bool, b = true ↔ Given c .perLine := by
      classical
      exact ⟨decide (Given c .perLine), decide_eq_true_iff⟩
    obtain ⟨sep, hsep⟩ : ∃ sep, (Given c .retainLinebreaks ∧ sep = '\n') ∨
        (¬ Given c .retainLinebreaks ∧ sep = ' ') := by
      by_cases h : Given c .retainLinebreaks
      · exact ⟨_, .inl ⟨h, rfl⟩⟩
      · exact ⟨_, .inr ⟨h, rfl⟩⟩
    obtain ⟨gs, hg, _⟩ := search_output (x.printer c L p) (fun _ => .ok []) false false perLine lines
    refine ⟨perLine, sep, gs, gs.map fun _ => [], gs.map fun _ => [], hper, hsep, hg, ?_, ?_, ?_⟩
    · rw [List.forall₂_map_right_iff, List.forall₂_same]
      exact fun g _ => none _
    · rw [List.forall₂_map_left_iff, List.forall₂_map_right_iff, List.forall₂_same]
      exact fun g _ => .nil
    · have : (gs.map fun _ => ([] : List (List Char))).filter (fun r => r ≠ []) = [] := by simp
      rw [this]
      rfl
  · simp

/-! ### Examples -/

/-- The words and offsets of a text, some in more than one byte. -/
example : WordsOf letters "né, a-b".toList [(0, "né".toList), (5, ['a']), (7, ['b'])] :=
  (words_of_text (segs := [("né".toList, ", ".toList), (['a'], ['-']), (['b'], [])])
    ⟨by decide, by decide, by decide, by decide, by decide, by decide⟩).1

/-- The surroundings of the earlier examples with another lexicon and a text. -/
def exToolT (ls ts : List (Option (List Char))) : ToolExt :=
  { exToolR with load := { exLoadR with
      file := fun f => if f = ['l'] then some ls else if f = ['t'] then some ts else exLoadR.file f } }

/-- `search --alphabet a --lexicon l --max-ngram-order 1 --max-matches 0 --cutoff-threshold 0.0
--score-threshold 0.0` -/
def exSearchW : CommandLine :=
  { sub := .search, debug := none
    given := [(.alphabet, ['a']), (.lexicon, ['l']), (.maxNgramOrder, ['1']), (.maxMatches, ['0']),
      (.cutoffThreshold, "0.0".toList), (.scoreThreshold, "0.0".toList)] }

theorem exUsableW {ls ts : List (Option (List Char))} {es : List (List Char × Nat)}
    (hes : List.Forall₂ (VocabLine {}) (nonEmpty ls) es)
    (hsp : ∀ e ∈ es, (e.1.countP (· == ' ')) % 256 ≠ 255 ∧ e.1.length < 65536)
    (hsum : (es.map Prod.snd).sum < 2 ^ 32) :
    UsableFiles (exToolT ls ts) exSearchW [es.map fun e => (e.1, some e.2, {})] := by
  have hmem : ∀ a ∈ [es.map fun e => (e.1, some e.2, ({} : VocabParams))].flatten, ∃ e ∈ es, a.1 = e.1 := by
    intro a ha
    rw [List.flatten_singleton] at ha
    obtain ⟨e, he, rfl⟩ := List.mem_map.mp ha
    exact ⟨e, he, rfl⟩
  refine ⟨⟨⟨['a'], [(['l'], 3)], [], [], [], [], []⟩, by constructor <;> decide, ?_⟩, ?_⟩
  · refine ⟨⟨[some "a\tA".toList, some ['b']], rfl, by decide⟩, .cons (Adds.lexicon rfl hes) .nil,
      by decide, ?_, ?_, fun f hf => (by cases hf), fun f hf => (by cases hf)⟩
    · intro a ha
      obtain ⟨e, he, h⟩ := hmem a ha
      rw [h]
      exact (hsp e he).1
    · rw [List.flatten_singleton, List.map_map]
      exact hsum
  · intro a ha
    obtain ⟨e, he, h⟩ := hmem a ha
    rw [h]
    exact (hsp e he).2

theorem exNumbersW (ls ts : List (Option (List Char))) :
    UsableNumbers (exToolT ls ts) exSearchW ⟨1 / 2, 1 / 8, 1 / 8, 1 / 8, 1 / 8⟩ (exNumbers exSearchW) := by
  have h := exUsableNumbers (c := exSearchW) (accepted_of (by decide) (by decide)) rfl (by decide +kernel) rfl
    (exSome exTextParams (by decide +kernel)) (.inl (by decide +kernel))
  exact ⟨h.weights, h.nonzero, h.params, h.cutoff, h.debug⟩

/-- A text with two groups of lines. -/
abbrev exText2 : List (Option (List Char)) :=
  [some "ab, x-ba.".toList, some "b".toList, some [], some [], some " aab a".toList]

/-- The words `ab`, `ba` and `a`. -/
abbrev exLex6 : List (Option (List Char)) := [some "ab\t7".toList, some "ba\t16".toList, some "a\t1".toList]

example : ∃ texts, List.Forall₂ (SimilarText (exToolT exLex6 exText2) exSearchW
      [["a".toList, "A".toList], ["b".toList]] [['l']]
      [[("ab".toList, some 7, {}), ("ba".toList, some 16, {}), (['a'], some 1, {})]]
      ⟨1 / 2, 1 / 8, 1 / 8, 1 / 8, 1 / 8⟩ (exNumbers exSearchW).variant) [exText2] texts ∧
    (exToolT exLex6 exText2).main exSearchW [['t']] = .ok (.output texts.flatten []) := by
  obtain ⟨entries, e1, e2, _⟩ := read_alphabet_entries (isSpace := exToolR.load.isSpace) rfl []
    [some "a\tA".toList, some ['b']]
  have he : entries = [["a".toList, "A".toList], ["b".toList]] := by
    rw [List.nil_append] at e2
    rw [← e2]
    decide
  rw [he] at e1
  refine search_prints_similar (x := exToolT exLex6 exText2) ex_noSemicolon ex_pos ex_marks rfl rfl
    (accepted_of (by decide) (by decide)) rfl (not_given (by decide))
    (by
      have : ∀ o ∈ [OptName.variants, .errors, .confusables, .lm, .contextrules, .stopExact],
          ∀ g ∈ exSearchW.given, g.1 ≠ o := by decide
      exact fun o ho => not_given (this o ho))
    (exUsableW (es := [("ab".toList, 7), ("ba".toList, 16), (['a'], 1)])
      (.cons (exVocab (f := ['7']) (by decide) (by decide))
        (.cons (exVocab (f := "16".toList) (by decide) (by decide))
          (.cons (exVocab (f := ['1']) (by decide) (by decide)) .nil)))
      (by decide) (by decide))
    (exNumbersW _ _) (by decide +kernel) rfl (by decide) (by decide) (afile := ['a'])
    (by decide) rfl e1 (inputsOf_iff.mp (by decide)) ?_
  intro lines hl text ht b t hw
  cases List.mem_singleton.mp hl
  have h1 := searchedIn_length ht
  obtain ⟨pre, post, e, _⟩ := hw
  have h2 : t.length ≤ text.length := by rw [e]; simp; omega
  have h3 : ((untilError exText2).map fun l => l.length + 1).sum ≤ 30 := by decide
  obtain ⟨qs, hqs⟩ := encodes_exists (alphabet := [["a".toList, "A".toList], ["b".toList]])
    (by unfold NoEmpty; decide) 3 t
  have hlen := encodes_length hqs
  have ha : (exNumbers exSearchW).variant.maxAnagramDistance = .absolute 3 := rfl
  refine ⟨qs, _, hqs, (allowed_iff ?_).mpr rfl, ?_⟩
  · rw [ha]
    show 3 ≤ 255
    decide
  · have : effectiveDistance exText.f32 qs.length (.absolute 3) ≤ 3 :=
      (effective_absolute exText.f32 qs.length 3 (by decide)).1.1
    rw [ha]
    show qs.length + effectiveDistance exText.f32 qs.length (.absolute 3) ≤ 255
    omega

/-- What is printed then. -/
example : (exToolT exLex6 exText2).main exSearchW [['t']] = .ok (.output
    ("ab\t0:2\tab\t1\t\ta\t0.5\t\tba\t0.5\t\nx\t4:5\nba\t6:8\tba\t1\t\ta\t0.5\t\tab\t0.5\t\n".toList ++
      "b\t10:11\n\naab\t1:4\tab\t0.5\t\na\t5:6\ta\t1\t\n".toList) []) := by decide +kernel

/-- A lexicon with a reserved word only. -/
example : (exToolT [some "<unk>\t1".toList] exText2).main exSearchW [['t']] = .ok (.output [] []) :=
  search_without_words (x := exToolT [some "<unk>\t1".toList] exText2) ex_noSemicolon ex_pos ex_marks
    (accepted_of (by decide) (by decide)) rfl (not_given (by decide))
    (by
      have : ∀ o ∈ [OptName.variants, .errors, .lm], ∀ g ∈ exSearchW.given, g.1 ≠ o := by decide
      exact fun o ho => not_given (this o ho))
    (exUsableW (es := [("<unk>".toList, 1)]) (.cons (exVocab (f := ['1']) (by decide) (by decide)) .nil)
      (by decide) (by decide))
    (exNumbersW _ _) (by decide) (inputs := [exText2]) (inputsOf_iff.mp (by decide))

end Verif.Props
