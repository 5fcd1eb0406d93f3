import Verif.Props.Divided
import Verif.Props.Resources

/-!
# What searches for stretches of words with all kinds of resources print (C101)
-/
namespace Verif.Props

open Verif.Spec Verif.Model Verif.Lemmas

/-! ## Models without a language model -/

theorem noLm_add {m m' : Vm} {t : List Char} {f : Option Nat} {p : VocabParams} {id : Nat} (hm : NoLm m)
    (hr : ¬ Reserved t) (hp : p.vocabType.lm = false) (h : m.addToVocabulary t f p = .ok (m', id)) :
    NoLm m' := by
  refine noLm_adds (ops := [.add t f p]) hm ?_ ?_
  · intro op hop
    exact ⟨t, f, p, List.mem_singleton.mp hop, hr, hp⟩
  · refine bind_ok.mpr ⟨m', bind_ok.mpr ⟨_, h, rfl⟩, rfl⟩

theorem noLm_link {m : Vm} (hm : NoLm m) (r v : Nat) (s : Rat) : NoLm (m.addVariantById r v s).1 := by
  refine ⟨(inv_addVariantById hm.inv r v s).1, ?_, ?_⟩
  · unfold Vm.addVariantById
    split <;> exact hm.ngrams
  · unfold Vm.addVariantById
    split
    · have key : ∀ (l : List VocabValue) (i : Nat) (f : VocabValue → VocabValue),
          (∀ w, (f w).vocabtype = w.vocabtype) → (∀ w ∈ l, w.vocabtype.lm = false) →
          ∀ w ∈ l.modify i f, w.vocabtype.lm = false := by
        intro l i f hf hl w hw
        obtain ⟨j, hj⟩ := List.getElem?_of_mem hw
        rw [List.getElem?_modify] at hj
        obtain ⟨w', hw', rfl⟩ := Option.map_eq_some_iff.mp hj
        split
        · rw [hf]
          exact hl _ (List.mem_of_getElem? hw')
        · exact hl _ (List.mem_of_getElem? hw')
      refine key _ _ _ ?_ (key _ _ _ ?_ hm.types)
      · intro w
        unfold linkVariant
        split
        · rfl
        · split <;> rfl
      · intro w
        unfold linkReference
        split
        · rfl
        · split <;> rfl
    · exact hm.types

theorem noLm_variants {p : VocabParams} {ref : Nat} {vs : List (List Char × Rat × Option Nat)}
    (hp : p.vocabType.lm = false) : ∀ {m m' : Vm}, NoLm m → (∀ v ∈ vs, ¬ Reserved v.1) →
    addVariants p ref m vs = .ok m' → NoLm m' := by
  induction vs with
  | nil => intro m m' hm _ h; cases h; exact hm
  | cons v vs ih =>
    intro m m' hm hr h
    obtain ⟨⟨m1, b⟩, h1, h2⟩ := bind_ok.mp h
    obtain ⟨⟨m2, id⟩, h3, h4⟩ := bind_ok.mp h1
    have h5 := congrArg Prod.fst (pure_ok.mp h4)
    simp only at h5
    refine ih ?_ (fun v hv => hr v (List.mem_cons_of_mem _ hv)) h2
    rw [← h5]
    exact noLm_link (noLm_add hm (hr v List.mem_cons_self) hp h3) _ _ _

theorem noLm_entries {p q : VocabParams} (hp : p.vocabType.lm = false) (hq : q.vocabType.lm = false)
    {es : List VariantEntry} : ∀ {m m' : Vm}, NoLm m →
    (∀ e ∈ es, ¬ Reserved e.reference ∧ ∀ v ∈ e.variants, ¬ Reserved v.1) →
    addEntries p q m es = .ok m' → NoLm m' := by
  induction es with
  | nil => intro m m' hm _ h; cases h; exact hm
  | cons e es ih =>
    intro m m' hm hr h
    obtain ⟨⟨m2, ref⟩, h3, h4⟩ := bind_ok.mp h
    obtain ⟨m3, h5, h6⟩ := bind_ok.mp h4
    obtain ⟨r1, r2⟩ := hr e List.mem_cons_self
    exact ih (noLm_variants hq (noLm_add hm r1 hp h3) r2 h5) (fun e he => hr e (List.mem_cons_of_mem _ he)) h6

theorem noLm_with {m m' : Vm} (hm : NoLm m) {fr : Bool}
    (e : m' = { m with lexicons := m'.lexicons, haveFreq := fr }) : NoLm m' := by
  rw [e]
  generalize m'.lexicons = lx
  have hi := hm.inv
  exact ⟨⟨hi.bij, hi.bos, hi.eos, hi.unk, hi.notIndexed, hi.tokens, hi.freqSum⟩, hm.ngrams, hm.types⟩

theorem noLm_resource {x : LoadExt} {r : Resource} {m m' : Vm} {i : Nat}
    {a : List (List Char × Option Nat × VocabParams)} (hm : NoLm m) (h : m.readResource x r = .ok m')
    (ha : Adds x i (sourceOf r) a) (hr : ∀ y ∈ a, ¬ Reserved y.1) : NoLm m' := by
  cases r with
  | lexicon f =>
    obtain ⟨ls, h1, h2⟩ := bind_ok.mp h
    obtain ⟨es, m1, g1, g2, g3⟩ := (read_vocabulary _ _ _ _ _).mp h2
    cases ha with
    | @lexicon _ lines es' f1 f2 =>
    rw [open_ok.mp h1] at f1
    cases f1
    cases vocabLines_unique g1 f2
    refine noLm_with (m' := m') (noLm_adds hm (fun op hop => ?_) g2)
      (fr := m.haveFreq || !es.isEmpty) (by rw [g3]; rfl)
    obtain ⟨e, he, rfl⟩ := List.mem_map.mp hop
    exact ⟨_, _, _, rfl, hr _ (List.mem_map.mpr ⟨e, he, rfl⟩), rfl⟩
  | variantList f =>
    obtain ⟨ls, h1, h2⟩ := bind_ok.mp h
    obtain ⟨es, m1, g1, g2, g3⟩ := (read_variants _ _ _ _ _ _ _).mp h2
    cases ha with
    | variants f1 f2 =>
    rw [open_ok.mp h1] at f1
    cases f1
    cases variantLines_unique g1 f2
    refine noLm_with (m' := m') (noLm_entries rfl rfl hm (fun e he => ?_) g2) (fr := m1.haveFreq) (by rw [g3])
    constructor
    · exact hr _ (List.mem_flatMap.mpr ⟨e, he, List.mem_cons_self⟩)
    · intro v hv
      exact hr _ (List.mem_flatMap.mpr ⟨e, he, List.mem_cons_of_mem _ (List.mem_map.mpr ⟨v, hv, rfl⟩)⟩)
  | errorList f =>
    obtain ⟨ls, h1, h2⟩ := bind_ok.mp h
    obtain ⟨es, m1, g1, g2, g3⟩ := (read_variants _ _ _ _ _ _ _).mp h2
    cases ha with
    | errors f1 f2 =>
    rw [open_ok.mp h1] at f1
    cases f1
    cases variantLines_unique g1 f2
    refine noLm_with (m' := m') (noLm_entries rfl rfl hm (fun e he => ?_) g2) (fr := m1.haveFreq) (by rw [g3])
    constructor
    · exact hr _ (List.mem_flatMap.mpr ⟨e, he, List.mem_cons_self⟩)
    · intro v hv
      exact hr _ (List.mem_flatMap.mpr ⟨e, he, List.mem_cons_of_mem _ (List.mem_map.mpr ⟨v, hv, rfl⟩)⟩)

theorem noLm_all {x : LoadExt} {rs : List Resource} : ∀ {m m' : Vm} {i : Nat}
    {as : List (List (List Char × Option Nat × VocabParams))}, NoLm m → m.readResources x rs = .ok m' →
    AddsAll x i (rs.map sourceOf) as → (∀ a ∈ as.flatten, ¬ Reserved a.1) → NoLm m' := by
  induction rs with
  | nil => intro m m' i as hm h _ _; cases h; exact hm
  | cons r rs ih =>
    intro m m' i as hm h has hr
    obtain ⟨m1, k1, k2⟩ := bind_ok.mp h
    cases has with
    | @cons _ _ _ a as' h1 h2 =>
    exact ih (noLm_resource hm k1 h1 fun y hy => hr y (by simp [hy])) k2 h2 fun y hy => hr y (by
      rw [List.flatten_cons]
      exact List.mem_append_right _ hy)

theorem noLm_build {m m' : Vm} {o : Orders} (hm : NoLm m) (h : m.build o = .ok m') :
    NoLm m' ∧ m'.haveLm = false := by
  have hinv := (inv_build hm.inv h).1
  have hdec := (inv_build hm.inv h).2.2.1
  obtain ⟨mi, i1, i2⟩ := bind_ok.mp h
  have e := buildIndex_cases i1
  obtain ⟨ml, j1, j2, _⟩ := buildLm_cases i2
  have hd : ∀ v ∈ mi.decoder, v.vocabtype.lm = false := by
    rw [e]; exact hm.types
  rw [noLm_loop hd j1] at j2
  have hg : mi.ngrams = [] := by rw [e]; exact hm.ngrams
  refine ⟨⟨hinv, ?_, by rw [hdec]; exact hm.types⟩, ?_⟩
  · rw [j2]
    exact hg
  · rw [j2, hg]
    rfl

/-- Without language models, and without reserved words in lexicons and lists, there is no language model. -/
theorem noLm_sources {x : LoadExt} {args : LoadArgs} {o : Orders} {L : Loaded}
    (h : x.load args o = .ok L) (hlm : args.lm = [])
    {as : List (List (List Char × Option Nat × VocabParams))} (has : AddsAll x 0 (sourcesOf args) as)
    (hr : ∀ a ∈ as.flatten, ¬ Reserved a.1) : NoLm L.vm ∧ L.vm.haveLm = false := by
  unfold sourcesOf at has
  rw [hlm, List.map_nil, List.append_nil] at has
  unfold LoadExt.load at h
  obtain ⟨m0, h0, h⟩ := bind_ok.mp h
  obtain ⟨m1, h1, h⟩ := bind_ok.mp h
  obtain ⟨m2, h2, h⟩ := bind_ok.mp h
  obtain ⟨cs, h3, h⟩ := bind_ok.mp h
  obtain ⟨book, h4, h⟩ := bind_ok.mp h
  obtain ⟨m3, h5, h⟩ := bind_ok.mp h
  cases pure_ok.mp h
  obtain ⟨lines, g0, g1⟩ := bind_ok.mp h0
  cases pure_ok.mp g1
  rw [hlm] at h2
  cases h2
  have hn : NoLm m1 := by
    refine noLm_all ⟨inv_new _, rfl, ?_⟩ h1 has hr
    intro v hv
    simp only [Vm.new, List.mem_cons, List.not_mem_nil, or_false] at hv
    rcases hv with rfl | rfl | rfl <;> rfl
  exact noLm_build hn h5

theorem noLm_loaded {x : LoadExt} {args : LoadArgs} {o : Orders} {L : Loaded}
    (h : x.load args o = .ok L) (hlm : args.lm = [])
    {as : List (List (List Char × Option Nat × VocabParams))} (has : AddsAll x 0 (sourcesOf args) as)
    (hr : ∀ a ∈ as.flatten, ¬ Reserved a.1) : L.vm.haveLm = false :=
  (noLm_sources h hlm has hr).2

/-! ## Words and links of the lists -/

theorem adds_indexed {x : LoadExt} {i : Nat} {r : Resource} {a : List (List Char × Option Nat × VocabParams)}
    (h : Adds x i (sourceOf r) a) : ∀ y ∈ a, y.2.2.vocabType.indexed = true := by
  intro y hy
  cases r with
  | lexicon f =>
    cases h with
    | lexicon _ _ =>
      obtain ⟨e, _, rfl⟩ := List.mem_map.mp hy
      rfl
  | variantList f =>
    cases h with
    | variants _ _ =>
      obtain ⟨e, _, hy⟩ := List.mem_flatMap.mp hy
      rcases List.mem_cons.mp hy with rfl | hy
      · rfl
      · obtain ⟨v, _, rfl⟩ := List.mem_map.mp hy
        rfl
  | errorList f =>
    cases h with
    | errors _ _ =>
      obtain ⟨e, _, hy⟩ := List.mem_flatMap.mp hy
      rcases List.mem_cons.mp hy with rfl | hy
      · rfl
      · obtain ⟨v, _, rfl⟩ := List.mem_map.mp hy
        rfl

theorem addsAll_indexed {x : LoadExt} {rs : List Resource} : ∀ {i : Nat}
    {as : List (List (List Char × Option Nat × VocabParams))}, AddsAll x i (rs.map sourceOf) as →
    ∀ y ∈ as.flatten, y.2.2.vocabType.indexed = true := by
  induction rs with
  | nil => intro i as h y hy; cases h; cases hy
  | cons r rs ih =>
    intro i as h y hy
    cases h with
    | cons h1 h2 =>
      rw [List.flatten_cons] at hy
      rcases List.mem_append.mp hy with hy | hy
      · exact adds_indexed h1 y hy
      · exact ih h2 y hy

/-- References are words of the lists. -/
theorem gives_added {x : LoadExt} {ss : List Source} : ∀ {i : Nat}
    {as : List (List (List Char × Option Nat × VocabParams))}
    {kss : List (List (List Char × List Char × Rat))}, AddsAll x i ss as → List.Forall₂ (Gives x) ss kss →
    ∀ k ∈ kss.flatten, ∃ a ∈ as.flatten, a.1 = k.1 := by
  induction ss with
  | nil => intro i as kss _ h k hk; cases h; cases hk
  | cons s ss ih =>
    intro i as kss ha h k hk
    cases ha with
    | @cons _ _ _ a as' a1 a2 =>
    cases h with
    | @cons _ ks _ kss' k1 k2 =>
      rw [List.flatten_cons] at hk ⊢
      rcases List.mem_append.mp hk with hk | hk
      · obtain ⟨b, hb, e⟩ : ∃ b ∈ a, b.1 = k.1 := by
          have key : ∀ (es es' : List VariantEntry) (q : VocabParams), es' = es →
              k ∈ (es.flatMap fun e => e.variants.map fun v => (e.reference, v.1, v.2.1)) →
              ∃ b ∈ (es'.flatMap fun e => (e.reference, e.freq, { index := i % 256 }) ::
                e.variants.map fun v => (v.1, v.2.2, q)), b.1 = k.1 := by
            rintro es _ q rfl hk
            obtain ⟨e, he, hk⟩ := List.mem_flatMap.mp hk
            obtain ⟨v, _, rfl⟩ := List.mem_map.mp hk
            exact ⟨_, List.mem_flatMap.mpr ⟨e, he, List.mem_cons_self⟩, rfl⟩
          cases k1 with
          | lexicon => cases hk
          | lm => cases hk
          | variants f1 f2 =>
            cases a1 with
            | variants g1 g2 =>
              rw [f1] at g1
              cases g1
              exact key _ _ _ (variantLines_unique g2 f2) hk
          | errors f1 f2 =>
            cases a1 with
            | errors g1 g2 =>
              rw [f1] at g1
              cases g1
              exact key _ _ _ (variantLines_unique g2 f2) hk
        exact ⟨b, List.mem_append_left _ hb, e⟩
      · obtain ⟨b, hb, e⟩ := ih a2 k2 k hk
        exact ⟨b, List.mem_append_right _ hb, e⟩

/-- What is loaded without language models and context rules, and what is suggested with it. -/
theorem resources_searchable {x : ToolExt} (hmarks : MarksOk x.load.isSpace) (hb : x.load.isSpace '\\' = false)
    {c : CommandLine} (hc : Accepted c) (hplain : ∀ o ∈ [OptName.lm, .contextrules], ¬ Given c o)
    {as : List (List (List Char × Option Nat × VocabParams))} {w : Weights} {p : TextParams}
    (hfiles : UsableFiles x c as) (hnum : UsableNumbers x c w p) (hfw : 0 ≤ p.variant.freqWeight)
    (hwords : as.flatten ≠ []) (hr : ∀ a ∈ as.flatten, ¬ Reserved a.1)
    {afile : List Char} {alines : List (Option (List Char))} {alphabet : Alphabet}
    (ha : (.alphabet, afile) ∈ c.given) (hal : x.load.file afile = some alines)
    (hae : List.Forall₂ (AlphabetLine x.load.isSpace) (nonEmpty alines) alphabet)
    {kss : List (List (List Char × List Char × Rat))}
    (hk : List.Forall₂ (Gives x.load) (sourcesGiven c) kss)
    {cs : List Confusable} (hcs : ConfusablesGiven x c cs)
    {early : Bool} (hearly : early = true ↔ Given c .earlyConfusables) :
    ∃ L, Asked x c L w p ∧ Inv L.vm ∧ L.vm.haveLm = false ∧ L.vm.index.isEmpty = false ∧ L.book.rules = [] ∧
      (x.config c L w).toConfig = ⟨w, cs, early, x.editScript⟩ ∧
      (∀ v ∈ L.vm.decoder, ∀ t s, VariantReference.variantOf t s ∈ v.variants.getD [] →
        ∃ k ∈ kss.flatten, s = k.2.2) ∧
      ∀ l, l ≠ [] → ShortEnough x.text alphabet p.variant l → ∃ vs us,
        L.vm.findVariants x.text.toExt (x.config c L w).toConfig p.variant l = .ok vs ∧
        Suggestions x.text alphabet (lexisFrom (sourcesGiven c) as kss) ⟨w, cs, early, x.editScript⟩
          p.variant l us ∧
        List.Forall₂ (fun v u => SuggestedBy L.vm v u ∧ (∃ col, VariantColumns x c L p v col ∧
            SuggestionColumn x c ((sourcesGiven c).map Source.name) as p.variant u col) ∧
            ∀ j, VariantObject x c L p v j →
              SuggestionObject x c ((sourcesGiven c).map Source.name) as p.variant u j) vs us := by
  have hn0 : ∀ {o}, ¬ Given c o →
      (c.given.filterMap fun g => if g.1 = o then some g.2 else none) = [] := by
    intro o ho
    rw [List.filterMap_eq_nil_iff]
    intro g hg
    rw [if_neg]
    intro e
    exact ho ⟨g.2, e ▸ hg⟩
  have hss : sourcesGiven c = (c.given.filterMap resourceOf).map sourceOf := by
    unfold sourcesGiven
    rw [hn0 (hplain .lm (by simp)), List.map_nil, List.append_nil]
  have hadds : AddsAll x.load 0 (sourcesGiven c) as := by
    obtain ⟨args, hnamed, hload⟩ := hfiles.1
    have := hload.words
    unfold sourcesOf at this
    rw [hnamed.resources, hnamed.lm] at this
    exact this
  have hrefs : ∀ k ∈ kss.flatten, ¬ Reserved k.1 := by
    intro k hk'
    obtain ⟨a, ha, e⟩ := gives_added hadds hk k hk'
    exact e ▸ hr a ha
  obtain ⟨args, L, asked, hL, hrules, hsrc, hsz, has, hcfg, halpha, hdesc, find⟩ :=
    resources_listed hmarks hb hc hfiles hnum hfw ha hal hae hk hrefs hcs hearly
  obtain ⟨_, ops, _, _, _, _, hrun, _⟩ := loaded_history hL
  have hinv : Inv L.vm := (inv_run (inv_new _) hrun).1
  have hargs : args.lm = [] := by
    cases e : args.lm with
    | nil => rfl
    | cons f fs =>
      have : Source.lm f ∈ sourcesGiven c := by
        rw [← hsrc]
        unfold sourcesOf
        rw [e]
        simp
      rw [hss] at this
      obtain ⟨r, _, h⟩ := List.mem_map.mp this
      cases r <;> cases h
  have hlm := noLm_loaded hL hargs has hr
  have hidx : L.vm.index.isEmpty = false := by
    obtain ⟨a, ha⟩ := List.exists_mem_of_ne_nil _ hwords
    have hsome : (as.flatten.find? fun b => b.1 = a.1).isSome = true :=
      List.find?_isSome.mpr ⟨a, ha, by simp⟩
    obtain ⟨b, hb⟩ := Option.isSome_iff_exists.mp hsome
    have hi : (lexisFrom (sourcesGiven c) as kss).indexed a.1 :=
      ⟨hr a ha, b, hb, addsAll_indexed (hss ▸ hadds) b (List.mem_of_find?_eq_some hb)⟩
    obtain ⟨v, hv, _, k4⟩ := (hdesc.indexed _).mp hi
    obtain ⟨id, k1⟩ := List.getElem?_of_mem hv
    rw [check_indexed'] at k4
    obtain ⟨k, node, _, hk⟩ := (built_of_run hrun).complete id v k1 k4
    rw [← Bool.not_eq_true]
    intro he
    rw [List.isEmpty_iff.mp he] at hk
    cases hk
  have hrb : L.book.rules = [] := by
    have h0 : args.contextrules = [] := by rw [hrules]; exact hn0 (hplain .contextrules (by simp))
    unfold LoadExt.load at hL
    obtain ⟨_, _, h⟩ := bind_ok.mp hL
    obtain ⟨_, _, h⟩ := bind_ok.mp h
    obtain ⟨_, _, h⟩ := bind_ok.mp h
    obtain ⟨_, _, h⟩ := bind_ok.mp h
    obtain ⟨bk, h4, h⟩ := bind_ok.mp h
    obtain ⟨_, _, h⟩ := bind_ok.mp h
    cases pure_ok.mp h
    rw [h0] at h4
    cases h4
    rfl
  refine ⟨L, asked, hinv, hlm, hidx, hrb, hcfg, ?_, ?_⟩
  · intro v hv t s ht
    have known := known_load hL has (hsrc ▸ hk)
    obtain ⟨id, hid⟩ := List.getElem?_of_mem hv
    obtain ⟨l, hl, i, e, _⟩ := mem_of_forall₂_left (known.links id v hid) (List.mem_filter.mpr ⟨ht, rfl⟩)
    cases e
    obtain ⟨k, hk', rfl⟩ := List.mem_map.mp hl
    exact ⟨k, (List.mem_filter.mp (List.mem_filter.mp hk').1).1, rfl⟩
  · rw [hcfg]
    exact find

/-- What is suggested for each text, as a function. -/
theorem suggested_function {β : Type} {R : β → List Suggestion → Prop} {F : List Char → β → Prop}
    {S : List Char → List Suggestion → Prop} {A : List Char → Prop}
    (find : ∀ t, t ≠ [] → A t → ∃ vs us, F t vs ∧ S t us ∧ R vs us) :
    ∃ found : List Char → List Suggestion, ∀ t, t ≠ [] → A t →
      S t (found t) ∧ ∃ vs, F t vs ∧ R vs (found t) := by
  have : ∀ t, ∃ l : List Suggestion, t ≠ [] → A t → S t l ∧ ∃ vs, F t vs ∧ R vs l := by
    intro t
    by_cases ht : t ≠ [] ∧ A t
    · obtain ⟨vs, us, h1, h2, h3⟩ := find t ht.1 ht.2
      exact ⟨us, fun _ _ => ⟨h2, vs, h1, h3⟩⟩
    · exact ⟨[], fun h1 h2 => absurd ⟨h1, h2⟩ ht⟩
  choose found h using this
  exact ⟨found, h⟩

/-! ## C101 -/

/-- **C101**: with lexicons, variant lists, error lists and confusables (no language model and no context
rules), and without `--json`, a search for stretches of several words ends normally and prints, for each group
of lines, the rows of a division of the text at least cost, with what is suggested for each stretch.  The
lists must not have reserved words, scores of variants must be between 0 and 1, and confusables may
raise a score by nine tenths at most.  (The cost is least as far as sums in floating point can tell, `Reckons`.) -/
theorem search_prints_suggestions {x : ToolExt} (hf : ∀ s, ';' ∈ s → x.parseF32 s = none)
    (hpos : StrictMono x.pos) (hmarks : MarksOk x.load.isSpace) (hb : x.load.isSpace '\\' = false)
    (hsp : x.text.isAlpha ' ' = false)
    {c : CommandLine} (hc : Accepted c) (hsub : c.sub = .search)
    (hplain : ∀ o ∈ [OptName.json, .lm, .contextrules], ¬ Given c o)
    {as : List (List (List Char × Option Nat × VocabParams))} {w : Weights} {p : TextParams}
    (hfiles : UsableFiles x c as) (hnum : UsableNumbers x c w p) {u : Rat} {d : Nat → Rat}
    (hx : Reckons x.text p.variant.freqWeight u d) (hwt : WeightsOk x.text.f64 w)
    (hfw : 0 ≤ p.variant.freqWeight) (hn : 2 ≤ p.maxNgram) (hseq : 1 ≤ p.maxSeq)
    (hwords : as.flatten ≠ []) (hr : ∀ a ∈ as.flatten, ¬ Reserved a.1)
    {afile : List Char} {alines : List (Option (List Char))} {alphabet : Alphabet}
    (ha : (.alphabet, afile) ∈ c.given) (hal : x.load.file afile = some alines)
    (hae : List.Forall₂ (AlphabetLine x.load.isSpace) (nonEmpty alines) alphabet)
    {kss : List (List (List Char × List Char × Rat))}
    (hk : List.Forall₂ (Gives x.load) (sourcesGiven c) kss)
    (hks : ∀ k ∈ kss.flatten, 0 ≤ k.2.2 ∧ k.2.2 ≤ 1)
    {cs : List Confusable} (hcs : ConfusablesGiven x c cs) (hmild : MildConfusables x.text.f64 cs)
    {early : Bool} (hearly : early = true ↔ Given c .earlyConfusables)
    {files : List (List Char)}
    {inputs : List (List (Option (List Char)))} (hin : InputsOf x files inputs)
    (hlines : ∀ lines ∈ inputs, ∀ text, SearchedIn c lines text →
      ShortRuns x.text alphabet p.variant p.maxNgram text) :
    ∃ found, (∀ t, t ≠ [] → ShortEnough x.text alphabet p.variant t →
        Suggestions x.text alphabet (lexisFrom (sourcesGiven c) as kss) ⟨w, cs, early, x.editScript⟩
          p.variant t (found t)) ∧
      ∃ texts, List.Forall₂ (DividedText x c (slack u d) Suggestion.score
          (Suggestion.overall x.text.f64 p.variant.freqWeight)
          (SuggestionColumn x c ((sourcesGiven c).map Source.name) as p.variant) p.maxNgram found) inputs texts ∧
        x.main c files = .ok (.output texts.flatten []) := by
  obtain ⟨L, asked, hinv, hlm, hidx, hrb, hcfg, hlinks, find⟩ := resources_searchable hmarks hb hc
    (fun o ho => hplain o (List.mem_cons_of_mem _ ho)) hfiles hnum hfw hwords hr ha hal hae hk hcs hearly
  obtain ⟨found, hfound⟩ := suggested_function find
  refine ⟨found, fun t h1 h2 => (hfound t h1 h2).1, ?_⟩
  refine search_divides hf hpos hsp hc hsub (hplain .json (by simp)) hnum hx hn hseq asked
    hinv hlm hrb hidx ?_ (fun t h1 h2 => ?_) hin hlines
  · intro t vs hv v hm
    have hconf : L.confusables = cs := congrArg Config.confusables hcfg
    refine variant_scores_le (cfg := x.config c L w) hx.close64 hx.unit hx.weight hwt
      (show MildConfusables x.text.f64 L.confusables from hconf ▸ hmild) ?_ hfw t vs hv v hm
    intro v hv t s ht
    obtain ⟨k, hk', rfl⟩ := hlinks v hv t s ht
    exact hks k hk'
  · obtain ⟨vs, h3, h4⟩ := (hfound t h1 h2).2
    refine ⟨vs, h3, h4.imp fun v u h => ⟨⟨h.1.score, ?_⟩, h.2.1⟩⟩
    unfold VariantResult.score Suggestion.overall
    rw [h.1.score, h.1.freq]

/-! ## C102 -/

/-- **C102**: with lexicons, variant lists, error lists and confusables (no language model and no context
rules), for single words, and without `--json`, a search prints for each word of the text, in order, the word,
its offsets and what is suggested for it.  The lists must not have reserved words; the words of the text must
not be too long. -/
theorem search_prints_word_suggestions {x : ToolExt} (hf : ∀ s, ';' ∈ s → x.parseF32 s = none)
    (hpos : StrictMono x.pos) (hmarks : MarksOk x.load.isSpace) (hb : x.load.isSpace '\\' = false)
    (hsp : x.text.isAlpha ' ' = false)
    {c : CommandLine} (hc : Accepted c) (hsub : c.sub = .search)
    (hplain : ∀ o ∈ [OptName.json, .lm, .contextrules], ¬ Given c o)
    {as : List (List (List Char × Option Nat × VocabParams))} {w : Weights} {p : TextParams}
    (hfiles : UsableFiles x c as) (hnum : UsableNumbers x c w p)
    (hfw : 0 ≤ p.variant.freqWeight) (hn : p.maxNgram = 1)
    (hwords : as.flatten ≠ []) (hr : ∀ a ∈ as.flatten, ¬ Reserved a.1)
    {afile : List Char} {alines : List (Option (List Char))} {alphabet : Alphabet}
    (ha : (.alphabet, afile) ∈ c.given) (hal : x.load.file afile = some alines)
    (hae : List.Forall₂ (AlphabetLine x.load.isSpace) (nonEmpty alines) alphabet)
    {kss : List (List (List Char × List Char × Rat))}
    (hk : List.Forall₂ (Gives x.load) (sourcesGiven c) kss)
    {cs : List Confusable} (hcs : ConfusablesGiven x c cs)
    {early : Bool} (hearly : early = true ↔ Given c .earlyConfusables)
    {files : List (List Char)}
    {inputs : List (List (Option (List Char)))} (hin : InputsOf x files inputs)
    (hlines : ∀ lines ∈ inputs, ∀ text, SearchedIn c lines text → ∀ b t, WordAt x.text.isAlpha text b t →
      ShortEnough x.text alphabet p.variant t) :
    ∃ texts, List.Forall₂ (WordsText x c (SuggestionColumns x c alphabet (lexisFrom (sourcesGiven c) as kss)
        ⟨w, cs, early, x.editScript⟩ as p.variant)) inputs texts ∧
      x.main c files = .ok (.output texts.flatten []) := by
  obtain ⟨L, asked, hinv, hlm, hidx, hrb, hcfg, hlinks, find⟩ := resources_searchable hmarks hb hc
    (fun o ho => hplain o (List.mem_cons_of_mem _ ho)) hfiles hnum hfw hwords hr ha hal hae hk hcs hearly
  refine search_words hf hpos hsp hc hsub (hplain .json (by simp)) hnum hn asked hlm hrb hidx ?_ hin hlines
  intro t h1 h2
  obtain ⟨vs, us, h3, h4, h5⟩ := find t h1 h2
  obtain ⟨cols, h6, h7⟩ : ∃ cols, List.Forall₂ (VariantColumns x c L p) vs cols ∧
      List.Forall₂ (SuggestionColumn x c ((sourcesGiven c).map Source.name) as p.variant) us cols := by
    clear h3 h4
    induction h5 with
    | nil => exact ⟨[], .nil, .nil⟩
    | cons h _ ih =>
      obtain ⟨cols, i1, i2⟩ := ih
      obtain ⟨_, ⟨col, c1, c2⟩, _⟩ := h
      exact ⟨col :: cols, .cons c1 i1, .cons c2 i2⟩
  exact ⟨vs, cols, h3, h6, us, h4, h7⟩

/-! ### Examples -/

/-- `search --alphabet a --errors e --lexicon l --variants v --confusables c --early-confusables
--output-lexmatch --max-ngram-order 2 --score-threshold 0.0 --cutoff-threshold 0.0` -/
def exSearchE : CommandLine :=
  { sub := .search, debug := none
    given := [(.alphabet, ['a']), (.errors, ['e']), (.lexicon, ['l']), (.variants, ['v']),
      (.confusables, ['c']), (.earlyConfusables, []), (.outputLexmatch, []), (.maxNgramOrder, ['2']),
      (.scoreThreshold, "0.0".toList), (.cutoffThreshold, "0.0".toList)] }

theorem exShort30 {x : TextExt} {c : CommandLine} (ha : (exNumbers c).variant.maxAnagramDistance = .absolute 3)
    {t : List Char} (ht : t.length ≤ 30) :
    ShortEnough x [["a".toList, "A".toList], ["b".toList]] (exNumbers c).variant t := by
  obtain ⟨qs, hqs⟩ := encodes_exists (alphabet := [["a".toList, "A".toList], ["b".toList]])
    (by unfold NoEmpty; decide) 3 t
  have hlen := encodes_length hqs
  refine ⟨qs, _, hqs, (allowed_iff ?_).mpr rfl, ?_⟩
  · rw [ha]
    show 3 ≤ 255
    decide
  · have : effectiveDistance x.f32 qs.length (.absolute 3) ≤ 3 :=
      (effective_absolute x.f32 qs.length 3 (by decide)).1.1
    rw [ha]
    show qs.length + effectiveDistance x.f32 qs.length (.absolute 3) ≤ 255
    omega

/-- A search in `ab`, and in `ab b` and `bb`, which are joined. -/
example : ∃ found, (∀ t, t ≠ [] → ShortEnough exText [["a".toList, "A".toList], ["b".toList]]
        (exNumbers exSearchE).variant t →
      Suggestions exText [["a".toList, "A".toList], ["b".toList]]
        (lexisFrom [.errors ['e'], .lexicon ['l'], .variants ['v']] (exAdded.take 3) exLinksE)
        ⟨⟨1 / 2, 1 / 8, 1 / 8, 1 / 8, 1 / 8⟩, exLoaded.confusables, true, exToolR.editScript⟩
        (exNumbers exSearchE).variant t (found t)) ∧
    ∃ texts, List.Forall₂ (DividedText exToolR exSearchE (fun _ => 0) Suggestion.score
        (Suggestion.overall exText.f64 (exNumbers exSearchE).variant.freqWeight)
        (SuggestionColumn exToolR exSearchE [['e'], ['l'], ['v']] (exAdded.take 3)
          (exNumbers exSearchE).variant) (exNumbers exSearchE).maxNgram found)
        [[some "ab".toList], exToolR.stdin] texts ∧
      exToolR.main exSearchE [['q'], ['-']] = .ok (.output texts.flatten []) := by
  obtain ⟨entries, e1, e2, _⟩ := read_alphabet_entries (isSpace := exToolR.load.isSpace) rfl []
    [some "a\tA".toList, some ['b']]
  have he : entries = [["a".toList, "A".toList], ["b".toList]] := by
    rw [List.nil_append] at e2
    rw [← e2]
    decide
  rw [he] at e1
  rw [← slack_zero]
  refine search_prints_suggestions (x := exToolR) (c := exSearchE) ex_noSemicolon ex_pos ex_marks rfl rfl
    (accepted_of (by decide) (by decide)) rfl
    (by
      have : ∀ o ∈ [OptName.json, .lm, .contextrules], ∀ g ∈ exSearchE.given, g.1 ≠ o := by decide
      exact fun o ho => not_given (this o ho))
    ⟨⟨{ exArgs with lm := [] }, by constructor <;> decide, exLoadableQuery⟩, by decide⟩
    (exUsableNumbers (accepted_of (by decide) (by decide)) rfl (by decide +kernel) rfl
      (exSome exTextParams (by decide +kernel)) (.inl (by decide +kernel)))
    (exText_reckons _) ?_ (by decide +kernel) (show 2 ≤ 2 by decide) (by decide +kernel)
    (by decide) (by unfold Reserved; decide) (afile := ['a']) (by decide) rfl e1
    (kss := exLinksE) exGivesE (by decide +kernel) (exConfusablesE (by decide)) ?_
    (early := true) (by simp only [true_iff]; exact ⟨[], by decide⟩)
    (inputs := [[some "ab".toList], exToolR.stdin]) (inputsOf_iff.mp (by decide)) ?_
  · constructor <;> first | exact ⟨by norm_num, rfl⟩ | decide +kernel
  · constructor <;> decide +kernel
  intro lines hl text ht segs r hs hr _ _
  have h1 := searchedIn_length ht
  have h2 : (stretch r).length ≤ text.length := by
    obtain ⟨a, b, e⟩ := hr
    refine le_trans (stretch_prefix_flat r).length_le ?_
    rw [← hs.text_eq, ← e, flat_append, flat_append]
    simp
    omega
  have h3 : ((untilError lines).map fun l => l.length + 1).sum ≤ 30 := by
    simp only [List.mem_cons, List.not_mem_nil, or_false] at hl
    rcases hl with rfl | rfl <;> decide
  exact exShort30 rfl (by omega)

/-- What is printed: `b` for the error `bb`. -/
example : exToolR.main exSearchE [['q'], ['-']] = .ok (.output
    ("ab\t0:2\tab\t1\t\t\"l;v\"\tb\t0.5\t\t\"e;l\"\tba\t0.5\t\t\"v\"\tab\t0.5\t\t\"l;v\"\n".toList ++
      "ab\t0:2\tab\t1\t\t\"l;v\"\tb\t0.5\t\t\"e;l\"\tba\t0.5\t\t\"v\"\tab\t0.5\t\t\"l;v\"\n".toList ++
      "b\t3:4\tb\t1\t\t\"e;l\"\nbb\t5:7\tb\t0.5\t\t\"e;l\"\n".toList) []) := by
  decide +kernel

/-- `search --alphabet a --errors e --lexicon l --variants v --confusables c --max-ngram-order 1 --stop-exact
--per-line` -/
def exSearchE1 : CommandLine :=
  { sub := .search, debug := none
    given := [(.alphabet, ['a']), (.errors, ['e']), (.lexicon, ['l']), (.variants, ['v']),
      (.confusables, ['c']), (.maxNgramOrder, ['1']), (.stopExact, []), (.perLine, [])] }

/-- A search for single words. -/
example : ∃ texts, List.Forall₂ (WordsText exToolR exSearchE1 (SuggestionColumns exToolR exSearchE1
        [["a".toList, "A".toList], ["b".toList]]
        (lexisFrom [.errors ['e'], .lexicon ['l'], .variants ['v']] (exAdded.take 3) exLinksE)
        ⟨⟨1 / 2, 1 / 8, 1 / 8, 1 / 8, 1 / 8⟩, exLoaded.confusables, false, exToolR.editScript⟩
        (exAdded.take 3) (exNumbers exSearchE1).variant)) [[some "ab".toList], exToolR.stdin] texts ∧
      exToolR.main exSearchE1 [['q'], ['-']] = .ok (.output texts.flatten []) := by
  obtain ⟨entries, e1, e2, _⟩ := read_alphabet_entries (isSpace := exToolR.load.isSpace) rfl []
    [some "a\tA".toList, some ['b']]
  have he : entries = [["a".toList, "A".toList], ["b".toList]] := by
    rw [List.nil_append] at e2
    rw [← e2]
    decide
  rw [he] at e1
  refine search_prints_word_suggestions (x := exToolR) (c := exSearchE1) ex_noSemicolon ex_pos ex_marks rfl rfl
    (accepted_of (by decide) (by decide)) rfl
    (by
      have : ∀ o ∈ [OptName.json, .lm, .contextrules], ∀ g ∈ exSearchE1.given, g.1 ≠ o := by decide
      exact fun o ho => not_given (this o ho))
    ⟨⟨{ exArgs with lm := [] }, by constructor <;> decide, exLoadableQuery⟩, by decide⟩
    (exUsableNumbers (accepted_of (by decide) (by decide)) rfl (by decide +kernel) rfl
      (exSome exTextParams (by decide +kernel)) (.inr (by decide +kernel)))
    (by decide +kernel) rfl
    (by decide) (by unfold Reserved; decide) (afile := ['a']) (by decide) rfl e1
    (kss := exLinksE) exGivesE (exConfusablesE (by decide))
    (early := false) (by simp only [Bool.false_eq_true, false_iff]; exact not_given (by decide))
    (inputs := [[some "ab".toList], exToolR.stdin]) (inputsOf_iff.mp (by decide)) ?_
  intro lines hl text ht b t hw
  have h1 := searchedIn_length ht
  obtain ⟨pre, post, e, _⟩ := hw
  have h2 : t.length ≤ text.length := by rw [e]; simp; omega
  have h3 : ((untilError lines).map fun l => l.length + 1).sum ≤ 30 := by
    simp only [List.mem_cons, List.not_mem_nil, or_false] at hl
    rcases hl with rfl | rfl <;> decide
  exact exShort30 rfl (by omega)

example : exToolR.main exSearchE1 [['q'], ['-']] = .ok (.output
    "ab\t0:2\tab\t1\t\nab\t0:2\tab\t1\t\nb\t3:4\tb\t1\t\n\nbb\t0:2\tb\t0.5\t\n".toList []) := by
  decide +kernel

end Verif.Props
