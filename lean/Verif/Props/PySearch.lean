import Verif.Spec.PySearch
import Verif.Props.PySuggest
import Verif.Props.DividedAll

/-!
# What a Python program is told about the words of a text (C121)
-/
namespace Verif.Props

open Verif.Spec Verif.Model Verif.Lemmas

/-! ## Programs without language model and rules -/

theorem noLm_step {m m' : Vm} {op : Op} (hm : NoLm m) (hl : NoLearning [op])
    (hops : ∀ t, ∀ y ∈ additions t [op], ¬ Reserved t ∧ y.2.vocabType.lm = false) (h : m.step op = .ok m') :
    NoLm m' := by
  cases op with
  | add t f p =>
    obtain ⟨⟨m1, id⟩, h1, h2⟩ := bind_ok.mp h
    cases pure_ok.mp h2
    obtain ⟨r1, r2⟩ := hops t (f, p) (by simp [additions])
    exact noLm_add hm r1 r2 h1
  | addVariant r t s f p =>
    obtain ⟨⟨m1, b⟩, h1, h2⟩ := bind_ok.mp h
    cases pure_ok.mp h2
    obtain ⟨⟨m2, id⟩, h3, h4⟩ := bind_ok.mp h1
    have h5 := congrArg Prod.fst (pure_ok.mp h4)
    simp only at h5
    obtain ⟨r1, r2⟩ := hops t (f, p) (by simp [additions])
    rw [← h5]
    exact noLm_link (noLm_add hm r1 r2 h3) _ _ _
  | addVariantById r v s =>
    cases h
    exact noLm_link hm _ _ _
  | build o => exact (noLm_build hm h).1
  | learn fs a o => exact (hl fs a o List.mem_cons_self).elim
  | freq =>
    cases h
    exact noLm_with hm rfl
  | lexicon n =>
    cases h
    exact noLm_with hm rfl

theorem noLm_run {ops : List Op} : ∀ {m m' : Vm}, NoLm m → NoLearning ops →
    (∀ t, ∀ y ∈ additions t ops, ¬ Reserved t ∧ y.2.vocabType.lm = false) → m.run ops = .ok m' → NoLm m' := by
  induction ops with
  | nil => intro m m' hm _ _ h; cases h; exact hm
  | cons op ops ih =>
    intro m m' hm hl hops h
    obtain ⟨m1, h1, h2⟩ := bind_ok.mp h
    have key : ∀ t, additions t (op :: ops) = additions t [op] ++ additions t ops :=
      fun t => additions_append t [op] ops
    refine ih (noLm_step hm ?_ (fun t y hy => hops t y (by rw [key]; exact List.mem_append_left _ hy)) h1) ?_
      (fun t y hy => hops t y (by rw [key]; exact List.mem_append_right _ hy)) h2
    · intro f a o hm
      exact hl f a o (by rw [List.mem_singleton.mp hm]; exact List.mem_cons_self)
    · exact fun f a o hm => hl f a o (List.mem_cons_of_mem _ hm)

theorem rules_calls {x : LoadExt} {cs : List PyCall} : ∀ {L L' : Loaded}, NoRules cs →
    L.calls x cs = .ok L' → L'.book = L.book := by
  induction cs with
  | nil => intro L L' _ h; cases h; rfl
  | cons c cs ih =>
    intro L L' hn h
    obtain ⟨⟨L1, ok⟩, h1, h2⟩ := bind_ok.mp h
    rw [ih (fun c hc => hn c (List.mem_cons_of_mem _ hc)) h2]
    have into : ∀ {f : List Char} {read : Vm → List (Option (List Char)) → Res Vm},
        L.readInto x f read = .ok (L1, ok) → L1.book = L.book := by
      intro f read h
      unfold Loaded.readInto at h
      cases hx : x.file f with
      | none => rw [hx] at h; cases h; rfl
      | some lines =>
        rw [hx] at h
        obtain ⟨m, _, h⟩ := bind_ok.mp h
        cases pure_ok.mp h
        rfl
    cases c with
    | build o =>
      obtain ⟨m, _, h⟩ := bind_ok.mp h1
      cases pure_ok.mp h
      rfl
    | addToVocabulary t f p =>
      obtain ⟨m, _, h⟩ := bind_ok.mp h1
      cases pure_ok.mp h
      rfl
    | readVocabulary f p => rw [Loaded.call] at h1; exact into h1
    | readLexicon f => rw [Loaded.call] at h1; exact into h1
    | readLm f => rw [Loaded.call] at h1; exact into h1
    | readVariants f t => rw [Loaded.call] at h1; exact into h1
    | addContextrule p s t o => exact absurd rfl ((hn _ List.mem_cons_self).1 p s t o)
    | readContextrules f => exact absurd rfl ((hn _ List.mem_cons_self).2 f)
    | readConfusablelist f =>
      rw [Loaded.call] at h1
      cases hx : x.file f with
      | none => rw [hx] at h1; cases h1; rfl
      | some lines =>
        rw [hx] at h1
        obtain ⟨⟨cf, ok'⟩, _, h⟩ := bind_ok.mp h1
        cases pure_ok.mp h
        rfl

/-- What is known after a program without language model and rules that ends with `build`. -/
theorem program_searchable {x : LoadExt} {alphabetFile : List Char}
    {cs : List PyCall} {o : Orders} {L0 L : Loaded} (h0 : x.pyNew alphabetFile = .ok L0)
    (h : L0.calls x (cs ++ [.build o]) = .ok L) {alphabet : Alphabet}
    {a : List (List Char × Option Nat × VocabParams)} {ks : List (List Char × List Char × Rat)}
    {confusables : List Confusable} {counted : Bool}
    (hp : Program x alphabetFile cs alphabet a ks confusables counted)
    (hdesc : Describes L.vm (programLexis counted a ks)) (hrules : NoRules cs) (hm : NoModel a)
    (hwords : ∃ t, (programLexis counted a ks).indexed t) :
    Inv L.vm ∧ L.vm.haveLm = false ∧ L.book.rules = [] ∧ L.vm.index.isEmpty = false := by
  obtain ⟨ops, g1, g2, g3⟩ := py_built h0 h
  refine ⟨(inv_run (inv_new _) g2).1, ?_, ?_, ?_⟩
  · obtain ⟨L1, h1, h2⟩ := calls_append.mp h
    obtain ⟨lines, ops', a', _, _, _, f4, f5, _, f7, f8, _⟩ := py_history h0 h1
    cases callsAdd_unique hp.adds f7
    have hn : NoLm L1.vm := by
      refine noLm_run ⟨inv_new _, rfl, ?_⟩ f5 (fun t y hy => ?_) f4
      · intro v hv
        simp only [Vm.new, List.mem_cons, List.not_mem_nil, or_false] at hv
        rcases hv with rfl | rfl | rfl <;> rfl
      · rw [f8] at hy
        exact hm _ (mem_addsOf.mp hy)
    obtain ⟨⟨L2, ok⟩, h3, h4⟩ := bind_ok.mp h2
    cases h4
    obtain ⟨m, h5, h6⟩ := bind_ok.mp h3
    cases pure_ok.mp h6
    exact (noLm_build hn h5).2
  · have : NoRules (cs ++ [.build o]) := by
      intro c hc
      rcases List.mem_append.mp hc with hc | hc
      · exact hrules c hc
      · cases List.mem_singleton.mp hc
        exact ⟨(by intro _ _ _ _ h; cases h), (by intro _ h; cases h)⟩
    rw [rules_calls this h]
    obtain ⟨m0, k0, k⟩ := bind_ok.mp h0
    cases pure_ok.mp k
    rfl
  · obtain ⟨t, ht⟩ := hwords
    obtain ⟨v, hv, _, k4⟩ := (hdesc.indexed _).mp ht
    obtain ⟨id, k1⟩ := List.getElem?_of_mem hv
    rw [check_indexed'] at k4
    obtain ⟨k, node, _, hk⟩ := (built_of_run g2).complete id v k1 k4
    rw [← Bool.not_eq_true]
    intro he
    rw [List.isEmpty_iff.mp he] at hk
    cases hk

/-! ## Offsets and dictionaries -/

/-- Matches with the offsets that are asked for, from those with offsets in bytes. -/
theorem matches_offsets {vm : Vm} {x : TextExt} {cfg : TextConfig} {p : TextParams}
    {text : List Char} {ms : List Match} (hsp : x.isAlpha ' ' = false) (hsolve : SolverOk x.solve)
    (h : vm.findAllMatches x cfg { p with unicodeoffsets := false } text = .ok ms) :
    ∃ ms', vm.findAllMatches x cfg p text = .ok ms' ∧
      List.Forall₂ (fun m m' => m' = { m with first := m'.first, last := m'.last } ∧
        Offsets p.unicodeoffsets text m.first m.text m'.first m'.last) ms ms' := by
  obtain ⟨t1, _⟩ := text_matches hsp hsolve rfl h
  cases hu : p.unicodeoffsets with
  | false =>
    have hp : { p with unicodeoffsets := false } = p := by
      rw [← hu]
    rw [hp] at h
    refine ⟨ms, h, List.forall₂_same.mpr fun m hm => ⟨rfl, ?_⟩⟩
    obtain ⟨a, c, e1, e2, e3⟩ := (t1 m hm).1
    exact ⟨a, c, e1, e2.symm, by rw [if_neg (by simp)]; exact ⟨rfl, by rw [e3, byteLen_append, e2]⟩⟩
  | true =>
    obtain ⟨ms', h3, h4⟩ := unicode_offsets text ms (fun m hm => (t1 m hm).1)
    refine ⟨ms', ?_, h4.imp ?_⟩
    · by_cases hne : text = []
      · unfold Vm.findAllMatches at h ⊢
        rw [if_pos hne] at h ⊢
        cases h
        cases h3
        rfl
      by_cases hi : vm.index.isEmpty = true
      · unfold Vm.findAllMatches at h ⊢
        rw [if_neg hne, if_pos hi] at h ⊢
        cases h
        cases h3
        rfl
      · rw [Bool.not_eq_true] at hi
        obtain ⟨segs, hs, _⟩ := findBoundaries_eq x.isAlpha text
        rw [findAllMatches_eq vm x cfg _ hne hi hs] at h ⊢
        obtain ⟨ms1, h1, h⟩ := bind_ok.mp h
        cases h
        refine bind_ok.mpr ⟨ms, ?_, by rw [hu]; exact h3⟩
        exact (batchesRun_options (vm := vm) (x := x) (cfg := cfg) (p := p) (text := text) x.sched
          x.sched_perm p.singleThread false (batches [] segs) 0 ms).mp h1
    · rintro m m' ⟨e1, a, c, e2, e3, e4, e5, e6, _⟩
      exact ⟨e1, a, c, e2, e3, by rw [if_pos rfl]; exact ⟨e5, by rw [e6, e5, List.length_append]⟩⟩

/-- The dictionary for a match without tags. -/
theorem match_dict {x : LoadExt} {alphabetFile : List Char}
    {cs : List PyCall} {o : Orders} {L0 L : Loaded} (h0 : x.pyNew alphabetFile = .ok L0)
    (h : L0.calls x (cs ++ [.build o]) = .ok L) {a : List (List Char × Option Nat × VocabParams)}
    (hadds : CallsAdd x 0 (cs ++ [.build o]) a) (hl : L.vm.lexicons.length ≤ 32) {f64 : Rounding} {fw : Rat}
    {m : Match} (htag : m.tag = []) {vs : List VariantResult} (hvs : m.variants = some vs)
    {us : List Suggestion}
    (hR : List.Forall₂ (fun v u => SuggestedBy L.vm v u ∧ ¬ Reserved u.word) vs us) :
    ∃ d, L.vm.pyMatch L.book.tags f64 fw m = .ok d ∧ d.input = m.text ∧ d.first = m.first ∧ d.last = m.last ∧
      d.tags = none ∧ ∃ l, Listed us m.selected l ∧
        List.Forall₂ (SuggestionDict (wordFiles x cs) a f64 fw) l d.variants := by
  obtain ⟨l, hl1⟩ := listed_exists vs m.selected
  obtain ⟨l', hl2, hR'⟩ := listed_map hR hl1
  obtain ⟨ds, d1, d2⟩ : ∃ ds, List.Forall₂ (VariantDict L.vm f64 fw) l ds ∧
      List.Forall₂ (SuggestionDict (wordFiles x cs) a f64 fw) l' ds := by
    clear hl1 hl2
    induction hR' with
    | nil => exact ⟨[], .nil, .nil⟩
    | @cons v u _ _ hvu _ ih =>
      obtain ⟨ds, i1, i2⟩ := ih
      obtain ⟨d, hd⟩ := variantToDict_total f64 fw hl (r := v)
        (by
          obtain ⟨w, hw, _⟩ := hvu.1.word
          exact (List.getElem?_eq_some_iff.mp hw).1)
        (by
          intro id hid
          rcases hvu.1.via with ⟨e, _⟩ | ⟨i, w, e, hw, _⟩
          · rw [e] at hid; cases hid
          · rw [e] at hid
            cases hid
            exact (List.getElem?_eq_some_iff.mp hw).1)
      exact ⟨d :: ds, .cons (variantToDict_iff.mp hd).2 i1, .cons (suggestion_dict h0 h hadds hvu.1 hvu.2 hd) i2⟩
  refine ⟨⟨m.text, m.first, m.last, none, ds⟩, pyMatch_iff.mpr ⟨.inr hl, rfl, rfl, rfl, .inl ⟨htag, rfl⟩, l, ?_, d1⟩,
    rfl, rfl, rfl, rfl, l', hl2, d2⟩
  rw [hvs]
  exact hl1

/-- A dictionary for each match. -/
theorem matches_dicts {x : LoadExt} {alphabetFile : List Char}
    {cs : List PyCall} {o : Orders} {L0 L : Loaded} (h0 : x.pyNew alphabetFile = .ok L0)
    (h : L0.calls x (cs ++ [.build o]) = .ok L) {a : List (List Char × Option Nat × VocabParams)}
    (hadds : CallsAdd x 0 (cs ++ [.build o]) a) (hl : L.vm.lexicons.length ≤ 32) {e : TextExt}
    {cfg : TextConfig} {p : TextParams} (hsp : e.isAlpha ' ' = false) (hsolve : SolverOk e.solve)
    {found : List Char → List Suggestion} {text : List Char} {ms : List Match}
    (hms : L.vm.findAllMatches e cfg { p with unicodeoffsets := false } text = .ok ms)
    (hvs : ∀ m ∈ ms, m.tag = [] ∧ ∃ vs, m.variants = some vs ∧
      List.Forall₂ (fun v u => SuggestedBy L.vm v u ∧ ¬ Reserved u.word) vs (found m.text)) :
    ∃ ds, L.vm.pyFindAllMatches L.book.tags e cfg p text = .ok ds ∧
      List.Forall₂ (StretchDict (SuggestionDict (wordFiles x cs) a e.f64 p.variant.freqWeight) p.unicodeoffsets
        text found) (ms.map fun m => (m.first, m.text, m.selected)) ds := by
  obtain ⟨ms', h1, h2⟩ := matches_offsets hsp hsolve hms
  suffices hd : ∃ ds, collectSeq (L.vm.pyMatch L.book.tags e.f64 p.variant.freqWeight) ms' = .ok ds ∧
      List.Forall₂ (StretchDict (SuggestionDict (wordFiles x cs) a e.f64 p.variant.freqWeight) p.unicodeoffsets
        text found) (ms.map fun m => (m.first, m.text, m.selected)) ds by
    obtain ⟨ds, h3, h4⟩ := hd
    exact ⟨ds, bind_ok.mpr ⟨ms', h1, h3⟩, h4⟩
  clear h1 hms
  simp only [collectSeq_ok]
  induction h2 with
  | nil => exact ⟨[], .nil, .nil⟩
  | @cons m m' ms ms' hm _ ih =>
    obtain ⟨ds, i1, i2⟩ := ih fun m hm => hvs m (List.mem_cons_of_mem _ hm)
    obtain ⟨e1, e2⟩ := hm
    obtain ⟨v1, vs, v2, v3⟩ := hvs m List.mem_cons_self
    obtain ⟨d, d1, d2, d3, d4, d5, d6⟩ := match_dict (f64 := e.f64) (fw := p.variant.freqWeight) h0 h hadds hl
      (m := m') (by rw [e1]; exact v1) (vs := vs) (by rw [e1]; exact v2) v3
    have et : m'.text = m.text := by rw [e1]
    have es : m'.selected = m.selected := by rw [e1]
    rw [es] at d6
    rw [et] at d2
    exact ⟨d :: ds, .cons d1 i1, .cons ⟨d2, by rw [d3, d4]; exact e2, d5, d6⟩ i2⟩

/-! ## C121 -/

/-- What is suggested for each text, as a function. -/
theorem program_suggests {x : LoadExt} (hb : x.isSpace '\\' = false) {alphabetFile : List Char}
    {cs : List PyCall} {o : Orders} {L0 L : Loaded} (h0 : x.pyNew alphabetFile = .ok L0)
    (h : L0.calls x (cs ++ [.build o]) = .ok L) {alphabet : Alphabet}
    {a : List (List Char × Option Nat × VocabParams)} {ks : List (List Char × List Char × Rat)}
    {confusables : List Confusable} {counted : Bool}
    (hp : Program x alphabetFile cs alphabet a ks confusables counted) (hrefs : ∀ k ∈ ks, ¬ Reserved k.1)
    (htexts : ∀ y ∈ a, y.1.length < 65536)
    (hlen : alphabet.length ≤ 166) (e : TextExt) (w : Weights) (early : Bool)
    (script : List Char → List Char → List EditInstr) (p : Params)
    (hw : w.sum e.f64 ≠ 0) (hfw : 0 ≤ p.freqWeight) (ha : Fits p.maxAnagramDistance)
    (he : Fits p.maxEditDistance) :
    ∃ found : List Char → List Suggestion, ∀ t, t ≠ [] → ShortEnough e alphabet p t →
      Suggestions e alphabet (programLexis counted a ks) ⟨w, confusables, early, script⟩ p t (found t) ∧
      ∃ vs, L.vm.findVariants e.toExt ⟨w, L.confusables, early, script⟩ p t = .ok vs ∧
        List.Forall₂ (fun v u => SuggestedBy L.vm v u ∧ ¬ Reserved u.word) vs (found t) := by
  obtain ⟨k1, k2, k3, k4, k5, k6, k7⟩ := program_known hb h0 h hp hrefs htexts
  obtain ⟨ops, g1, g2, g3⟩ := py_built h0 h
  subst k1 k2
  refine suggested_function fun t h1 h2 => ?_
  obtain ⟨rs, us, f1, f2, f3⟩ := find_variants_exact L.vm.alphabet g1 hlen ops o L.vm g2 k6
    (fun v hv t s ht => (k7 v hv t s ht).1) _ k5 e ⟨w, L.confusables, early, script⟩ p hw hfw ha he t h1 h2
  refine ⟨rs, us, f1, f2, ?_⟩
  have hnr : ∀ u ∈ us, ¬ Reserved u.word := by
    intro u hu
    rcases suggestions_words f2 u hu with h | ⟨t, s, _, h⟩
    · exact h.1
    · obtain ⟨k, hk, e⟩ := List.mem_map.mp h
      have : u.word = k.1 := (congrArg Prod.fst e).symm
      rw [this]
      exact hrefs k (List.mem_filter.mp (List.mem_filter.mp hk).1).1
  clear f1 f2
  induction f3 with
  | nil => exact .nil
  | cons a1 _ ih =>
    exact .cons ⟨a1, hnr _ List.mem_cons_self⟩ (ih fun u hu => hnr u (List.mem_cons_of_mem _ hu))

/-- **C121**: what a Python program is told about a text.  After a program that ends with `build`, whatever
calls it makes and whichever of them are exceptions, but without language model and context rules,
`find_all_matches` divides the text into stretches of words at least cost, and returns a dictionary for each
stretch, in order, with what is suggested for it and the chosen suggestion first.  Offsets are in bytes or in
characters, as the program asks.  (The cost is least as far as sums in floating point can tell, `Reckons`.) -/
theorem py_divides {x : LoadExt} (hb : x.isSpace '\\' = false) {alphabetFile : List Char}
    {cs : List PyCall} {o : Orders} {L0 L : Loaded} (h0 : x.pyNew alphabetFile = .ok L0)
    (h : L0.calls x (cs ++ [.build o]) = .ok L) {alphabet : Alphabet}
    {a : List (List Char × Option Nat × VocabParams)} {ks : List (List Char × List Char × Rat)}
    {confusables : List Confusable} {counted : Bool}
    (hp : Program x alphabetFile cs alphabet a ks confusables counted) (hrules : NoRules cs) (hm : NoModel a)
    (hwords : ∃ t, (programLexis counted a ks).indexed t) (hrefs : ∀ k ∈ ks, ¬ Reserved k.1)
    (hks : ∀ k ∈ ks, 0 ≤ k.2.2 ∧ k.2.2 ≤ 1)
    (htexts : ∀ y ∈ a, y.1.length < 65536) (hfiles : (wordFiles x cs).length ≤ 32)
    (hlen : alphabet.length ≤ 166) (e : TextExt) (hsp : e.isAlpha ' ' = false) (w : Weights)
    (hwt : WeightsOk e.f64 w) (hmild : MildConfusables e.f64 confusables) (early : Bool)
    (script : List Char → List Char → List EditInstr) (p : TextParams) {u : Rat} {d : Nat → Rat}
    (hx : Reckons e p.variant.freqWeight u d) (hfw : 0 ≤ p.variant.freqWeight)
    (ha : Fits p.variant.maxAnagramDistance) (he : Fits p.variant.maxEditDistance) (hn : 2 ≤ p.maxNgram)
    (hseq : 1 ≤ p.maxSeq) (text : List Char) (hshort : ShortRuns e alphabet p.variant p.maxNgram text) :
    ∃ found, (∀ t, t ≠ [] → ShortEnough e alphabet p.variant t →
        Suggestions e alphabet (programLexis counted a ks) ⟨w, confusables, early, script⟩ p.variant t
          (found t)) ∧
      ∃ rs ds, CheapestIn e (slack u d) Suggestion.score (Suggestion.overall e.f64 p.variant.freqWeight) found
          p.maxNgram text rs ∧
        L.vm.pyFindAllMatches L.book.tags e ⟨⟨w, L.confusables, early, script⟩, L.book.rules⟩ p text = .ok ds ∧
        List.Forall₂ (StretchDict (SuggestionDict (wordFiles x cs) a e.f64 p.variant.freqWeight)
          p.unicodeoffsets text found) rs ds := by
  obtain ⟨k1, k2, k3, k4, k5, k6, k7⟩ := program_known hb h0 h hp hrefs htexts
  obtain ⟨hinv, hlm, hrb, hidx⟩ := program_searchable h0 h hp k5 hrules hm hwords
  obtain ⟨found, hfound⟩ := program_suggests hb h0 h hp hrefs htexts hlen e w early script p.variant
    hwt.sum.ne' hfw ha he
  refine ⟨found, fun t h1 h2 => (hfound t h1 h2).1, ?_⟩
  obtain ⟨ms, hms, h1, h3⟩ := text_divides (vm := L.vm)
    (cfg := ⟨⟨w, L.confusables, early, script⟩, L.book.rules⟩) (p := { p with unicodeoffsets := false })
    (R := fun v u => SuggestedBy L.vm v u ∧ ¬ Reserved u.word) (dist := Suggestion.score)
    (score := Suggestion.overall e.f64 p.variant.freqWeight) (found := found) (alphabet := alphabet) hsp hx
    hwt.sum.ne' hn hseq rfl hinv hlm hrb hidx
    (fun t vs hv v hm => variant_scores_le (cfg := ⟨⟨w, L.confusables, early, script⟩, L.book.rules⟩) hx.close64
 hx.unit      hx.weight hwt (k2.symm ▸ hmild) (by
        intro v hv t s ht
        obtain ⟨_, k, hk, rfl⟩ := k7 v hv t s ht
        exact hks k hk) hfw t vs hv v hm)
    (fun v u hvu => ⟨hvu.1.score, by
      unfold VariantResult.score Suggestion.overall
      rw [hvu.1.score, hvu.1.freq]⟩)
    (fun t h1 h2 => (hfound t h1 h2).2) (text := text) hshort
  have hl : L.vm.lexicons.length ≤ 32 := by rw [k3]; exact hfiles
  obtain ⟨ds, h4, h5⟩ := matches_dicts (p := p) h0 h k4 hl hsp hx.solver.ok hms fun m hm => (h3 m hm).2
  exact ⟨_, ds, h1, h4, h5⟩

/-- **C121**: with `max_ngram=1`, a dictionary for each word of the text, in order, with what is suggested
for the word. -/
theorem py_words {x : LoadExt} (hb : x.isSpace '\\' = false) {alphabetFile : List Char}
    {cs : List PyCall} {o : Orders} {L0 L : Loaded} (h0 : x.pyNew alphabetFile = .ok L0)
    (h : L0.calls x (cs ++ [.build o]) = .ok L) {alphabet : Alphabet}
    {a : List (List Char × Option Nat × VocabParams)} {ks : List (List Char × List Char × Rat)}
    {confusables : List Confusable} {counted : Bool}
    (hp : Program x alphabetFile cs alphabet a ks confusables counted) (hrules : NoRules cs) (hm : NoModel a)
    (hwords : ∃ t, (programLexis counted a ks).indexed t) (hrefs : ∀ k ∈ ks, ¬ Reserved k.1)
    (htexts : ∀ y ∈ a, y.1.length < 65536) (hfiles : (wordFiles x cs).length ≤ 32)
    (hlen : alphabet.length ≤ 166) (e : TextExt) (hsp : e.isAlpha ' ' = false) (hsolve : SolverOk e.solve)
    (w : Weights) (hw : w.sum e.f64 ≠ 0) (early : Bool)
    (script : List Char → List Char → List EditInstr) (p : TextParams) (hfw : 0 ≤ p.variant.freqWeight)
    (ha : Fits p.variant.maxAnagramDistance) (he : Fits p.variant.maxEditDistance) (hn : p.maxNgram = 1)
    (text : List Char)
    (hshort : ∀ b t, WordAt e.isAlpha text b t → ShortEnough e alphabet p.variant t) :
    ∃ found, (∀ t, t ≠ [] → ShortEnough e alphabet p.variant t →
        Suggestions e alphabet (programLexis counted a ks) ⟨w, confusables, early, script⟩ p.variant t
          (found t)) ∧
      ∃ ws ds, WordsOf e.isAlpha text ws ∧
        L.vm.pyFindAllMatches L.book.tags e ⟨⟨w, L.confusables, early, script⟩, L.book.rules⟩ p text = .ok ds ∧
        List.Forall₂ (fun r => StretchDict (SuggestionDict (wordFiles x cs) a e.f64 p.variant.freqWeight)
          p.unicodeoffsets text found (r.1, r.2, none)) ws ds := by
  obtain ⟨k1, k2, k3, k4, k5, k6, k7⟩ := program_known hb h0 h hp hrefs htexts
  obtain ⟨hinv, hlm, hrb, hidx⟩ := program_searchable h0 h hp k5 hrules hm hwords
  obtain ⟨found, hfound⟩ := program_suggests hb h0 h hp hrefs htexts hlen e w early script p.variant
    hw hfw ha he
  refine ⟨found, fun t h1 h2 => (hfound t h1 h2).1, ?_⟩
  have hne : ∀ {b t}, WordAt e.isAlpha text b t → t ≠ [] := fun h => by
    obtain ⟨_, _, _, _, h, _⟩ := h; exact h
  obtain ⟨ms, hms, h2, h3⟩ := text_words (vm := L.vm)
    (cfg := ⟨⟨w, L.confusables, early, script⟩, L.book.rules⟩) (p := { p with unicodeoffsets := false })
    hsp hn rfl hlm hrb hidx (text := text) (fun b t h => by
      obtain ⟨_, vs, h1, _⟩ := hfound t (hne h) (hshort b t h)
      exact ⟨vs, h1⟩)
  have hl : L.vm.lexicons.length ≤ 32 := by rw [k3]; exact hfiles
  obtain ⟨ds, h4, h5⟩ := matches_dicts (p := p) (found := found) h0 h k4 hl hsp hsolve hms fun m hm => by
    obtain ⟨_, e2, _, vs, e3, e4⟩ := h3 m hm
    have hw := (h2.mem _ _).mp (List.mem_map.mpr ⟨m, hm, rfl⟩)
    obtain ⟨_, vs', j1, j2⟩ := hfound m.text (hne hw) (hshort _ _ hw)
    have e4 : L.vm.findVariants e.toExt ⟨w, L.confusables, early, script⟩ p.variant m.text = .ok vs := e4
    rw [e4] at j1
    cases j1
    exact ⟨e2, vs, e3, j2⟩
  refine ⟨_, ds, h2, h4, ?_⟩
  rw [List.forall₂_map_left_iff] at h5 ⊢
  refine (forall₂_mem_left h5).imp ?_
  rintro m d' ⟨⟨j1, j2, j3, l, j4, j5⟩, hmm⟩
  obtain ⟨_, _, es, _⟩ := h3 m hmm
  refine ⟨j1, j2, j3, l, ?_, j5⟩
  rcases j4 with ⟨i, r, i1, i2, rfl⟩ | ⟨i1, rfl⟩
  · have i1 : m.selected = some i := i1
    rw [es] at i1
    cases i1
    refine .inr ⟨fun _ h => (nomatch h), ?_⟩
    have i2 : (found m.text)[0]? = some r := i2
    show r :: (found m.text).eraseIdx 0 = found m.text
    cases hf : found m.text with
    | nil => rw [hf] at i2; cases i2
    | cons y ys =>
      rw [hf] at i2
      cases i2
      rfl
  · exact .inr ⟨fun _ h => (nomatch h), rfl⟩

/-! ### Examples -/

/-- The settings of the program. -/
def pyConfigS : TextConfig :=
  ⟨⟨.default, pyModelS.confusables, true, fun _ _ => [.identity ['b']]⟩, pyModelS.book.rules⟩

theorem pyPlainS : NoRules pyCallsS ∧ NoModel pyAddsS ∧
    ∃ t, (programLexis true pyAddsS [("b".toList, "bb".toList, 1 / 2)]).indexed t := by
  refine ⟨?_, ?_, "ab".toList, ?_, _, rfl, rfl⟩
  · intro c hc
    simp only [pyCallsS, List.mem_cons, List.not_mem_nil, or_false] at hc
    rcases hc with rfl | rfl | rfl | rfl | rfl | rfl | rfl <;>
      exact ⟨(by intro _ _ _ _ h; cases h), (by intro _ h; cases h)⟩
  · unfold NoModel Reserved
    decide
  · unfold Reserved
    decide

theorem exShortRunsS {n : Nat} : ShortRuns exText [["a".toList, "A".toList], ["b".toList]] exParams n
    "é b ab bb".toList := by
  intro segs r hs hr _ _
  refine exShortPy rfl ?_
  have h2 : (stretch r).length ≤ "é b ab bb".toList.length := by
    obtain ⟨a, b, e⟩ := hr
    refine le_trans (stretch_prefix_flat r).length_le ?_
    rw [← hs.text_eq, ← e, flat_append, flat_append]
    simp only [List.length_append]
    omega
  exact h2

/-- What the program is told about a text in which the first character has two bytes, with offsets in
characters. -/
example : ∃ found, (∀ t, t ≠ [] → ShortEnough exText [["a".toList, "A".toList], ["b".toList]] exParams t →
      Suggestions exText [["a".toList, "A".toList], ["b".toList]]
        (programLexis true pyAddsS [("b".toList, "bb".toList, 1 / 2)])
        ⟨.default, [⟨[.identity ['b']], 1 / 2, false, false⟩], true, fun _ _ => [.identity ['b']]⟩ exParams t
        (found t)) ∧
    ∃ rs ds, CheapestIn exText (slack 0 fun _ => 0) Suggestion.score (Suggestion.overall exText.f64 0) found 2
        "é b ab bb".toList rs ∧
      pyModelS.vm.pyFindAllMatches pyModelS.book.tags exText pyConfigS
        { exTextParams with unicodeoffsets := true } "é b ab bb".toList = .ok ds ∧
      List.Forall₂ (StretchDict (SuggestionDict [['l'], ['e'], ['l']] pyAddsS exText.f64 0) true
        "é b ab bb".toList found) rs ds := by
  obtain ⟨L0, h0, h⟩ := pyModelS_ok
  obtain ⟨p1, p2, p3⟩ := pyPlainS
  refine py_divides rfl h0 h pyProgramS p1 p2 p3 (by unfold Reserved; decide) (by decide +kernel) (by decide)
    (by decide) (by decide) exText rfl .default ?_ ?_ true (fun _ _ => [.identity ['b']])
    { exTextParams with unicodeoffsets := true } (exText_reckons _) (by decide +kernel)
    (by show 3 ≤ 255; decide) (by show 3 ≤ 255; decide) (by decide) (by decide) _ exShortRunsS
  · constructor <;> first | exact ⟨by norm_num [Weights.default], rfl⟩ | decide +kernel
  · constructor <;> decide +kernel

/-- The result: two stretches of two words. -/
example : (pyModelS.vm.pyFindAllMatches pyModelS.book.tags exText pyConfigS
      { exTextParams with unicodeoffsets := true } "é b ab bb".toList).toOption.map
      (·.map fun d => ((d.input, d.first, d.last), d.tags.isNone, d.variants.map (·.text))) =
    some [(("é b".toList, 0, 3), true, ["ab".toList, "b".toList]),
      (("ab bb".toList, 4, 9), true, ["ab".toList])] := by
  decide +kernel

/-- Its single words, with offsets in bytes. -/
example : ∃ found, (∀ t, t ≠ [] → ShortEnough exText [["a".toList, "A".toList], ["b".toList]] exParams t →
      Suggestions exText [["a".toList, "A".toList], ["b".toList]]
        (programLexis true pyAddsS [("b".toList, "bb".toList, 1 / 2)])
        ⟨.default, [⟨[.identity ['b']], 1 / 2, false, false⟩], true, fun _ _ => [.identity ['b']]⟩ exParams t
        (found t)) ∧
    ∃ ws ds, WordsOf exText.isAlpha "é b ab bb".toList ws ∧
      pyModelS.vm.pyFindAllMatches pyModelS.book.tags exText pyConfigS
        { exTextParams with maxNgram := 1 } "é b ab bb".toList = .ok ds ∧
      List.Forall₂ (fun r => StretchDict (SuggestionDict [['l'], ['e'], ['l']] pyAddsS exText.f64 0) false
        "é b ab bb".toList found (r.1, r.2, none)) ws ds := by
  obtain ⟨L0, h0, h⟩ := pyModelS_ok
  obtain ⟨p1, p2, p3⟩ := pyPlainS
  refine py_words rfl h0 h pyProgramS p1 p2 p3 (by unfold Reserved; decide) (by decide)
    (by decide) (by decide) exText rfl refSolver_ok .default (by decide +kernel) true
    (fun _ _ => [.identity ['b']]) { exTextParams with maxNgram := 1 } (by decide +kernel)
    (by show 3 ≤ 255; decide) (by show 3 ≤ 255; decide) rfl _ ?_
  rintro b t ⟨pre, post, e, _⟩
  refine exShortPy rfl ?_
  have := congrArg List.length e
  simp only [List.length_append] at this
  have h9 : "é b ab bb".toList.length = 9 := rfl
  omega

/-- The result, with the words and their offsets. -/
example : (pyModelS.vm.pyFindAllMatches pyModelS.book.tags exText pyConfigS
      { exTextParams with maxNgram := 1 } "é b ab bb".toList).toOption.map
      (·.map fun d => ((d.input, d.first, d.last), d.tags.isNone, d.variants.map (·.text))) =
    some [(("é".toList, 0, 2), true, []), (("b".toList, 3, 4), true, ["b".toList]),
      (("ab".toList, 5, 7), true, ["ab".toList]),
      (("bb".toList, 8, 10), true, ["b".toList, "ab".toList, "ba".toList, "b".toList])] := by
  decide +kernel

end Verif.Props
