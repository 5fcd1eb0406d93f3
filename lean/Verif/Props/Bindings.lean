import Verif.Spec.Bindings
import Verif.Props.Python
import Verif.Props.Document
import Verif.Props.RunTotal

/-!
# C126: a Python program and the command line give the same
-/
namespace Verif.Props

open Verif.Model Verif.Spec Verif.Lemmas

/-! ### Loading -/

theorem runs_append {x : LoadExt} {cs cs' : List PyCall} : ∀ {L L' : Loaded},
    Runs x L (cs ++ cs') L' ↔ ∃ L1, Runs x L cs L1 ∧ Runs x L1 cs' L' := by
  induction cs with
  | nil =>
    intro L L'
    constructor
    · intro h; exact ⟨L, .nil, h⟩
    · rintro ⟨L1, h, h'⟩; cases h; exact h'
  | cons c cs ih =>
    intro L L'
    constructor
    · intro h
      cases h with
      | cons h1 h2 =>
        obtain ⟨L1, h3, h4⟩ := ih.mp h2
        exact ⟨L1, .cons h1 h3, h4⟩
    · rintro ⟨L1, h, h'⟩
      cases h with
      | cons h1 h2 => exact .cons h1 (ih.mpr ⟨L1, h2, h'⟩)

theorem runs_calls {x : LoadExt} {cs : List PyCall} {L L' : Loaded} (h : Runs x L cs L') :
    L.calls x cs = .ok L' := by
  induction h with
  | nil => rfl
  | cons h1 _ ih => exact bind_ok.mpr ⟨_, h1, ih⟩

/-- The call for a resource. -/
def callFor : Resource → PyCall
  | .lexicon f => .readLexicon f
  | .variantList f => .readVariants f false
  | .errorList f => .readVariants f true

theorem readInto_ok {x : LoadExt} {L L' : Loaded} {f : List Char}
    {read : Vm → List (Option (List Char)) → Res Vm} :
    L.readInto x f read = .ok (L', true) ↔
      ∃ m, (x.open f >>= fun lines => read L.vm lines) = .ok m ∧ L' = { L with vm := m } := by
  unfold Loaded.readInto LoadExt.open
  cases x.file f with
  | none => simp [bind, Except.bind]
  | some lines =>
    constructor
    · intro h
      obtain ⟨m, h1, h2⟩ := bind_ok.mp h
      cases pure_ok.mp h2
      exact ⟨m, h1, rfl⟩
    · rintro ⟨m, h1, rfl⟩
      exact bind_ok.mpr ⟨m, h1, rfl⟩

theorem call_resource {x : LoadExt} {L L' : Loaded} {r : Resource} :
    L.call x (callFor r) = .ok (L', true) ↔
      ∃ m, L.vm.readResource x r = .ok m ∧ L' = { L with vm := m } := by
  cases r with
  | lexicon f => exact readInto_ok (f := f) (read := fun m lines => m.readVocabulary f {} lines)
  | variantList f =>
    exact readInto_ok (f := f) (read := fun m lines => m.readVariants x.parseF64 f (some {}) false lines)
  | errorList f =>
    exact readInto_ok (f := f) (read := fun m lines => m.readVariants x.parseF64 f (some {}) true lines)

theorem runs_resources {x : LoadExt} {rs : List Resource} : ∀ {L L' : Loaded},
    Runs x L (rs.map callFor) L' ↔ ∃ m, L.vm.readResources x rs = .ok m ∧ L' = { L with vm := m } := by
  induction rs with
  | nil =>
    intro L L'
    constructor
    · intro h; cases h; exact ⟨_, rfl, rfl⟩
    · rintro ⟨m, h, rfl⟩; cases h; exact .nil
  | cons r rs ih =>
    intro L L'
    constructor
    · intro h
      cases h with
      | cons h1 h2 =>
        obtain ⟨m, h3, rfl⟩ := call_resource.mp h1
        obtain ⟨m', h4, rfl⟩ := ih.mp h2
        exact ⟨m', bind_ok.mpr ⟨m, h3, h4⟩, rfl⟩
    · rintro ⟨m', h, rfl⟩
      obtain ⟨m, h3, h4⟩ := bind_ok.mp h
      exact .cons (call_resource.mpr ⟨m, h3, rfl⟩) (ih.mpr ⟨m', h4, rfl⟩)

theorem runs_lms {x : LoadExt} {fs : List (List Char)} : ∀ {L L' : Loaded},
    Runs x L (fs.map .readLm) L' ↔ ∃ m, L.vm.readLms x fs = .ok m ∧ L' = { L with vm := m } := by
  induction fs with
  | nil =>
    intro L L'
    constructor
    · intro h; cases h; exact ⟨_, rfl, rfl⟩
    · rintro ⟨m, h, rfl⟩; cases h; exact .nil
  | cons f fs ih =>
    intro L L'
    have one : ∀ L1, L.call x (.readLm f) = .ok (L1, true) ↔ _ := fun L1 =>
      readInto_ok (f := f) (read := fun m lines => m.readVocabulary f { vocabType := .LM } lines)
    constructor
    · intro h
      cases h with
      | cons h1 h2 =>
        obtain ⟨m, h3, rfl⟩ := (one _).mp h1
        obtain ⟨m', h4, rfl⟩ := ih.mp h2
        obtain ⟨lines, h5, h6⟩ := bind_ok.mp h3
        exact ⟨m', bind_ok.mpr ⟨lines, h5, bind_ok.mpr ⟨m, h6, h4⟩⟩, rfl⟩
    · rintro ⟨m', h, rfl⟩
      obtain ⟨lines, h5, h⟩ := bind_ok.mp h
      obtain ⟨m, h6, h4⟩ := bind_ok.mp h
      exact .cons ((one _).mpr ⟨m, bind_ok.mpr ⟨lines, h5, h6⟩, rfl⟩) (ih.mpr ⟨m', h4, rfl⟩)

theorem runs_confusables {x : LoadExt} {fs : List (List Char)} : ∀ {L L' : Loaded},
    Runs x L (fs.map .readConfusablelist) L' ↔
      ∃ cs, readConfusableLists x L.confusables fs = .ok cs ∧ L' = { L with confusables := cs } := by
  induction fs with
  | nil =>
    intro L L'
    constructor
    · intro h; cases h; exact ⟨_, rfl, rfl⟩
    · rintro ⟨m, h, rfl⟩; cases h; exact .nil
  | cons f fs ih =>
    intro L L'
    have one : ∀ L1, L.call x (.readConfusablelist f) = .ok (L1, true) ↔
        ∃ lines cs, x.file f = some lines ∧ readConfusables x L.confusables lines = .ok (cs, true) ∧
          L1 = { L with confusables := cs } := by
      intro L1
      simp only [Loaded.call]
      cases x.file f with
      | none => simp
      | some lines =>
        constructor
        · intro h
          obtain ⟨⟨cs, ok⟩, h1, h2⟩ := bind_ok.mp h
          cases pure_ok.mp h2
          exact ⟨lines, cs, rfl, h1, rfl⟩
        · rintro ⟨_, cs, h0, h1, rfl⟩
          cases h0
          exact bind_ok.mpr ⟨_, h1, rfl⟩
    constructor
    · intro h
      cases h with
      | cons h1 h2 =>
        obtain ⟨lines, cs, h3, h4, rfl⟩ := (one _).mp h1
        obtain ⟨cs', h5, rfl⟩ := ih.mp h2
        refine ⟨cs', bind_ok.mpr ⟨lines, open_ok.mpr h3, bind_ok.mpr ⟨_, h4, ?_⟩⟩, rfl⟩
        exact h5
    · rintro ⟨cs', h, rfl⟩
      obtain ⟨lines, h3, h⟩ := bind_ok.mp h
      obtain ⟨⟨cs, ok⟩, h4, h⟩ := bind_ok.mp h
      cases ok with
      | false => cases h
      | true =>
        exact .cons ((one _).mpr ⟨lines, cs, open_ok.mp h3, h4, rfl⟩) (ih.mpr ⟨cs', h, rfl⟩)

theorem runs_rules {x : LoadExt} {fs : List (List Char)} : ∀ {L L' : Loaded},
    Runs x L (fs.map .readContextrules) L' ↔
      ∃ b, readRuleFiles x L.vm L.book fs = .ok b ∧ L' = { L with book := b } := by
  induction fs with
  | nil =>
    intro L L'
    constructor
    · intro h; cases h; exact ⟨_, rfl, rfl⟩
    · rintro ⟨m, h, rfl⟩; cases h; exact .nil
  | cons f fs ih =>
    intro L L'
    have one : ∀ L1, L.call x (.readContextrules f) = .ok (L1, true) ↔
        ∃ lines b, x.file f = some lines ∧
          L.book.read ⟨x.isSpace, L.vm.lexicons, L.vm.encoder⟩ x.parseF32 lines = .ok (b, true) ∧
          L1 = { L with book := b } := by
      intro L1
      simp only [Loaded.call]
      cases x.file f with
      | none => simp
      | some lines =>
        constructor
        · intro h
          obtain ⟨⟨cs, ok⟩, h1, h2⟩ := bind_ok.mp h
          cases pure_ok.mp h2
          exact ⟨lines, cs, rfl, h1, rfl⟩
        · rintro ⟨_, cs, h0, h1, rfl⟩
          cases h0
          exact bind_ok.mpr ⟨_, h1, rfl⟩
    constructor
    · intro h
      cases h with
      | cons h1 h2 =>
        obtain ⟨lines, b, h3, h4, rfl⟩ := (one _).mp h1
        obtain ⟨b', h5, rfl⟩ := ih.mp h2
        refine ⟨b', bind_ok.mpr ⟨lines, open_ok.mpr h3, bind_ok.mpr ⟨_, h4, ?_⟩⟩, rfl⟩
        exact h5
    · rintro ⟨b', h, rfl⟩
      obtain ⟨lines, h3, h⟩ := bind_ok.mp h
      obtain ⟨⟨b, ok⟩, h4, h⟩ := bind_ok.mp h
      cases ok with
      | false => cases h
      | true =>
        exact .cons ((one _).mpr ⟨lines, b, open_ok.mp h3, h4, rfl⟩) (ih.mpr ⟨b', h, rfl⟩)

theorem runs_build {x : LoadExt} {o : Orders} {L L' : Loaded} :
    Runs x L [.build o] L' ↔ ∃ m, L.vm.build o = .ok m ∧ L' = { L with vm := m } := by
  constructor
  · intro h
    cases h with
    | cons h1 h2 =>
      cases h2
      obtain ⟨m, h3, h4⟩ := bind_ok.mp h1
      cases pure_ok.mp h4
      exact ⟨m, h3, rfl⟩
  · rintro ⟨m, h, rfl⟩
    exact .cons (bind_ok.mpr ⟨m, h, rfl⟩) .nil

theorem wordsCall_eq : wordsCall = fun g => (resourceOf g).map callFor := by
  funext g
  obtain ⟨o, f⟩ := g
  cases o <;> rfl

theorem lmCall_eq : lmCall = fun g => (if g.1 = .lm then some g.2 else none).map PyCall.readLm := by
  funext g
  obtain ⟨o, f⟩ := g
  cases o <;> rfl

theorem confusablesCall_eq : confusablesCall =
    fun g => (if g.1 = .confusables then some g.2 else none).map PyCall.readConfusablelist := by
  funext g
  obtain ⟨o, f⟩ := g
  cases o <;> rfl

theorem rulesCall_eq : rulesCall =
    fun g => (if g.1 = .contextrules then some g.2 else none).map PyCall.readContextrules := by
  funext g
  obtain ⟨o, f⟩ := g
  cases o <;> rfl

/-- The program for arguments of the tool. -/
theorem load_runs {x : LoadExt} {args : LoadArgs} {o : Orders} {L : Loaded} :
    x.load args o = .ok L ↔ ∃ L0, x.pyNew args.alphabet = .ok L0 ∧
      Runs x L0 (args.resources.map callFor ++ args.lm.map .readLm ++
        args.confusables.map .readConfusablelist ++ args.contextrules.map .readContextrules ++ [.build o]) L := by
  unfold LoadExt.load LoadExt.pyNew
  constructor
  · intro h
    obtain ⟨m, h1, h⟩ := bind_ok.mp h
    obtain ⟨m1, h2, h⟩ := bind_ok.mp h
    obtain ⟨m2, h3, h⟩ := bind_ok.mp h
    obtain ⟨cs, h4, h⟩ := bind_ok.mp h
    obtain ⟨b, h5, h⟩ := bind_ok.mp h
    obtain ⟨m3, h6, h⟩ := bind_ok.mp h
    cases pure_ok.mp h
    refine ⟨_, bind_ok.mpr ⟨m, h1, rfl⟩, ?_⟩
    exact runs_append.mpr ⟨_, runs_append.mpr ⟨_, runs_append.mpr ⟨_, runs_append.mpr ⟨_,
      runs_resources.mpr ⟨m1, h2, rfl⟩, runs_lms.mpr ⟨m2, h3, rfl⟩⟩, runs_confusables.mpr ⟨cs, h4, rfl⟩⟩,
      runs_rules.mpr ⟨b, h5, rfl⟩⟩, runs_build.mpr ⟨m3, h6, rfl⟩⟩
  · rintro ⟨L0, h, hr⟩
    obtain ⟨m, h1, h⟩ := bind_ok.mp h
    cases pure_ok.mp h
    obtain ⟨_, hr, hb⟩ := runs_append.mp hr
    obtain ⟨_, hr, hrules⟩ := runs_append.mp hr
    obtain ⟨_, hr, hcs⟩ := runs_append.mp hr
    obtain ⟨_, hr, hlm⟩ := runs_append.mp hr
    obtain ⟨m1, h2, rfl⟩ := runs_resources.mp hr
    obtain ⟨m2, h3, rfl⟩ := runs_lms.mp hlm
    obtain ⟨cs, h4, rfl⟩ := runs_confusables.mp hcs
    obtain ⟨b, h5, rfl⟩ := runs_rules.mp hrules
    obtain ⟨m3, h6, rfl⟩ := runs_build.mp hb
    exact bind_ok.mpr ⟨m, h1, bind_ok.mpr ⟨m1, h2, bind_ok.mpr ⟨m2, h3, bind_ok.mpr ⟨cs, h4,
      bind_ok.mpr ⟨b, h5, bind_ok.mpr ⟨m3, h6, rfl⟩⟩⟩⟩⟩⟩

/-- **C126**: the tool loads what its command line names if, and only if, a Python program with one call for
each option runs without an exception, and then both have the same. -/
theorem loads_as_python {x : ToolExt} (hpos : StrictMono x.pos) {c : CommandLine} (hc : Accepted c)
    {L : Loaded} : LoadedFor x c L ↔ PyLoads x c L := by
  have prog : ∀ args : LoadArgs, args.resources = c.given.filterMap resourceOf →
      args.lm = c.given.filterMap (fun g => if g.1 = .lm then some g.2 else none) →
      args.confusables = c.given.filterMap (fun g => if g.1 = .confusables then some g.2 else none) →
      args.contextrules = c.given.filterMap (fun g => if g.1 = .contextrules then some g.2 else none) →
      programFor c x.orders = args.resources.map callFor ++ args.lm.map .readLm ++
        args.confusables.map .readConfusablelist ++ args.contextrules.map .readContextrules ++
        [.build x.orders] := by
    intro args h1 h2 h3 h4
    rw [h1, h2, h3, h4]
    simp only [programFor, List.map_filterMap, wordsCall_eq, lmCall_eq, confusablesCall_eq, rulesCall_eq]
  constructor
  · rintro ⟨args, h1, h2, h3, h4, h5, h6⟩
    obtain ⟨L0, g1, g2⟩ := load_runs.mp h6
    exact ⟨args.alphabet, L0, h1, g1, by rw [prog args h2 h3 h4 h5]; exact g2⟩
  · rintro ⟨f, L0, h1, h2, h3⟩
    have ha : c.valueOf .alphabet = some f :=
      (valueOf_iff (c := c) (n := .alphabet) (l := .alphabet) (d := none)
        (by cases c.sub <;> rfl) (hc.2 _ (by decide))).mpr (.inl h1)
    obtain ⟨args, ha'⟩ : ∃ args, c.loadArgs x.pos = .ok args := by
      unfold CommandLine.loadArgs
      rw [ha]
      exact ⟨_, rfl⟩
    obtain ⟨g1, g2, g3, g4, g5⟩ := command_line_resources hpos hc ha'
    refine ⟨args, g1, g2, g3, g4, g5, load_runs.mpr ⟨L0, ?_, ?_⟩⟩
    · rw [hc.2 .alphabet (by decide) _ _ g1 h1]; exact h2
    · rw [← prog args g2 g3 g4 g5]; exact h3

/-! ### Parameters -/

theorem keyword_threshold {x : PyExt} {t : ParsedThreshold} (h : ThresholdFits x.f32 t) :
    extractThreshold x.f32 x.f64 x.parseF32 (thresholdArgument t) = some t := by
  cases t with
  | absolute n =>
    have : (PyVal.int n).asUnsigned 255 = some n := readBack_unsigned h
    simp only [extractThreshold, thresholdArgument, this]
  | ratio q =>
    have : (PyVal.float q).asF32 x.f32 x.f64 = some q := readBack_single h
    simp [extractThreshold, thresholdArgument, this, PyVal.asUnsigned, PyVal.asInt]
  | ratioWithLimit q n =>
    have h1 : (PyVal.float q).asF32 x.f32 x.f64 = some q := readBack_single h.1
    have h2 : (PyVal.int n).asUnsigned 255 = some n := readBack_unsigned h.2
    simp only [extractThreshold, thresholdArgument, h1, h2]

/-- **C126**: a Python program can ask for any parameters that fit their types, but for the order of
language models. -/
theorem keywords_give {x : PyExt} {p : SearchParameters} (h : ParamsFit x.f32 p) :
    x.newParams (keywords p) = { p with lmOrder := 3 } := by
  have hm : p.maxMatches ≤ 2 ^ 64 - 1 := by have := h.matches; omega
  have hs : p.maxSeq ≤ 2 ^ 64 - 1 := by have := h.seq; omega
  simp only [PyExt.newParams, keywords, List.foldl_cons, List.foldl_nil]
  simp only [PyExt.setParam, keyword_threshold h.anagram, keyword_threshold h.edit, readBack_unsigned hm,
    readBack_unsigned hs, readBack_unsigned h.ngram, readBack_single h.context,
    readBack_single h.variantmodel, readBack_single h.lm, readBack_single h.rules, readBack_single h.freq,
    PyVal.asF64, PyVal.asBool, Option.elim, SearchParameters.default]
  cases hst : p.stopCriterion <;> simp

theorem thresholdText_fits {f32 : Rounding} {parse : List Char → Option EFloat}
    (hp : ∀ s q, parse s = some q → IsSingle f32 q) {s : List Char} {t : ParsedThreshold}
    (h : ThresholdText parse s t) : ThresholdFits f32 t := by
  cases h with
  | absolute h => exact numberText_le h
  | ratio _ h => exact hp _ _ h
  | limit h h' => exact ⟨hp _ _ h, numberText_le h'⟩

/-- The parameters of a command line fit their types. -/
theorem request_fits {f32 : Rounding} {parseF32 parseF64 : List Char → Option EFloat}
    (hp : ∀ s q, parseF32 s = some q → IsSingle f32 q) {c : CommandLine} {q : SearchParameters}
    (h : Request parseF32 parseF64 c q) : ParamsFit f32 q := by
  have h0 : IsSingle f32 (.fin 0) := by intro a ha; cases ha; exact f32.zero
  have h1 : IsSingle f32 (.fin 1) := by intro a ha; cases ha; exact f32.one
  have hf : IsSingle f32 q.freqWeight := by
    rcases h.freq with ⟨v, _, hv⟩ | ⟨_, e⟩
    · exact hp _ _ hv
    · rw [e]; exact h0
  obtain ⟨_, _, ha⟩ := h.anagram
  obtain ⟨_, _, he⟩ := h.edit
  obtain ⟨_, _, hm⟩ := h.matches'
  have hm' := numberText_le hm
  by_cases ht : c.sub = .search ∨ c.sub = .learn
  · have t := h.text ht
    obtain ⟨_, _, t1⟩ := t.ngram
    obtain ⟨_, _, t2⟩ := t.seq
    obtain ⟨_, _, t3⟩ := t.lm
    obtain ⟨_, _, t4⟩ := t.variant
    obtain ⟨_, _, t5⟩ := t.rules
    obtain ⟨_, _, t6⟩ := t.context
    have t1' := numberText_le t1
    have t2' := numberText_le t2
    exact ⟨thresholdText_fits hp ha, thresholdText_fits hp he, by omega, t1', by omega, hp _ _ t6,
      hp _ _ t4, hp _ _ t3, hp _ _ t5, hf⟩
  · obtain ⟨t1, t2, t3, t4, t5, t6, t7⟩ := h.noText ht
    exact ⟨thresholdText_fits hp ha, thresholdText_fits hp he, by omega, by rw [t1]; decide,
      by rw [t2]; decide, by rw [t7]; exact h1, by rw [t5]; exact h1, by rw [t4]; exact h1,
      by rw [t6]; exact h1, hf⟩

/-- **C126**: there are keyword arguments with which a Python program searches with the parameters of a
command line. -/
theorem parameters_as_python {x : ToolExt} (hp : ∀ s q, x.parseF32 s = some q → IsSingle x.text.f32 q)
    {c : CommandLine} {L : Loaded} {w : Weights} {p : TextParams} (h : Asked x c L w p) :
    ∃ q, Request x.parseF32 x.parseF64 c q ∧ Numbers ((conversions x).newParams (keywords q)) p := by
  obtain ⟨q, hq, _, hn⟩ := h.params
  refine ⟨q, hq, ?_⟩
  rw [keywords_give (x := conversions x) (request_fits hp hq)]
  exact ⟨hn.anagram, hn.edit, hn.matches', hn.score, hn.cutoff, hn.stop, hn.freq, hn.ngram, hn.seq,
    hn.single, hn.variant, hn.lm, hn.rules, hn.offsets⟩

/-! ### Queries -/

theorem variantDict_exists {m : Vm} (f64 : Rounding) (w : Rat) {r : VariantResult}
    (h1 : r.vocabId < m.decoder.length) (h2 : ∀ id, r.via = some id → id < m.decoder.length) :
    ∃ d, VariantDict m f64 w r d := by
  obtain ⟨via, hvia⟩ : ∃ via : Option (List Char), (r.via = none ∧ via = none) ∨
      ∃ id u, r.via = some id ∧ m.decoder[id]? = some u ∧ via = some u.text := by
    cases hr : r.via with
    | none => exact ⟨none, .inl ⟨rfl, rfl⟩⟩
    | some id =>
      exact ⟨_, .inr ⟨id, _, rfl, List.getElem?_eq_getElem (h2 id hr), rfl⟩⟩
  exact ⟨⟨(m.decoder[r.vocabId]).text, r.score f64 w, r.distScore, r.freqScore, via, _⟩,
    ⟨_, List.getElem?_eq_getElem h1, rfl, rfl⟩, rfl, rfl, rfl, hvia⟩

theorem columns_dict {x : ToolExt} {c : CommandLine} {L : Loaded} {p : TextParams} {lex : Bool}
    (hlex : lex = true ↔ Given c .outputLexmatch) (hl : L.vm.lexicons.length ≤ 32) {r : VariantResult}
    {d : PyVariant} (h : VariantDict L.vm x.text.f64 p.variant.freqWeight r d) {cols : List Char} :
    VariantColumns x c L p r cols ↔ cols = dictColumns x.showF lex d := by
  obtain ⟨v, h1, h2, h3⟩ := h.text
  unfold VariantColumns dictColumns
  rw [h2, h3, h.score]
  constructor
  · rintro ⟨v', h4, lx, h5, rfl⟩
    rw [h1] at h4
    cases h4
    rcases h5 with ⟨h5, rfl⟩ | ⟨h5, _, rfl⟩
    · rw [if_neg (by rw [hlex]; exact h5)]
    · rw [if_pos (hlex.mpr h5)]
  · rintro rfl
    refine ⟨v, h1, _, ?_, rfl⟩
    cases lex with
    | false => exact .inl ⟨by rw [← hlex]; decide, rfl⟩
    | true => exact .inr ⟨hlex.mp rfl, hl, rfl⟩

theorem columns_dicts {x : ToolExt} {c : CommandLine} {L : Loaded} {p : TextParams} {lex : Bool}
    (hlex : lex = true ↔ Given c .outputLexmatch) (hl : L.vm.lexicons.length ≤ 32)
    {rs : List VariantResult} {ds : List PyVariant}
    (h : List.Forall₂ (VariantDict L.vm x.text.f64 p.variant.freqWeight) rs ds) {cols : List (List Char)} :
    List.Forall₂ (VariantColumns x c L p) rs cols ↔ cols = ds.map (dictColumns x.showF lex) := by
  induction h generalizing cols with
  | nil => simp
  | cons h1 _ ih =>
    rw [List.forall₂_cons_left_iff]
    constructor
    · rintro ⟨col, cols, h3, h4, rfl⟩
      rw [(columns_dict hlex hl h1).mp h3, ih.mp h4]
      rfl
    · rintro rfl
      exact ⟨_, _, (columns_dict hlex hl h1).mpr rfl, ih.mpr rfl, rfl⟩

theorem dicts_exist {m : Vm} (f64 : Rounding) (w : Rat) {rs : List VariantResult}
    (h : ∀ r ∈ rs, r.vocabId < m.decoder.length ∧ ∀ id, r.via = some id → id < m.decoder.length) :
    ∃ ds, List.Forall₂ (VariantDict m f64 w) rs ds := by
  induction rs with
  | nil => exact ⟨[], .nil⟩
  | cons r rs ih =>
    obtain ⟨d, hd⟩ := variantDict_exists (m := m) f64 w (h r (by simp)).1 (h r (by simp)).2
    obtain ⟨ds, hds⟩ := ih fun r hr => h r (by simp [hr])
    exact ⟨d :: ds, .cons hd hds⟩

/-- The number of files with words bounds the number of lexicons. -/
theorem pyLoads_lexicons {x : ToolExt} {c : CommandLine} {L : Loaded} (h : PyLoads x c L)
    (h32 : (c.given.filter fun g => g.1 ∈ wordOptions).length ≤ 32) : L.vm.lexicons.length ≤ 32 := by
  obtain ⟨f, L0, _, h2, h3⟩ := h
  obtain ⟨_, _, _, _, _, _, _, _, _, _, _, hlex⟩ := py_history h2 (runs_calls h3)
  rw [hlex]
  refine le_trans ?_ h32
  unfold wordFiles
  refine le_trans (List.length_filter_le _ _) ?_
  unfold programFor
  simp only [List.filterMap_append, List.length_append, List.filterMap_filterMap]
  have hc : ∀ l : List (OptName × List Char),
      (l.filterMap fun g => (confusablesCall g).bind wordFile) = [] := by
    intro l
    rw [List.filterMap_eq_nil_iff]
    rintro ⟨o, f⟩ _
    cases o <;> rfl
  have hr : ∀ l : List (OptName × List Char), (l.filterMap fun g => (rulesCall g).bind wordFile) = [] := by
    intro l
    rw [List.filterMap_eq_nil_iff]
    rintro ⟨o, f⟩ _
    cases o <;> rfl
  rw [hc, hr]
  simp only [List.length_nil, Nat.add_zero, List.filterMap_cons, wordFile, List.filterMap_nil]
  generalize c.given = l
  induction l with
  | nil => simp
  | cons g l ih =>
    obtain ⟨o, f⟩ := g
    cases o <;>
      simp [wordsCall, lmCall, wordFile, wordOptions] at ih ⊢ <;> omega

theorem queryRow_dicts {x : ToolExt} {c : CommandLine} {L : Loaded} {p : TextParams} {cfg : Config} {lex : Bool}
    (hlex : lex = true ↔ Given c .outputLexmatch) (hl : L.vm.lexicons.length ≤ 32)
    (hw : cfg.weights.sum x.text.f64 ≠ 0) {l row : List Char} :
    (∃ vs, L.vm.findVariants x.text.toExt cfg p.variant l = .ok vs ∧ QueryRow x c L p l vs row) ↔
      ∃ ds, L.vm.pyFindVariants x.text.toExt cfg p.variant l = .ok ds ∧
        row = dictsRow x.showF lex l ds := by
  constructor
  · rintro ⟨vs, h1, cols, h2, rfl⟩
    obtain ⟨ds, hds⟩ := dicts_exist (m := L.vm) x.text.f64 p.variant.freqWeight (rs := vs) fun r hr =>
      ⟨find_variants_ids (x := x.text.toExt) hw h1 r hr, find_variants_via (x := x.text.toExt) hw h1 r hr⟩
    refine ⟨ds, (py_find_variants _ _ _ _ _ _).mpr ⟨vs, h1, .inr hl, hds⟩, ?_⟩
    rw [(columns_dicts hlex hl hds).mp h2, dictsRow, List.flatMap_def]
  · rintro ⟨ds, h1, rfl⟩
    obtain ⟨vs, h2, _, hds⟩ := (py_find_variants _ _ _ _ _ _).mp h1
    refine ⟨vs, h2, _, (columns_dicts hlex hl hds).mpr rfl, ?_⟩
    rw [dictsRow, List.flatMap_def]

theorem forall₂_rows {α β : Type} {F : α → Res β} {row : α → β → List Char} {ls : List α}
    {rows : List (List Char)} :
    List.Forall₂ (fun l r => ∃ ds, F l = .ok ds ∧ r = row l ds) ls rows ↔
      ∃ dss, List.Forall₂ (fun l ds => F l = .ok ds) ls dss ∧
        rows = (ls.zip dss).map fun y => row y.1 y.2 := by
  induction ls generalizing rows with
  | nil => simp
  | cons l ls ih =>
    simp only [List.forall₂_cons_left_iff, ih]
    constructor
    · rintro ⟨r, rows, ⟨ds, h1, rfl⟩, ⟨dss, h2, rfl⟩, rfl⟩
      exact ⟨ds :: dss, ⟨ds, dss, h1, h2, rfl⟩, rfl⟩
    · rintro ⟨_, ⟨ds, dss, h1, h2, rfl⟩, rfl⟩
      exact ⟨_, _, ⟨ds, h1, rfl⟩, ⟨dss, h2, rfl⟩, rfl⟩

/-- **C126**: what a query prints without `--json` is what a Python program that loads the same can write
from the dictionaries that `find_variants` returns for the lines, with the same parameters. -/
theorem query_as_python {x : ToolExt} (hf : ∀ s, ';' ∈ s → x.parseF32 s = none) (hpos : StrictMono x.pos)
    {c : CommandLine} (hc : Accepted c) (hsub : c.sub = .query) (hj : ¬ Given c .json)
    (h32 : (c.given.filter fun g => g.1 ∈ wordOptions).length ≤ 32)
    (hw : ∀ L w p, Asked x c L w p → w.sum x.text.f64 ≠ 0) {lex : Bool}
    (hlex : lex = true ↔ Given c .outputLexmatch)
    (files : List (List Char)) (s : List Char) (ws : List (List FileWrite)) :
    x.main c files = .ok (.output s ws) ↔
      ws = [] ∧ ∃ L w p cfg inputs, PyLoads x c L ∧ Asked x c L w p ∧ Settings x c L w cfg ∧
        InputsOf x files inputs ∧ (p.singleThread = false → ∀ lines ∈ inputs, none ∉ lines) ∧
        ∃ dss, List.Forall₂
            (fun l ds => L.vm.pyFindVariants x.text.toExt cfg.toConfig p.variant l = .ok ds)
            (inputs.flatMap readable) dss ∧
          s = ((inputs.flatMap readable).zip dss).flatMap fun y => dictsRow x.showF lex y.1 y.2 := by
  rw [query_run hf hpos hc hsub hj]
  refine and_congr_right fun _ => ?_
  have key : ∀ L w p cfg, Asked x c L w p → Settings x c L w cfg → ∀ (ls : List (List Char)) rows,
      List.Forall₂ (fun l row => ∃ vs,
        L.vm.findVariants x.text.toExt cfg.toConfig p.variant l = .ok vs ∧ QueryRow x c L p l vs row) ls rows ↔
      ∃ dss, List.Forall₂
          (fun l ds => L.vm.pyFindVariants x.text.toExt cfg.toConfig p.variant l = .ok ds) ls dss ∧
        rows = (ls.zip dss).map fun y => dictsRow x.showF lex y.1 y.2 := by
    intro L w p cfg ha hs ls rows
    have hl := pyLoads_lexicons ((loads_as_python hpos hc).mp ha.loaded) h32
    have hw' : cfg.toConfig.weights.sum x.text.f64 ≠ 0 := by
      have := hw L w p ha
      rw [← hs.weights] at this
      exact this
    simp only [queryRow_dicts hlex hl hw']
    exact forall₂_rows
  constructor
  · rintro ⟨L, w, p, cfg, inputs, h1, h2, h3, h4, rows, h5, rfl⟩
    obtain ⟨dss, h6, rfl⟩ := (key L w p cfg h1 h2 _ _).mp h5
    exact ⟨L, w, p, cfg, inputs, (loads_as_python hpos hc).mp h1.loaded, h1, h2, h3, h4, dss, h6,
      (List.flatMap_def ..).symm⟩
  · rintro ⟨L, w, p, cfg, inputs, _, h1, h2, h3, h4, dss, h5, rfl⟩
    exact ⟨L, w, p, cfg, inputs, h1, h2, h3, h4, _, (key L w p cfg h1 h2 _ _).mpr ⟨dss, h5, rfl⟩,
      List.flatMap_def ..⟩

/-! ### Searches -/

theorem listed_eq {α : Type} {vs : List α} {sel : Option Nat} {l l' : List α} (h : Listed vs sel l)
    (h' : Listed vs sel l') : l = l' := by
  rcases h with ⟨i, r, rfl, h1, rfl⟩ | ⟨h1, rfl⟩
  · rcases h' with ⟨j, r', e, h2, rfl⟩ | ⟨h2, rfl⟩
    · cases e
      rw [h1] at h2
      cases h2
      rfl
    · rw [h2 i rfl] at h1
      cases h1
  · rcases h' with ⟨j, r', rfl, h2, rfl⟩ | ⟨_, rfl⟩
    · rw [h1 j rfl] at h2
      cases h2
    · rfl

theorem row_dict {x : ToolExt} {c : CommandLine} {L : Loaded} {p : TextParams} {lex : Bool}
    (hlex : lex = true ↔ Given c .outputLexmatch) (hl : L.vm.lexicons.length ≤ 32) {a : Match} {d : PyMatch}
    (h : MatchDict L.vm L.book.tags x.text.f64 p.variant.freqWeight a d) {row : List Char} :
    MatchRow x c L p a row ↔ row = matchDictRow x.showF lex d := by
  obtain ⟨l, h1, h2⟩ := h.variants
  have key : ∀ cols : List (List Char), (match a.variants with
      | none => cols = []
      | some vs => ∃ l, Listed vs a.selected l ∧ List.Forall₂ (VariantColumns x c L p) l cols) ↔
      cols = d.variants.map (dictColumns x.showF lex) := by
    intro cols
    rw [← columns_dicts hlex hl h2]
    cases hv : a.variants with
    | none =>
      rw [hv] at h1
      have : l = [] := listed_eq h1 (.inr ⟨fun i _ => rfl, rfl⟩)
      rw [this]
      simp
    | some vs =>
      rw [hv] at h1
      constructor
      · rintro ⟨l', h3, h4⟩
        rw [listed_eq h1 h3]
        exact h4
      · intro h3
        exact ⟨l, h1, h3⟩
  unfold MatchRow matchDictRow
  rw [h.input, h.first, h.last, List.flatMap_def]
  constructor
  · rintro ⟨cols, h3, rfl⟩
    rw [(key _).mp h3]
  · rintro rfl
    exact ⟨_, (key _).mpr rfl, rfl⟩

theorem rows_dicts {x : ToolExt} {c : CommandLine} {L : Loaded} {p : TextParams} {lex : Bool}
    (hlex : lex = true ↔ Given c .outputLexmatch) (hl : L.vm.lexicons.length ≤ 32) {ms : List Match}
    {ds : List PyMatch}
    (h : List.Forall₂ (MatchDict L.vm L.book.tags x.text.f64 p.variant.freqWeight) ms ds)
    {rows : List (List Char)} :
    List.Forall₂ (MatchRow x c L p) ms rows ↔ rows = ds.map (matchDictRow x.showF lex) := by
  induction h generalizing rows with
  | nil => simp
  | cons h1 _ ih =>
    rw [List.forall₂_cons_left_iff]
    constructor
    · rintro ⟨row, rows, h3, h4, rfl⟩
      rw [(row_dict hlex hl h1).mp h3, ih.mp h4]
      rfl
    · rintro rfl
      exact ⟨_, _, (row_dict hlex hl h1).mpr rfl, ih.mpr rfl, rfl⟩

theorem matchDict_exists {m : Vm} {book : RuleBook} (hbook : BookOk book) (f64 : Rounding) (w : Rat)
    {a : Match} (ht : ∀ t ∈ a.tag, ∃ r ∈ book.rules, t ∈ r.tag)
    (hv : ∀ v ∈ a.variants.getD [], v.vocabId < m.decoder.length ∧
      ∀ id, v.via = some id → id < m.decoder.length) :
    ∃ d, MatchDict m book.tags f64 w a d := by
  have hlist := skipAt_listed (variants := a.variants.getD []) (selected := a.selected)
  generalize (selectedResult a.selected (a.variants.getD [])).toList ++
    skipAt a.selected 0 (a.variants.getD []) = l at hlist
  obtain ⟨ds, hds⟩ := dicts_exist (m := m) f64 w (rs := l) fun r hr =>
    hv r ((listed_perm hlist).mem_iff.mp hr)
  obtain ⟨names, hn⟩ : ∃ names, List.Forall₂ (fun t n => book.tags[t]? = some n)
      (a.tag.take a.seqnr.length) names := by
    have hall : ∀ t ∈ a.tag.take a.seqnr.length, t < book.tags.length := by
      intro t htm
      obtain ⟨r, hr, htr⟩ := ht t (List.mem_of_mem_take htm)
      exact hbook.tags r hr t htr
    generalize a.tag.take a.seqnr.length = l at hall
    induction l with
    | nil => exact ⟨[], .nil⟩
    | cons t l ih =>
      obtain ⟨ns, hns⟩ := ih fun t ht => hall t (by simp [ht])
      exact ⟨_ :: ns, .cons (List.getElem?_eq_getElem (hall t (by simp))) hns⟩
  by_cases hT : a.tag = []
  · exact ⟨⟨a.text, a.first, a.last, none, ds⟩, rfl, rfl, rfl, .inl ⟨hT, rfl⟩, l, hlist, hds⟩
  · exact ⟨⟨a.text, a.first, a.last, some (names, a.seqnr.take a.tag.length), ds⟩, rfl, rfl, rfl,
      .inr ⟨hT, names, hn, rfl⟩, l, hlist, hds⟩

theorem forall₂_exists_rows {α β γ δ : Type} {F : α → Res β} {G : α → Res γ} {R : β → δ → Prop}
    {row : γ → δ} {ls : List α} {rows : List δ}
    (h : ∀ a r, (∃ b, F a = .ok b ∧ R b r) ↔ ∃ d, G a = .ok d ∧ r = row d) :
    (∃ found, List.Forall₂ (fun a b => F a = .ok b) ls found ∧ List.Forall₂ R found rows) ↔
      ∃ found, List.Forall₂ (fun a d => G a = .ok d) ls found ∧ rows = found.map row := by
  induction ls generalizing rows with
  | nil => simp
  | cons l ls ih =>
    simp only [List.forall₂_cons_left_iff]
    constructor
    · rintro ⟨_, ⟨b, bs, h1, h2, rfl⟩, h3⟩
      obtain ⟨r, rs, h4, h5, rfl⟩ := List.forall₂_cons_left_iff.mp h3
      obtain ⟨d, h6, rfl⟩ := (h l r).mp ⟨b, h1, h4⟩
      obtain ⟨ds, h7, rfl⟩ := ih.mp ⟨bs, h2, h5⟩
      exact ⟨_, ⟨d, ds, h6, h7, rfl⟩, rfl⟩
    · rintro ⟨_, ⟨d, ds, h6, h7, rfl⟩, rfl⟩
      obtain ⟨b, h1, h4⟩ := (h l _).mpr ⟨d, h6, rfl⟩
      obtain ⟨bs, h2, h5⟩ := ih.mpr ⟨ds, h7, rfl⟩
      exact ⟨_, ⟨b, bs, h1, h2, rfl⟩, .cons h4 h5⟩

theorem searchText_dicts {x : ToolExt} {c : CommandLine} {L : Loaded} {p : TextParams} {cfg : TextConfig}
    {lex : Bool} (hlex : lex = true ↔ Given c .outputLexmatch) (hl : L.vm.lexicons.length ≤ 32)
    (hw : cfg.weights.sum x.text.f64 ≠ 0) (hsp : x.text.isAlpha ' ' = false)
    (hsolve : SolverOk x.text.solve) (hcfg : cfg.contextRules = L.book.rules)
    (hrules : ∀ r ∈ L.book.rules, RuleOk r) (hbook : BookOk L.book) {lines : List (Option (List Char))}
    {text : List Char} :
    SearchText x c L p (L.vm.findAllMatches x.text cfg p) lines text ↔
      DictText x.showF lex c (L.vm.pyFindAllMatches L.book.tags x.text cfg p) lines text := by
  have one : ∀ (t : List Char) rows,
      (∃ ms, L.vm.findAllMatches x.text cfg p t = .ok ms ∧ List.Forall₂ (MatchRow x c L p) ms rows) ↔
      ∃ ds, L.vm.pyFindAllMatches L.book.tags x.text cfg p t = .ok ds ∧
        rows = ds.map (matchDictRow x.showF lex) := by
    intro t rows
    constructor
    · rintro ⟨ms, h1, h2⟩
      have hk := search_known (p := p) hsp hsolve hw (by rw [hcfg]; exact hrules) h1
      rw [hcfg] at hk
      obtain ⟨ds, hds⟩ : ∃ ds,
          List.Forall₂ (MatchDict L.vm L.book.tags x.text.f64 p.variant.freqWeight) ms ds := by
        clear h1 h2
        induction ms with
        | nil => exact ⟨[], .nil⟩
        | cons a ms ih =>
          obtain ⟨d, hd⟩ := matchDict_exists (m := L.vm) hbook x.text.f64 p.variant.freqWeight
            (hk a (by simp)).1 (hk a (by simp)).2
          obtain ⟨ds, hds⟩ := ih fun a ha => hk a (by simp [ha])
          exact ⟨d :: ds, .cons hd hds⟩
      exact ⟨ds, (py_find_all_matches _ _ _ _ _ _ _).mpr ⟨ms, h1, .inr hl, hds⟩,
        (rows_dicts hlex hl hds).mp h2⟩
    · rintro ⟨ds, h1, rfl⟩
      obtain ⟨ms, h2, _, hds⟩ := (py_find_all_matches _ _ _ _ _ _ _).mp h1
      exact ⟨ms, h2, (rows_dicts hlex hl hds).mpr rfl⟩
  have join : ∀ found : List (List PyMatch),
      (((found.map (List.map (matchDictRow x.showF lex))).filter fun r => r ≠ []).map List.flatten) =
        (found.filter fun ds => ds ≠ []).map (List.flatMap (matchDictRow x.showF lex)) := by
    intro found
    rw [List.filter_map, List.map_map]
    congr 1
    congr 1
    funext ds
    simp
  unfold SearchText DictText
  constructor
  · rintro ⟨perLine, sep, gs, found, rows, h1, h2, h3, h4, h5, rfl⟩
    obtain ⟨ds, h6, rfl⟩ := (forall₂_exists_rows (F := fun g => L.vm.findAllMatches x.text cfg p ([sep].intercalate g))
      (fun g => one ([sep].intercalate g))).mp ⟨found, h4, h5⟩
    exact ⟨perLine, sep, gs, ds, h1, h2, h3, h6, by rw [join]⟩
  · rintro ⟨perLine, sep, gs, ds, h1, h2, h3, h4, rfl⟩
    obtain ⟨found, h5, h6⟩ := (forall₂_exists_rows (F := fun g => L.vm.findAllMatches x.text cfg p ([sep].intercalate g))
      (fun g => one ([sep].intercalate g))).mpr ⟨ds, h4, rfl⟩
    exact ⟨perLine, sep, gs, found, _, h1, h2, h3, h5, h6, by rw [join]⟩

/-- **C126**: what a search prints without `--json` is what a Python program that loads the same can write
from the dictionaries that `find_all_matches` returns for the groups of lines. -/
theorem search_as_python {x : ToolExt} (hf : ∀ s, ';' ∈ s → x.parseF32 s = none) (hpos : StrictMono x.pos)
    (hmarks : MarksOk x.load.isSpace) (hsp : x.text.isAlpha ' ' = false) (hsolve : SolverOk x.text.solve)
    {c : CommandLine} (hc : Accepted c) (hsub : c.sub = .search) (hj : ¬ Given c .json)
    {as : List (List (List Char × Option Nat × VocabParams))} (hfiles : UsableFiles x c as)
    (hw : ∀ L w p, Asked x c L w p → w.sum x.text.f64 ≠ 0) {lex : Bool}
    (hlex : lex = true ↔ Given c .outputLexmatch)
    (files : List (List Char)) (s : List Char) (ws : List (List FileWrite)) :
    x.main c files = .ok (.output s ws) ↔
      ws = [] ∧ ∃ L w p cfg inputs texts, PyLoads x c L ∧ Asked x c L w p ∧ Settings x c L w cfg ∧
        InputsOf x files inputs ∧
        List.Forall₂ (DictText x.showF lex c (L.vm.pyFindAllMatches L.book.tags x.text cfg p)) inputs texts ∧
        s = texts.flatten := by
  rw [search_run hf hpos hc hsub hj]
  refine and_congr_right fun _ => ?_
  obtain ⟨_, L', _, _, _, hL', _, hl, hrules, hbook, _⟩ := usable_loads hmarks hfiles
  have key : ∀ L w p cfg, Asked x c L w p → Settings x c L w cfg → ∀ lines text,
      SearchText x c L p (L.vm.findAllMatches x.text cfg p) lines text ↔
      DictText x.showF lex c (L.vm.pyFindAllMatches L.book.tags x.text cfg p) lines text := by
    intro L w p cfg ha hs lines text
    cases loadedFor_unique hpos hc ha.loaded hL'
    exact searchText_dicts hlex hl (by rw [hs.weights]; exact hw _ w p ha) hsp hsolve hs.rules hrules hbook
  constructor
  · rintro ⟨L, w, p, cfg, inputs, texts, h1, h2, h3, h4, h5⟩
    exact ⟨L, w, p, cfg, inputs, texts, (loads_as_python hpos hc).mp h1.loaded, h1, h2, h3,
      h4.imp fun _ _ hk => (key L w p cfg h1 h2 _ _).mp hk, h5⟩
  · rintro ⟨L, w, p, cfg, inputs, texts, _, h1, h2, h3, h4, h5⟩
    exact ⟨L, w, p, cfg, inputs, texts, h1, h2, h3,
      h4.imp fun _ _ hk => (key L w p cfg h1 h2 _ _).mpr hk, h5⟩

/-! ### JSON -/

/-- The object for a variant holds what the dictionary holds. -/
theorem object_dict {x : ToolExt} {c : CommandLine} {L : Loaded} {p : TextParams} {lex : Bool}
    (hlex : lex = true ↔ Given c .outputLexmatch) {r : VariantResult} {d : PyVariant}
    (h : VariantDict L.vm x.text.f64 p.variant.freqWeight r d) {j : Json} (hj : VariantObject x c L p r j) :
    j = dictObject x.showF lex d := by
  obtain ⟨v, h1, h2, h3⟩ := h.text
  obtain ⟨v', via, lx, g1, g2, g3, rfl⟩ := hj
  rw [h1] at g1
  cases g1
  unfold dictObject
  rw [h2, h3, h.score, h.dist, h.freq]
  have e1 : via = (d.via.map fun t => ("via".toList, Json.str t)).toList := by
    rcases g2 with ⟨g2, rfl⟩ | ⟨id, u, g2, g4, rfl⟩
    · rcases h.via with ⟨_, e⟩ | ⟨id, w, e, _⟩
      · rw [e]; rfl
      · rw [g2] at e; cases e
    · rcases h.via with ⟨e, _⟩ | ⟨id', w, e, e', e''⟩
      · rw [g2] at e; cases e
      · rw [g2] at e
        cases e
        rw [g4] at e'
        cases e'
        rw [e'']
        rfl
  have e2 : lx = if lex then [("lexicons".toList, Json.arr (((L.vm.lexicons.zipIdx.filter fun n =>
        v.lexindex.testBit n.2).map fun n => n.1).map .str))] else [] := by
    rcases g3 with ⟨g3, rfl⟩ | ⟨g3, rfl⟩
    · rw [if_neg (by rw [hlex]; exact g3)]
    · rw [if_pos (hlex.mpr g3), List.map_map]
      rfl
  rw [e1, e2]

/-- **C126**: the JSON document that a query prints has for each line the dictionaries that a Python program
that loads the same gets from `find_variants`. -/
theorem query_json_as_python {x : ToolExt} (hf : ∀ s, ';' ∈ s → x.parseF32 s = none)
    (hpos : StrictMono x.pos) {c : CommandLine} (hc : Accepted c) (hsub : c.sub = .query)
    (hj : Given c .json) (hclean : CleanFiles x c)
    (h32 : (c.given.filter fun g => g.1 ∈ wordOptions).length ≤ 32)
    (hw : ∀ L w p, Asked x c L w p → w.sum x.text.f64 ≠ 0) {lex : Bool}
    (hlex : lex = true ↔ Given c .outputLexmatch) {files : List (List Char)} (hone : files.length ≤ 1)
    (hlines : ∀ inputs, InputsOf x files inputs → ∀ lines ∈ inputs, ∀ l, some l ∈ lines → Plain l)
    {s : List Char} {ws : List (List FileWrite)} (h : x.main c files = .ok (.output s ws)) :
    ws = [] ∧ ∃ L w p cfg lines dss, PyLoads x c L ∧ Asked x c L w p ∧ Settings x c L w cfg ∧
      InputsOf x files [lines] ∧
      List.Forall₂ (fun l ds => L.vm.pyFindVariants x.text.toExt cfg.toConfig p.variant l = .ok ds)
        (readable lines) dss ∧
      Document s (.arr (((readable lines).zip dss).map fun y =>
        .obj [("input".toList, .str y.1), ("variants".toList, .arr (y.2.map (dictObject x.showF lex)))])) := by
  obtain ⟨rfl, L, w, p, cfg, lines, js, h1, h2, h3, h4, h5⟩ :=
    query_json_run hf hpos hc hsub hj hclean hone hlines h
  have hpy := (loads_as_python hpos hc).mp h1.loaded
  have hl := pyLoads_lexicons hpy h32
  have hw' : cfg.toConfig.weights.sum x.text.f64 ≠ 0 := by
    have := hw L w p h1
    rw [← h2.weights] at this
    exact this
  suffices hs : ∃ dss, List.Forall₂
      (fun l ds => L.vm.pyFindVariants x.text.toExt cfg.toConfig p.variant l = .ok ds) (readable lines) dss ∧
      js = ((readable lines).zip dss).map fun y =>
        .obj [("input".toList, .str y.1), ("variants".toList, .arr (y.2.map (dictObject x.showF lex)))] by
    obtain ⟨dss, h6, rfl⟩ := hs
    exact ⟨rfl, L, w, p, cfg, lines, dss, hpy, h1, h2, h3, h6, h4⟩
  clear h3 h4
  generalize readable lines = ls at h5
  induction h5 with
  | nil => exact ⟨[], .nil, rfl⟩
  | @cons l j ls js h6 _ ih =>
    obtain ⟨dss, h7, rfl⟩ := ih
    obtain ⟨vs, h8, os, h9, rfl⟩ := h6
    obtain ⟨ds, hds⟩ := dicts_exist (m := L.vm) x.text.f64 p.variant.freqWeight (rs := vs) fun r hr =>
      ⟨find_variants_ids (x := x.text.toExt) hw' h8 r hr, find_variants_via (x := x.text.toExt) hw' h8 r hr⟩
    have e : os = ds.map (dictObject x.showF lex) := by
      clear h8
      induction hds generalizing os with
      | nil => cases h9; rfl
      | cons k1 _ ih =>
        obtain ⟨o, os, k3, k4, rfl⟩ := List.forall₂_cons_left_iff.mp h9
        rw [object_dict hlex k1 k3, ih _ k4]
        rfl
    refine ⟨ds :: dss, .cons ((py_find_variants _ _ _ _ _ _).mpr ⟨vs, h8, .inr hl, hds⟩) h7, ?_⟩
    rw [e]
    rfl

/-! ### Defaults -/

theorem numberText_eq {max : Nat} {s : List Char} {n : Nat} (h : NumberText max s n) {k : Nat}
    (hk : parseUnsigned max s = some k) : n = k := by
  rw [(parseUnsigned_iff _ _ _).mpr h] at hk
  exact Option.some.inj hk

theorem thresholdText_eq {parse : List Char → Option EFloat} {s : List Char} {t : ParsedThreshold}
    (h : ThresholdText parse s t) (hs : ';' ∉ s) {k : Nat} (hk : parseUnsigned 255 s = some k) :
    t = .absolute k := by
  cases h with
  | absolute h => rw [numberText_eq h hk]
  | ratio h => exact absurd ((parseUnsigned_iff _ _ _).mp hk) (h k)
  | limit => simp at hs

/-- **C126**, where they differ: without options for parameters, a search with the tool allows an edit
distance of 2 and 10 variants, and a Python program 3 and 20; the rest is the same. -/
theorem search_defaults {parseF32 parseF64 : List Char → Option EFloat} {c : CommandLine}
    (hsub : c.sub = .search ∨ c.sub = .learn) (hno : ∀ o ∈ parameterOptions, ¬ Given c o)
    (h1 : parseF64 "0.25".toList = some (.fin (1 / 4))) (h2 : parseF64 "2.0".toList = some (.fin 2))
    (h3 : parseF32 "1.0".toList = some (.fin 1)) (h4 : parseF32 "3.0".toList = some (.fin 3))
    (h5 : parseF32 "0.0".toList = some (.fin 0)) (x : PyExt) {q : SearchParameters}
    (hq : Request parseF32 parseF64 c q) (hu : q.unicodeoffsets = false) :
    q = { x.newParams [] with maxEditDistance := .absolute 2, maxMatches := 10 } := by
  have force : ∀ {o d v}, o ∈ parameterOptions → InForce c o d v → v = d := by
    intro o d v ho h
    rcases h with h | h
    · exact absurd ⟨v, h⟩ (hno o ho)
    · exact h.2
  obtain ⟨_, f1, a1⟩ := hq.anagram; cases force (by decide) f1
  obtain ⟨_, f2, a2⟩ := hq.edit; cases force (by decide) f2
  obtain ⟨_, f3, a3⟩ := hq.matches'; cases force (by decide) f3
  obtain ⟨_, f4, a4⟩ := hq.score; cases force (by decide) f4
  obtain ⟨_, f5, a5⟩ := hq.cutoff; cases force (by decide) f5
  have t := hq.text hsub
  obtain ⟨_, g1, b1⟩ := t.ngram; cases force (by decide) g1
  obtain ⟨_, g2, b2⟩ := t.seq; cases force (by decide) g2
  obtain ⟨_, g3, b3⟩ := t.order; cases force (by decide) g3
  obtain ⟨_, g4, b4⟩ := t.lm; cases force (by decide) g4
  obtain ⟨_, g5, b5⟩ := t.variant; cases force (by decide) g5
  obtain ⟨_, g6, b6⟩ := t.rules; cases force (by decide) g6
  obtain ⟨_, g7, b7⟩ := t.context; cases force (by decide) g7
  rw [h1] at a4; rw [h2] at a5; rw [h3] at b4 b6; rw [h4] at b5; rw [h5] at b7
  have c1 := thresholdText_eq a1 (by decide) (k := 3) (by decide)
  have c2 := thresholdText_eq a2 (by decide) (k := 2) (by decide)
  have c3 := numberText_eq a3 (k := 10) (by decide)
  have c4 := numberText_eq b1 (k := 3) (by decide)
  have c5 := numberText_eq b2 (k := 250) (by decide)
  have c6 := numberText_eq b3 (k := 3) (by decide)
  have c7 : q.freqWeight = .fin 0 := by
    rcases hq.freq with ⟨v, hv, _⟩ | ⟨_, e⟩
    · exact absurd ⟨v, hv⟩ (hno .freqRanking (by decide))
    · exact e
  have c8 : q.stopCriterion = .exhaustive := by
    cases hs : q.stopCriterion with
    | exhaustive => rfl
    | stopAtExactMatch => exact absurd (hq.stop.mp hs) (hno .stopExact (by decide))
  have c9 : q.singleThread = false := by
    rw [← Bool.not_eq_true, hq.single]
    rintro (h | h)
    · exact hno .singleThread (by decide) h
    · exact hno .interactive (by decide) h
  have c10 : q.consolidateMatches = true := by
    rw [← Bool.not_eq_false, hq.overlap]
    exact hno .allowOverlap (by decide)
  obtain ⟨q1, q2, q3, q4, q5, q6, q7, q8, q9, q10, q11, q12, q13, q14, q15, q16, q17⟩ := q
  simp only [Option.some.injEq] at a4 a5 b4 b5 b6 b7 c1 c2 c3 c4 c5 c6 c7 c8 c9 c10 hu
  simp only [PyExt.newParams, List.foldl_nil, SearchParameters.default, ← a4, ← a5, ← b4, ← b5, ← b6, ← b7,
    c1, c2, c3, c4, c5, c6, c7, c8, c9, c10, hu]

/-- **C126**, where they differ: likewise for a query, in which the parameters for texts have no effect. -/
theorem query_defaults {parseF32 parseF64 : List Char → Option EFloat} {c : CommandLine}
    (hsub : c.sub = .query) (hno : ∀ o ∈ parameterOptions, ¬ Given c o)
    (h1 : parseF64 "0.25".toList = some (.fin (1 / 4))) (h2 : parseF64 "2.0".toList = some (.fin 2))
    (x : PyExt) {q : SearchParameters} (hq : Request parseF32 parseF64 c q) (hu : q.unicodeoffsets = false) :
    q = { x.newParams [] with
      maxEditDistance := .absolute 2, maxMatches := 10, maxNgram := 1, lmOrder := 1
      variantmodelWeight := .fin 1, contextWeight := .fin 1 } := by
  have force : ∀ {o d v}, o ∈ parameterOptions → InForce c o d v → v = d := by
    intro o d v ho h
    rcases h with h | h
    · exact absurd ⟨v, h⟩ (hno o ho)
    · exact h.2
  obtain ⟨_, f1, a1⟩ := hq.anagram; cases force (by decide) f1
  obtain ⟨_, f2, a2⟩ := hq.edit; cases force (by decide) f2
  obtain ⟨_, f3, a3⟩ := hq.matches'; cases force (by decide) f3
  obtain ⟨_, f4, a4⟩ := hq.score; cases force (by decide) f4
  obtain ⟨_, f5, a5⟩ := hq.cutoff; cases force (by decide) f5
  obtain ⟨b1, b2, b3, b4, b5, b6, b7⟩ := hq.noText (by rw [hsub]; decide)
  rw [h1] at a4; rw [h2] at a5
  have c1 := thresholdText_eq a1 (by decide) (k := 3) (by decide)
  have c2 := thresholdText_eq a2 (by decide) (k := 2) (by decide)
  have c3 := numberText_eq a3 (k := 10) (by decide)
  have c7 : q.freqWeight = .fin 0 := by
    rcases hq.freq with ⟨v, hv, _⟩ | ⟨_, e⟩
    · exact absurd ⟨v, hv⟩ (hno .freqRanking (by decide))
    · exact e
  have c8 : q.stopCriterion = .exhaustive := by
    cases hs : q.stopCriterion with
    | exhaustive => rfl
    | stopAtExactMatch => exact absurd (hq.stop.mp hs) (hno .stopExact (by decide))
  have c9 : q.singleThread = false := by
    rw [← Bool.not_eq_true, hq.single]
    rintro (h | h)
    · exact hno .singleThread (by decide) h
    · exact hno .interactive (by decide) h
  have c10 : q.consolidateMatches = true := by
    rw [← Bool.not_eq_false, hq.overlap]
    exact hno .allowOverlap (by decide)
  obtain ⟨q1, q2, q3, q4, q5, q6, q7, q8, q9, q10, q11, q12, q13, q14, q15, q16, q17⟩ := q
  simp only [Option.some.injEq] at a4 a5 b1 b2 b3 b4 b5 b6 b7 c1 c2 c3 c7 c8 c9 c10 hu
  simp only [PyExt.newParams, List.foldl_nil, SearchParameters.default, ← a4, ← a5, b1, b2, b3, b4, b5, b6, b7,
    c1, c2, c3, c7, c8, c9, c10, hu]

/-! ### Examples -/

/-- The input `abbaaa`, with `abb` in the lexicon. -/
def exToolB : ToolExt :=
  { exTool with
    load := { exLoad with file := fun f => if f = ['l'] then some [some "abb\t3".toList] else exFile f }
    stdin := [some "abbaaa".toList] }

/-- What the command line loads, by way of a Python program. -/
def exLoadedB : Loaded :=
  match (exToolB.load.pyNew ['a']).bind fun L => L.calls exToolB.load (programFor exQuery exOrders) with
  | .ok L => L
  | .error _ => ⟨Vm.new [], [], ⟨[], []⟩⟩

theorem exPyLoads : PyLoads exToolB exQuery exLoadedB :=
  ⟨['a'], _, by decide, rfl, .cons rfl (.cons rfl (.cons rfl .nil))⟩

example : LoadedFor exToolB exQuery exLoadedB ∧ programFor exQuery exOrders =
    [.readVariants ['e'] true, .readLexicon ['l'], .build exOrders] :=
  ⟨(loads_as_python (x := exToolB) ex_pos (accepted_of (by decide) (by decide))).mpr exPyLoads, rfl⟩

/-- All kinds of files. -/
example : programFor exSearchR exOrders =
    [.readVariants ['e'] true, .readLexicon ['l'], .readVariants ['v'] false, .readLm ['m'],
      .readConfusablelist ['c'], .readContextrules ['r'], .build exOrders] := rfl

theorem exSingle : ∀ s q, exParse s = some q → IsSingle .exact q := fun _ _ _ _ _ => rfl

theorem exAskedB : Asked exToolB exQuery exLoadedB ⟨1 / 2, 1 / 8, 1 / 8, 1 / 8, 1 / 8⟩ (exNumbers exQuery) := by
  have h := exUsableNumbers (c := exQuery) (accepted_of (by decide) (by decide)) rfl (by decide +kernel) rfl
    (exSome exTextParams (by decide +kernel)) (.inr (by decide +kernel))
  exact ⟨(loads_as_python (x := exToolB) ex_pos (accepted_of (by decide) (by decide))).mpr exPyLoads,
    h.weights, h.params, h.cutoff, h.debug⟩

example : ∃ q, Request exParse exParse exQuery q ∧
    Numbers ((conversions exToolB).newParams (keywords q)) (exNumbers exQuery) :=
  parameters_as_python (x := exToolB) exSingle exAskedB

example : ParamsFit .exact { SearchParameters.default with
    maxAnagramDistance := .ratioWithLimit (.fin (1 / 2)) 4, stopCriterion := .stopAtExactMatch } := by
  refine ⟨⟨?_, by decide⟩, by show 3 ≤ 255; decide, by decide, by decide, by decide, ?_, ?_, ?_, ?_, ?_⟩ <;>
    exact fun _ _ => rfl

theorem exWeights {x : ToolExt} (h64 : x.text.f64 = .exact) (hp : x.parseF64 = exParse) {c : CommandLine}
    (hc : Accepted c)
    (hw : c.weights exParse = .ok [.fin (1 / 2), .fin (1 / 8), .fin (1 / 8), .fin (1 / 8), .fin (1 / 8)]) :
    ∀ L w p, Asked x c L w p → w.sum x.text.f64 ≠ 0 := by
  intro L w p h
  have h1 := (command_line_weights (parseF64 := x.parseF64) hc _ _ _ _ _).mpr h.weights
  rw [hp, hw] at h1
  simp only [Except.ok.injEq, List.cons.injEq, EFloat.fin.injEq, and_true] at h1
  obtain ⟨e1, e2, e3, e4, e5⟩ := h1
  rw [h64]
  have : w = ⟨1 / 2, 1 / 8, 1 / 8, 1 / 8, 1 / 8⟩ := by
    cases w
    simp only at e1 e2 e3 e4 e5
    rw [Weights.mk.injEq]
    exact ⟨e1.symm, e2.symm, e3.symm, e4.symm, e5.symm⟩
  rw [this]
  decide +kernel

/-- A query of three lines in a file and one in the standard input. -/
example : ∃ L w p cfg inputs, PyLoads exTool exQuery L ∧ Asked exTool exQuery L w p ∧
    Settings exTool exQuery L w cfg ∧ InputsOf exTool [['q'], ['-']] inputs ∧
    ∃ dss, List.Forall₂
        (fun l ds => L.vm.pyFindVariants exTool.text.toExt cfg.toConfig p.variant l = .ok ds)
        (inputs.flatMap readable) dss ∧
      "ab\tab\t1\t\nbb\tb\t0.5\t\nb\tb\t1\t\nba\tb\t0.5\t\tab\t0.5\t\n".toList =
        ((inputs.flatMap readable).zip dss).flatMap fun y => dictsRow exTool.showF false y.1 y.2 := by
  have hc : Accepted exQuery := accepted_of (by decide) (by decide)
  obtain ⟨_, L, w, p, cfg, inputs, h0, h1, h2, h3, _, h4⟩ :=
    (query_as_python (lex := false) ex_noSemicolon ex_pos hc rfl (not_given (by decide)) (by decide)
      (exWeights rfl rfl hc (by decide +kernel)) (by simp [not_given (c := exQuery) (o := .outputLexmatch) (by decide)])
      [['q'], ['-']] _ _).mp
      (show exTool.main exQuery [['q'], ['-']] = .ok (.output
        "ab\tab\t1\t\nbb\tb\t0.5\t\nb\tb\t1\t\nba\tb\t0.5\t\tab\t0.5\t\n".toList []) by decide +kernel)
  exact ⟨L, w, p, cfg, inputs, h0, h1, h2, h3, h4⟩

/-- A search with a language model, confusables and a rule. -/
def exSearchB : CommandLine := { exSearchR with given := exSearchR.given.tail }

example : ∃ s L w p cfg inputs texts, exToolR.main exSearchB [] = .ok (.output s []) ∧
    PyLoads exToolR exSearchB L ∧ Asked exToolR exSearchB L w p ∧ Settings exToolR exSearchB L w cfg ∧
    InputsOf exToolR [] inputs ∧
    List.Forall₂ (DictText exToolR.showF true exSearchB
      (L.vm.pyFindAllMatches L.book.tags exToolR.text cfg p)) inputs texts ∧ s = texts.flatten := by
  have hc : Accepted exSearchB := accepted_of (by decide) (by decide)
  have hm : ∃ s, exToolR.main exSearchB [] = .ok (.output s []) := by
    refine ⟨"ab\t0:2\tab\t1\t\t\"l;v;m\"\nb\t3:4\tb\t1\t\t\"e;l\"\nbb\t5:7\tb\t0.5\t\t\"e;l\"\n".toList, ?_⟩
    decide +kernel
  obtain ⟨s, hm⟩ := hm
  obtain ⟨_, L, w, p, cfg, inputs, texts, h⟩ :=
    (search_as_python (x := exToolR) (lex := true) (as := exAdded) ex_noSemicolon ex_pos ex_marks (by decide +kernel)
      refSolver_ok hc rfl (not_given (by decide))
      ⟨⟨exArgsR, by constructor <;> decide, exLoadable⟩, by decide⟩
      (exWeights rfl rfl hc (by decide +kernel)) (by simp [Given, exSearchB, exSearchR]) [] _ _).mp hm
  exact ⟨s, L, w, p, cfg, inputs, texts, hm, h⟩

example : ∃ s L w p cfg lines dss, exToolR.main exQueryJ [] = .ok (.output s []) ∧
    PyLoads exToolR exQueryJ L ∧ Asked exToolR exQueryJ L w p ∧ Settings exToolR exQueryJ L w cfg ∧
      InputsOf exToolR [] [lines] ∧
      List.Forall₂ (fun l ds => L.vm.pyFindVariants exToolR.text.toExt cfg.toConfig p.variant l = .ok ds)
        (readable lines) dss ∧
      Document s (.arr (((readable lines).zip dss).map fun y =>
        .obj [("input".toList, .str y.1), ("variants".toList, .arr (y.2.map (dictObject exToolR.showF false)))])) := by
  have hc : Accepted exQueryJ := accepted_of (by decide) (by decide)
  have hs : (match exToolR.main exQueryJ [] with
      | .ok (.output _ []) => true
      | _ => false) = true := by decide +kernel
  split at hs
  · rename_i s hm
    obtain ⟨_, L, w, p, cfg, lines, dss, h⟩ := query_json_as_python (x := exToolR) (files := [])
      (lex := false) ex_noSemicolon ex_pos hc rfl
      ⟨[], by decide⟩ exCleanQuery (by decide) (exWeights rfl rfl hc (by decide +kernel))
      (by simp [not_given (c := exQueryJ) (o := .outputLexmatch) (by decide)]) (by decide)
      (fun inputs h => exLines h) hm
    exact ⟨s, L, w, p, cfg, lines, dss, hm, h⟩
  · cases hs

/-- The default parameters of a Python program. -/
def pyDefaults : TextParams :=
  { variant := ⟨.absolute 3, .absolute 3, 20, 1 / 4, 2, .exhaustive, 0⟩, maxNgram := 3, maxSeq := 250
    singleThread := false, variantmodelWeight := 3, lmWeight := 1, contextrulesWeight := 1
    unicodeoffsets := false }

/-- C126, disagreement: with the defaults of each, the tool prints no variant of `abbaaa`, and a Python
program that loads the same gets one. -/
theorem defaults_differ :
    exToolB.main exQuery [] = .ok (.output "abbaaa\n".toList []) ∧
    PyLoads exToolB exQuery exLoadedB ∧ Numbers ((conversions exToolB).newParams []) pyDefaults ∧
    exLoadedB.vm.pyFindVariants exToolB.text.toExt
        ⟨⟨1 / 2, 1 / 8, 1 / 8, 1 / 8, 1 / 8⟩, exLoadedB.confusables, false, exToolB.editScript⟩
        pyDefaults.variant "abbaaa".toList =
      .ok [⟨"abb".toList, 1 / 2, 1 / 2, 1, none, [['l']]⟩] := by
  refine ⟨by decide +kernel, exPyLoads,
    ⟨rfl, rfl, rfl, rfl, rfl, rfl, rfl, rfl, rfl, rfl, rfl, rfl, rfl, rfl⟩, ?_⟩
  decide +kernel

example : (∀ o ∈ parameterOptions, ¬ Given exQuery o) ∧
    (∀ o ∈ parameterOptions, ¬ Given exSearchR o) ∧ exParse "3.0".toList = some (.fin 3) := by
  refine ⟨fun o ho => not_given ?_, fun o ho => not_given ?_, by decide +kernel⟩ <;>
    (revert o; decide)

end Verif.Props
