import Verif.Lemmas.Load
import Verif.Props.Index
import Verif.Props.Total

/-!
# Properties of loading a model in the command line tool (C80 – C82)
-/
namespace Verif.Props

open Verif.Spec Verif.Model Verif.Lemmas

/-! ## C80: what is loaded -/

/-- **C80**: lexicons, variant lists and error lists are read in the order in which they occur on the
command line. -/
theorem resources_in_order (cmd : List (Nat × Resource)) (hpos : cmd.Pairwise fun a b => a.1 < b.1)
    (args : LoadArgs) (h : Reports cmd args) : args.resources = cmd.map Prod.snd := by
  have hperm : args.collected.Perm cmd := by
    obtain ⟨h1, h2, h3⟩ := h
    unfold LoadArgs.collected
    rw [h1, h2, h3]
    clear h1 h2 h3 hpos
    induction cmd with
    | nil => exact .refl _
    | cons a cmd ih =>
      obtain ⟨i, r⟩ := a
      cases r with
      | lexicon f =>
        simp only [List.filterMap_cons, List.map_cons, List.cons_append]
        exact ih.cons _
      | variantList f =>
        simp only [List.filterMap_cons, List.map_cons]
        refine .trans ?_ (ih.cons _)
        rw [List.append_assoc, List.cons_append, List.append_assoc]
        exact List.perm_middle
      | errorList f =>
        simp only [List.filterMap_cons, List.map_cons]
        refine .trans ?_ (ih.cons _)
        exact List.perm_middle
  have hsorted := List.pairwise_insertionSort (fun a b : Nat × Resource => a.1 ≤ b.1) args.collected
  have hp := (List.perm_insertionSort (fun a b : Nat × Resource => a.1 ≤ b.1) args.collected).trans hperm
  unfold LoadArgs.resources
  congr 1
  have hfst : ∀ a ∈ cmd, ∀ b ∈ cmd, a.1 = b.1 → a = b := by
    intro a ha b hb e
    by_contra hab
    have hnd : (cmd.map Prod.fst).Nodup := by
      rw [List.nodup_iff_pairwise_ne, List.pairwise_map]
      exact hpos.imp fun h => Nat.ne_of_lt h
    exact hab (List.inj_on_of_nodup_map hnd ha hb e)
  refine hp.eq_of_pairwise ?_ hsorted (hpos.imp fun h => Nat.le_of_lt h)
  intro a b ha hb h1 h2
  exact hfst a (hp.mem_iff.mp ha) b hb (Nat.le_antisymm h1 h2)

/-- **C80**: a model that was loaded is the result of a history that adds, for each source in order, the
words of that source (`Adds` says which, with which frequencies and parameters), and then builds the
model.  All references lead to entries, no string of the alphabet is empty, and the names of the lexicons
are those of the sources. -/
theorem loaded_history {x : LoadExt} {args : LoadArgs} {o : Orders} {L : Loaded}
    (h : x.load args o = .ok L) :
    ∃ lines ops as, x.file args.alphabet = some lines ∧
      L.vm.alphabet = readAlphabet x.isSpace [] lines ∧ NoEmpty L.vm.alphabet ∧
      (Vm.new L.vm.alphabet).run (ops ++ [.build o]) = .ok L.vm ∧ NoLearning (ops ++ [.build o]) ∧
      (∀ y ∈ (ops ++ [Op.build o]).flatMap opLinks, y.1 < L.vm.decoder.length) ∧
      AddsAll x 0 (sourcesOf args) as ∧
      (∀ t, additions t (ops ++ [.build o]) = addsOf t as.flatten) ∧
      L.vm.lexicons = (sourcesOf args).map Source.name := by
  unfold LoadExt.load at h
  obtain ⟨m0, h0, h⟩ := bind_ok.mp h
  obtain ⟨m1, h1, h⟩ := bind_ok.mp h
  obtain ⟨m2, h2, h⟩ := bind_ok.mp h
  obtain ⟨cs, h3, h⟩ := bind_ok.mp h
  obtain ⟨book, h4, h⟩ := bind_ok.mp h
  obtain ⟨m3, h5, h⟩ := bind_ok.mp h
  cases pure_ok.mp h
  obtain ⟨lines, g0, g1⟩ := bind_ok.mp h0
  cases pure_ok.mp g1
  have i0 := inv_new (readAlphabet x.isSpace [] lines)
  obtain ⟨ops1, as1, a1, a2, a3⟩ := loads_resources i0 h1
  have i1 := a2.inv i0
  obtain ⟨ops2, as2, b1, b2, b3⟩ := loads_lms i1 h2
  have i2 := b2.inv i1
  have l := a2.trans i1 b2
  have hrun : (Vm.new (readAlphabet x.isSpace [] lines)).run (ops1 ++ ops2 ++ [.build o]) = .ok m3 :=
    run_append_ok l.run (bind_ok.mpr ⟨m3, h5, rfl⟩)
  have halpha : m3.alphabet = readAlphabet x.isSpace [] lines :=
    (inv_run i0 hrun).2.1
  refine ⟨lines, ops1 ++ ops2, as1 ++ as2, open_ok.mp g0, halpha, ?_, ?_, ?_, ?_, ?_, ?_, ?_⟩
  · show NoEmpty m3.alphabet
    rw [halpha]
    exact read_alphabet_noEmpty _ _
  · show (Vm.new m3.alphabet).run _ = _
    rw [halpha]
    exact hrun
  · intro f ab o' hm
    rcases List.mem_append.mp hm with hm | hm
    · exact l.learn f ab o' hm
    · simp at hm
  · intro y hy
    rw [List.flatMap_append] at hy
    rcases List.mem_append.mp hy with hy | hy
    · obtain ⟨t, ht⟩ := l.links y hy
      show y.1 < m3.decoder.length
      rw [(build_cases h5).1]
      exact textAt_lt ht
    · simp [opLinks] at hy
  · unfold sourcesOf
    refine addsAll_append a1 ?_
    rw [a3] at b1
    simpa [Vm.new] using b1
  · intro t
    rw [additions_append, l.adds, List.flatten_append]
    simp [additions]
  · show m3.lexicons = _
    rw [(build_cases h5).1]
    show m2.lexicons = _
    rw [b3, a3]
    simp [sourcesOf, Vm.new]

/-- The variants recorded in a loaded model are entries. -/
theorem loaded_variantsExist {x : LoadExt} {args : LoadArgs} {o : Orders} {L : Loaded}
    (h : x.load args o = .ok L) : VariantsExist L.vm := by
  unfold LoadExt.load at h
  obtain ⟨m0, h0, h⟩ := bind_ok.mp h
  obtain ⟨m1, h1, h⟩ := bind_ok.mp h
  obtain ⟨m2, h2, h⟩ := bind_ok.mp h
  obtain ⟨cs, h3, h⟩ := bind_ok.mp h
  obtain ⟨book, h4, h⟩ := bind_ok.mp h
  obtain ⟨m3, h5, h⟩ := bind_ok.mp h
  cases pure_ok.mp h
  obtain ⟨lines, g0, g1⟩ := bind_ok.mp h0
  cases pure_ok.mp g1
  have i0 := inv_new (readAlphabet x.isSpace [] lines)
  obtain ⟨ops1, as1, a1, a2, a3⟩ := loads_resources i0 h1
  obtain ⟨ops2, as2, b1, b2, b3⟩ := loads_lms (a2.inv i0) h2
  exact variantsExist_build (b2.variants (a2.variants (variantsExist_new _))) h5

theorem adds_unique {x : LoadExt} {i : Nat} {s : Source}
    {a a' : List (List Char × Option Nat × VocabParams)} (h : Adds x i s a) (h' : Adds x i s a') :
    a = a' := by
  have vocab : ∀ {ls : List (List Char)} {es es' : List (List Char × Nat)},
      List.Forall₂ (VocabLine {}) ls es → List.Forall₂ (VocabLine {}) ls es' → es = es' := by
    intro ls es es' h h'
    induction h generalizing es' with
    | nil => cases h'; rfl
    | cons h1 _ ih =>
      cases h' with
      | cons h1' h2' => rw [vocabLine_unique h1 h1', ih h2']
  cases h with
  | lexicon h1 h2 =>
    cases h' with
    | lexicon h1' h2' => rw [h1] at h1'; cases h1'; rw [vocab h2 h2']
  | variants h1 h2 =>
    cases h' with
    | variants h1' h2' => rw [h1] at h1'; cases h1'; rw [variantLines_unique h2 h2']
  | errors h1 h2 =>
    cases h' with
    | errors h1' h2' => rw [h1] at h1'; cases h1'; rw [variantLines_unique h2 h2']
  | lm h1 h2 =>
    cases h' with
    | lm h1' h2' => rw [h1] at h1'; cases h1'; rw [vocab h2 h2']

theorem addsAll_unique {x : LoadExt} {ss : List Source} : ∀ {i : Nat}
    {as as' : List (List (List Char × Option Nat × VocabParams))}, AddsAll x i ss as →
    AddsAll x i ss as' → as = as' := by
  induction ss with
  | nil => intro i as as' h h'; cases h; cases h'; rfl
  | cons s ss ih =>
    intro i as as' h h'
    cases h with
    | cons h1 h2 =>
      cases h' with
      | cons h1' h2' => rw [adds_unique h1 h1', ih h2 h2']

theorem adds_params {x : LoadExt} {i : Nat} {s : Source}
    {a : List (List Char × Option Nat × VocabParams)} (h : Adds x i s a) :
    ∀ y ∈ a, y.2.2.index = i ∧ y.2.2.freqHandling = .max := by
  cases h with
  | lexicon _ _ =>
    intro y hy
    obtain ⟨e, _, rfl⟩ := List.mem_map.mp hy
    exact ⟨rfl, rfl⟩
  | lm _ _ =>
    intro y hy
    obtain ⟨e, _, rfl⟩ := List.mem_map.mp hy
    exact ⟨rfl, rfl⟩
  | variants _ _ =>
    intro y hy
    obtain ⟨e, _, hy⟩ := List.mem_flatMap.mp hy
    rcases List.mem_cons.mp hy with rfl | hy
    · exact ⟨rfl, rfl⟩
    · obtain ⟨v, _, rfl⟩ := List.mem_map.mp hy
      exact ⟨rfl, rfl⟩
  | errors _ _ =>
    intro y hy
    obtain ⟨e, _, hy⟩ := List.mem_flatMap.mp hy
    rcases List.mem_cons.mp hy with rfl | hy
    · exact ⟨rfl, rfl⟩
    · obtain ⟨v, _, rfl⟩ := List.mem_map.mp hy
      exact ⟨rfl, rfl⟩

theorem addsAll_params {x : LoadExt} {ss : List Source} : ∀ {i : Nat}
    {as : List (List (List Char × Option Nat × VocabParams))}, AddsAll x i ss as →
    ∀ k a, as[k]? = some a → k < ss.length ∧
      ∀ y ∈ a, y.2.2.index = (i + k) % 256 ∧ y.2.2.freqHandling = .max := by
  induction ss with
  | nil => intro i as h k a hk; cases h; simp at hk
  | cons s ss ih =>
    intro i as h k a hk
    cases h with
    | cons h1 h2 =>
      cases k with
      | zero =>
        simp only [List.getElem?_cons_zero, Option.some.injEq] at hk
        subst hk
        exact ⟨by simp, adds_params h1⟩
      | succ k =>
        rw [List.getElem?_cons_succ] at hk
        obtain ⟨g1, g2⟩ := ih h2 k a hk
        refine ⟨by simpa using g1, fun y hy => ?_⟩
        obtain ⟨e1, e2⟩ := g2 y hy
        exact ⟨by rw [e1]; congr 1; omega, e2⟩

theorem mem_addsOf {t : List Char} {adds : List (List Char × Option Nat × VocabParams)}
    {b : Option Nat × VocabParams} : b ∈ addsOf t adds ↔ (t, b) ∈ adds := by
  unfold addsOf
  rw [List.mem_map]
  constructor
  · rintro ⟨⟨t', b'⟩, h1, rfl⟩
    rw [List.mem_filter] at h1
    obtain ⟨h1, h2⟩ := h1
    simp only [decide_eq_true_eq] at h2
    subst h2
    exact h1
  · intro h
    exact ⟨(t, b), List.mem_filter.mpr ⟨h, by simp⟩, rfl⟩

/-- **C80**: after loading at most 256 sources, a text (other than the reserved ones) is an entry exactly
if a source has it.  Its frequency is the largest one given, it is in lexicon `i` exactly if source `i`
has it, it is transparent exactly if it occurs only as a variant in error lists, and whether it is looked
up is decided by the first source that has it. -/
theorem loaded_entry {x : LoadExt} {args : LoadArgs} {o : Orders} {L : Loaded}
    (h : x.load args o = .ok L) (hcount : (sourcesOf args).length ≤ 256)
    {as : List (List (List Char × Option Nat × VocabParams))} (has : AddsAll x 0 (sourcesOf args) as)
    (t : List Char) (hr : ¬ Reserved t) :
    (addsOf t as.flatten = [] → L.vm.encoder.get? t = none) ∧
    ∀ b bs, addsOf t as.flatten = b :: bs → ∃ id v, EntryAt L.vm t id v ∧
      Combined .max (frequencies (b :: bs)) v.frequency ∧
      (∀ i < 32, ∃ r, v.inLexicon i = .ok r ∧
        (r = true ↔ ∃ a, as[i]? = some a ∧ ∃ y ∈ a, y.1 = t)) ∧
      (v.vocabtype.check .TRANSPARENT = true ↔
        ∀ a ∈ b :: bs, a.2.vocabType.check .TRANSPARENT = true) ∧
      v.vocabtype.indexed = b.2.vocabType.indexed ∧ v.vocabtype.lm = b.2.vocabType.lm := by
  obtain ⟨lines, ops, as', _, _, _, hrun, hl, _, has', hadd, _⟩ := loaded_history h
  cases addsAll_unique has has'
  have hpar : ∀ y ∈ as.flatten, y.2.2.freqHandling = .max := by
    intro y hy
    obtain ⟨a, ha, hy⟩ := List.mem_flatten.mp hy
    obtain ⟨k, hk⟩ := List.mem_iff_getElem?.mp ha
    exact ((addsAll_params has k a hk).2 y hy).2
  constructor
  · intro he
    have := entry_of_history hrun hl hr
    rw [hadd, he] at this
    simp only at this
    cases hg : L.vm.encoder.get? t with
    | none => rfl
    | some i =>
      obtain ⟨v, hv, _⟩ := (vocabulary_bijection _ _ _ hrun t i).mp hg
      simp [entry, hg, hv] at this
  · intro b bs hb
    have hadd' := hadd t
    rw [hb] at hadd'
    have hmem : ∀ a ∈ b :: bs, (t, a) ∈ as.flatten := by
      intro a ha
      rw [← hb] at ha
      exact mem_addsOf.mp ha
    obtain ⟨id, v, hv, hf⟩ := frequency_combined _ _ _ hrun hl t hr .max (by rw [hadd']; simp)
      (by rw [hadd']; intro a ha; exact hpar _ (hmem a ha))
    rw [hadd'] at hf
    refine ⟨id, v, hv, hf, ?_, ?_, ?_⟩
    · intro i hi
      obtain ⟨r, h1, h2⟩ := in_lexicon_exact _ _ _ hrun hl t hr id v hv i hi
      refine ⟨r, h1, h2.trans ?_⟩
      rw [hadd', ← hb]
      constructor
      · rintro ⟨a, ha, e⟩
        have := mem_addsOf.mp ha
        obtain ⟨l, hl1, hl2⟩ := List.mem_flatten.mp this
        obtain ⟨k, hk⟩ := List.mem_iff_getElem?.mp hl1
        obtain ⟨g1, g2⟩ := addsAll_params has k l hk
        have := (g2 _ hl2).1
        simp only [Nat.zero_add] at this
        rw [e, Nat.mod_eq_of_lt (by omega)] at this
        rw [this]
        exact ⟨l, hk, _, hl2, rfl⟩
      · rintro ⟨l, hk, ⟨t', a⟩, hy, rfl⟩
        refine ⟨a, mem_addsOf.mpr (List.mem_flatten.mpr ⟨l, List.mem_of_getElem? hk, hy⟩), ?_⟩
        obtain ⟨g1, g2⟩ := addsAll_params has i l hk
        have := (g2 _ hy).1
        simp only [Nat.zero_add] at this
        rw [this, Nat.mod_eq_of_lt (by omega)]
    · rw [← hadd']
      exact transparent_exact _ _ _ hrun hl t hr id v hv
    · obtain ⟨i, w, hw, e1, e2⟩ := purposes_of_first_addition_partial _ _ _ hrun hl t hr b bs hadd'
      obtain ⟨_, rfl⟩ := entryAt_unique hv hw
      exact ⟨e1, e2⟩

/-- **C80**: with a model that was loaded, a query for a non-empty text of at most 65280 characters returns
normally, if the alphabet has at most 166 entries, no word has 65536 characters or more, and the weights
do not sum to zero. -/
theorem loaded_query_total {x : LoadExt} {args : LoadArgs} {o : Orders} {L : Loaded}
    (h : x.load args o = .ok L) (hlen : L.vm.alphabet.length ≤ 166)
    (hshort : ∀ v ∈ L.vm.decoder, v.text.length < 65536) (e : Ext) (cfg : Config) (p : Params)
    (hw : cfg.weights.sum e.f64 ≠ 0) (input : List Char) (hin0 : input ≠ [])
    (hin : input.length ≤ 65280) : ∃ res, L.vm.findVariants e cfg p input = .ok res := by
  obtain ⟨_, ops, _, _, _, hne, hrun, _, hrefs, _⟩ := loaded_history h
  exact find_variants_total _ hne hlen ops o _ hrun hrefs hshort e cfg p hw input hin0 hin

/-- **C80**: likewise a search in a text, with the rules that were loaded. -/
theorem loaded_search_total {x : LoadExt} {args : LoadArgs} {o : Orders} {L : Loaded}
    (h : x.load args o = .ok L) (hlen : L.vm.alphabet.length ≤ 166)
    (hshort : ∀ v ∈ L.vm.decoder, v.text.length < 65536) (e : TextExt) (cfg : TextConfig)
    (hcfg : cfg.contextRules = L.book.rules) (p : TextParams) (hw : cfg.weights.sum e.f64 ≠ 0)
    (hsp : e.isAlpha ' ' = false) (hsolve : SolverOk e.solve) (hseq : 1 ≤ p.maxSeq)
    (hlm : L.vm.haveLm = true → 0 < p.lmWeight →
      ∀ v ∈ L.vm.decoder, ∀ ws, TokensOf v.text ws → ws.length ≤ 255)
    (hrules : ∀ r ∈ L.book.rules, RuleOk r) (text : List Char)
    (hwords : ∀ segs a r b, Segmented e.isAlpha text segs → segs = a ++ r ++ b →
      r.length ≤ p.maxNgram → (stretch r).length ≤ 65280) :
    ∃ ms, L.vm.findAllMatches e cfg p text = .ok ms := by
  obtain ⟨_, ops, _, _, _, hne, hrun, _, hrefs, _⟩ := loaded_history h
  exact search_total _ hne hlen ops o _ hrun hrefs hshort e cfg p hw hsp hsolve hseq hlm
    (by rw [hcfg]; exact hrules) text hwords

/-! ### An example -/

/-- Files for the example. -/
def exFile (f : List Char) : Option (List (Option (List Char))) :=
  if f = ['a'] then some [some "a\tA".toList, some ['b']]
  else if f = ['l'] then some [some "ab\t3".toList, some "b\t1".toList]
  else if f = ['v'] then some [some "ab\tba\t0.9".toList, some [], none]
  else if f = ['e'] then some [some "b\tbb\t0.5".toList]
  else if f = ['m'] then some [some "a b\t2".toList, some "ab\t7".toList]
  else if f = ['c'] then some [some "=[a]\t0.9".toList, some "^=[b]$".toList]
  else none

def exLoad : LoadExt :=
  { file := exFile, isSpace := (· == ' '), parseF64 := exParseF64, parseF32 := exParseF64
    parseScript := fun s => if s = "=[a]".toList then some [.identity ['a']]
      else if s = "=[b]".toList then some [.identity ['b']] else none }

/-- `--errors e --lexicon l --variants v --lm m --confusables c` -/
def exArgs : LoadArgs :=
  { alphabet := ['a'], lexicons := [(['l'], 6)], variants := [(['v'], 8)], errors := [(['e'], 4)]
    lm := [['m']], confusables := [['c']], contextrules := [] }

def exLoaded : Loaded :=
  match exLoad.load exArgs exOrders with
  | .ok l => l
  | .error _ => ⟨Vm.new [], [], ⟨[], []⟩⟩

theorem exLoaded_ok : exLoad.load exArgs exOrders = .ok exLoaded := rfl

example : Reports [(4, .errorList ['e']), (6, .lexicon ['l']), (8, .variantList ['v'])] exArgs :=
  ⟨rfl, rfl, rfl⟩

/-- The error list comes first, so that `b` and `bb` have smaller ids than `ab`; `ab` has the frequency of
the language model, and `bb` is transparent. -/
example : exLoaded.vm.lexicons = [['e'], ['l'], ['v'], ['m']] ∧
    exLoaded.vm.decoder.map (fun v => (v.text, v.frequency, v.lexindex, v.vocabtype)) =
      [(bosText, 0, 0, .NONE), (eosText, 0, 0, .NONE), (unkText, 0, 0, .NONE),
       (['b'], 1, 3, .INDEXED), (['b', 'b'], 1, 1, ⟨true, false, true⟩), (['a', 'b'], 7, 14, .INDEXED),
       (['b', 'a'], 1, 4, .INDEXED), ("a b".toList, 2, 8, .LM)] ∧
    exLoaded.confusables.length = 2 ∧ exLoaded.vm.alphabet.length ≤ 166 ∧
    (∀ v ∈ exLoaded.vm.decoder, v.text.length < 65536) ∧
    (exLoaded.vm.findVariants exExt exConfig exParams ['a', 'b']).toOption.isSome := by
  decide +kernel

/-! ## C81: the subcommand `index` -/

theorem indexTexts_ok {m : Vm} {ids : List Nat} {vs : List VocabValue}
    (h : resolveAll m.decoder ids = .ok vs) :
    m.indexTexts ids = .ok (vs.flatMap fun v => '\t' :: v.text) := by
  induction ids generalizing vs with
  | nil => cases h; rfl
  | cons id ids ih =>
    rw [resolveAll] at h
    rw [Vm.indexTexts]
    cases hd : m.decoder[id]? with
    | none => rw [hd] at h; cases h
    | some v =>
      rw [hd] at h
      obtain ⟨vs', h1, h2⟩ := bind_ok.mp h
      cases pure_ok.mp h2
      rw [ih h1]
      simp [bind, Except.bind, pure, Except.pure]

/-- **C81**: after `build`, in whatever order the index is iterated, the subcommand `index` prints one
line for each anagram value of an indexed entry: the value and the texts of all indexed entries that have
it, in order of their ids. -/
theorem index_output (alphabet : Alphabet) (hne : NoEmpty alphabet) (hlen : alphabet.length ≤ 167)
    (ops : List Op) (o o' : Orders) (m : Vm)
    (h : (Vm.new alphabet).run (ops ++ [.build o]) = .ok m) :
    ∃ (keys : List Nat) (p : Nat → VocabValue → Bool),
      (∀ k v, p k v = true ↔ v.vocabtype.check .INDEXED = true ∧
        ∃ c, Encodes alphabet alphabet.length v.text c ∧ bagValue c = k) ∧
      keys.Nodup ∧ (∀ k, k ∈ keys ↔ ∃ v ∈ m.decoder, p k v = true) ∧
      m.indexOutput o' = .ok (keys.flatMap fun k => Nat.toDigits 10 k ++
        ((m.decoder.filter (p k)).flatMap fun v => '\t' :: v.text) ++ ['\n']) := by
  obtain ⟨m0, h0, hb⟩ := run_append.mp h
  obtain ⟨m0', hb', hb''⟩ := bind_ok.mp hb
  cases hb''
  have ha0 : m0.alphabet = alphabet := (inv_run (inv_new alphabet) h0).2.1
  obtain ⟨m1, h1, e1, _, e2, _, e3⟩ := build_index hb'
  obtain ⟨_, _, hnd, _⟩ := buildIndex_spec h1
  have hcheck : ∀ v : VocabValue, v.vocabtype.check .INDEXED = v.vocabtype.indexed := by
    intro v
    obtain ⟨a, b, c⟩ := v.vocabtype
    cases a <;> cases b <;> cases c <;> rfl
  have hval : ∀ (v : VocabValue) k, anahash alphabet v.text = .ok k ↔
      ∃ c, Encodes alphabet alphabet.length v.text c ∧ bagValue c = k := by
    intro v k
    obtain ⟨c, hc⟩ := encodes_exists hne alphabet.length v.text
    rw [anahash_eq hlen hc]
    constructor
    · intro e; cases e; exact ⟨c, hc, rfl⟩
    · rintro ⟨c', hc', rfl⟩
      rw [encodes_unique hc' hc]
  have hperm := o'.index_perm m.index
  rw [e1] at hperm
  refine ⟨(o'.index m.index).map Prod.fst,
    fun k v => v.vocabtype.indexed && decide (anahash alphabet v.text = .ok k), ?_, ?_, ?_, ?_⟩
  · intro k v
    rw [hcheck, Bool.and_eq_true, decide_eq_true_eq, hval]
  · rw [e1]
    exact (hperm.map _).nodup_iff.mpr hnd
  · intro k
    rw [e1, (hperm.map _).mem_iff, e2]
    have hg := index_get h1 (k := k)
    rw [ha0] at hg
    cases hget : HMap.get? m1.index k with
    | some node =>
      obtain ⟨g1, g2, _⟩ := hg.1 node hget
      refine ⟨fun _ => ?_, fun _ => List.mem_map.mpr ⟨_, mem_of_get? hget, rfl⟩⟩
      cases hi : node.instances with
      | nil => exact absurd hi g1
      | cons id ids =>
        rw [hi] at g2
        have : m0.decoder.filter (fun v => v.vocabtype.indexed &&
            decide (anahash alphabet v.text = .ok k)) ≠ [] := by
          intro e
          rw [e, resolveAll] at g2
          cases hd : m0.decoder[id]? with
          | none => rw [hd] at g2; cases g2
          | some v =>
            rw [hd] at g2
            obtain ⟨vs, _, h2⟩ := bind_ok.mp g2
            cases pure_ok.mp h2
        obtain ⟨v, hv⟩ := List.exists_mem_of_ne_nil _ this
        obtain ⟨hv1, hv2⟩ := List.mem_filter.mp hv
        exact ⟨v, hv1, hv2⟩
    | none =>
      refine ⟨fun hk => absurd hk (get?_eq_none.mp hget), ?_⟩
      rintro ⟨v, hv, hp⟩
      rw [Bool.and_eq_true, decide_eq_true_eq] at hp
      obtain ⟨c, hc, rfl⟩ := (hval v k).mp hp.2
      refine absurd hp.2 (hg.2 hget ⟨alphabet.length + 1, ?_, ?_⟩ v hv hp.1)
      · simp only [Vm.alphabetSize, ha0]
        rw [Nat.mod_eq_of_lt (by omega), if_neg (by omega)]
      · intro e he
        rw [charCount_bag (by omega) (encodes_within hc)] at he
        cases he
  · unfold Vm.indexOutput
    have hall : ∀ x ∈ o'.index m.index, HMap.get? m1.index x.1 = some x.2 := by
      intro x hx
      rw [e1] at hx
      exact get?_of_mem hnd (hperm.mem_iff.mp hx)
    generalize o'.index m.index = nodes at hall
    induction nodes with
    | nil => rfl
    | cons x nodes ih =>
      obtain ⟨k, node⟩ := x
      have hk := hall (k, node) (by simp)
      obtain ⟨g1, g2, _⟩ := (index_get h1 (k := k)).1 node hk
      rw [ha0, ← e2] at g2
      rw [Vm.indexLines, if_neg (by simpa using g1), indexTexts_ok g2, ih fun x hx => hall x (by simp [hx])]
      simp [bind, Except.bind, pure, Except.pure]

/-- `b` has value 3, `bb` 9, and `ab` and `ba` have 6. -/
example : (exLoaded.vm.indexOutput exOrders) = .ok "3\tb\n9\tbb\n6\tab\tba\n".toList := by
  decide +kernel

/-! ## C82: lists of confusables and the cutoff -/

/-- **C82**: a list of confusables is read without an error exactly if each line that is not empty stands
for a confusable; these are added in order. -/
theorem read_confusables (x : LoadExt) (lines : List (Option (List Char))) (cs cs' : List Confusable) :
    readConfusables x cs lines = .ok (cs', true) ↔
      ∃ new, List.Forall₂ (ConfusableLine x) (nonEmpty lines) new ∧ cs' = cs ++ new := by
  induction lines generalizing cs with
  | nil =>
    rw [readConfusables]
    constructor
    · intro h; cases h; exact ⟨[], .nil, by simp⟩
    · rintro ⟨new, h, rfl⟩; cases h; simp
  | cons l lines ih =>
    cases l with
    | none => rw [readConfusables, ih]; rfl
    | some line =>
      rw [readConfusables]
      cases line with
      | nil => rw [if_pos (by rfl), ih]; rfl
      | cons c rest =>
        rw [if_neg (by simp)]
        have hne : nonEmpty (some (c :: rest) :: lines) = (c :: rest) :: nonEmpty lines := by
          simp [nonEmpty, readable]
        rw [hne]
        generalize hline : c :: rest = line
        obtain ⟨script, more, hsplit⟩ : ∃ s r, splitChar '\t' line = s :: r := by
          cases e : splitChar '\t' line with
          | nil => exact absurd e (splitChar_ne_nil _ _)
          | cons s r => exact ⟨s, r, rfl⟩
        have hfields : FieldsOf line (script :: more) := (fieldsOf_iff _ _).mpr hsplit
        have hw : ∀ w, confusableWeight x.parseF64 (script :: more) = .ok w ↔
            ((more = [] ∧ w = 1) ∨ ∃ w' rest', more = w' :: rest' ∧ x.parseF64 w' = some w) := by
          intro w
          unfold confusableWeight
          cases more with
          | nil => simp [eq_comm]
          | cons a more =>
            simp only [List.getElem?_cons_succ, List.getElem?_cons_zero]
            cases hp : x.parseF64 a with
            | none => simp [hp]
            | some v => simp [hp]
        have hl : ∀ cf, ConfusableLine x line cf ↔ ∃ w, confusableWeight x.parseF64 (script :: more) = .ok w ∧
            Confusable.new x.parseScript script w = .ok (some cf) := by
          intro cf
          constructor
          · rintro ⟨s, r, w, h1, h2, h3⟩
            rw [fieldsOf_iff, hsplit] at h1
            cases h1
            exact ⟨w, (hw w).mpr h2, h3⟩
          · rintro ⟨w, h1, h2⟩
            exact ⟨script, more, w, hfields, (hw w).mp h1, h2⟩
        simp only [hsplit, List.getElem?_cons_zero, Option.getD_some]
        constructor
        · intro h
          obtain ⟨w, h1, h⟩ := bind_ok.mp h
          obtain ⟨cf, h2, h⟩ := bind_ok.mp h
          cases cf with
          | none => cases h
          | some cf =>
            obtain ⟨new, h3, rfl⟩ := (ih _).mp h
            exact ⟨cf :: new, .cons ((hl cf).mpr ⟨w, h1, h2⟩) h3, by simp⟩
        · rintro ⟨new, h, rfl⟩
          cases h with
          | cons h1 h2 =>
            obtain ⟨w, h3, h4⟩ := (hl _).mp h1
            exact bind_ok.mpr ⟨w, h3, bind_ok.mpr ⟨_, h4, (ih _).mpr ⟨_, h2, by simp⟩⟩⟩

/-- All lists of confusables of a command line, in order. -/
theorem loaded_confusables {x : LoadExt} {args : LoadArgs} {o : Orders} {L : Loaded}
    (h : x.load args o = .ok L) :
    ∃ news, List.Forall₂ (fun f new => ∃ lines, x.file f = some lines ∧
      List.Forall₂ (ConfusableLine x) (nonEmpty lines) new) args.confusables news ∧
      L.confusables = news.flatten := by
  unfold LoadExt.load at h
  obtain ⟨m0, _, h⟩ := bind_ok.mp h
  obtain ⟨m1, _, h⟩ := bind_ok.mp h
  obtain ⟨m2, _, h⟩ := bind_ok.mp h
  obtain ⟨cs, h3, h⟩ := bind_ok.mp h
  obtain ⟨book, _, h⟩ := bind_ok.mp h
  obtain ⟨m3, _, h⟩ := bind_ok.mp h
  cases pure_ok.mp h
  have gen : ∀ (fs : List (List Char)) (cs0 : List Confusable), readConfusableLists x cs0 fs = .ok cs →
      ∃ news, List.Forall₂ (fun f new => ∃ lines, x.file f = some lines ∧
        List.Forall₂ (ConfusableLine x) (nonEmpty lines) new) fs news ∧ cs = cs0 ++ news.flatten := by
    intro fs
    induction fs with
    | nil => intro cs0 h; cases h; exact ⟨[], .nil, by simp⟩
    | cons f fs ih =>
      intro cs0 h
      obtain ⟨lines, h1, h⟩ := bind_ok.mp h
      obtain ⟨⟨cs1, ok⟩, h2, h⟩ := bind_ok.mp h
      cases ok with
      | false => cases h
      | true =>
        obtain ⟨new, h4, rfl⟩ := (read_confusables _ _ _ _).mp h2
        obtain ⟨news, h5, rfl⟩ := ih _ h
        exact ⟨new :: news, .cons ⟨lines, open_ok.mp h1, h4⟩ h5, by simp⟩
  simpa using gen args.confusables [] h3

example : exLoaded.confusables.map (fun c => (c.script, c.weight, c.strictbegin, c.strictend)) =
    [([.identity ['a']], 9 / 10, false, false), ([.identity ['b']], 1, true, true)] := by
  decide +kernel

/-- **C82**: among numbers, the cutoffs the tool accepts are 0 and those from 1 on; what is not a number
is accepted as well. -/
theorem cutoff_accepted (c : EFloat) :
    cutoffAccepted c = true ↔ c = .nan ∨ c = .posInf ∨ ∃ q, c = .fin q ∧ (q = 0 ∨ 1 ≤ q) := by
  cases c with
  | fin q =>
    simp only [cutoffAccepted, Bool.not_eq_true', Bool.and_eq_false_iff, decide_eq_false_iff_not, not_lt,
      not_not, reduceCtorEq, false_or, EFloat.fin.injEq, exists_eq_left']
    exact or_comm
  | nan => simp [cutoffAccepted]
  | posInf => simp [cutoffAccepted]
  | negInf => simp [cutoffAccepted]

example : cutoffAccepted (.fin 2) = true ∧ cutoffAccepted (.fin (1 / 2)) = false ∧
    cutoffAccepted (.fin (-3)) = false ∧ cutoffAccepted (.fin 0) = true := by decide +kernel

end Verif.Props
