import Verif.Props.Learned

/-!
# What is learned from parts of texts (C106)
-/
namespace Verif.Props

open Verif.Spec Verif.Model Verif.Lemmas

theorem Stocked.find {A : Alphabet} (hne : NoEmpty A) (hlen : A.length ≤ 166) {o : Orders}
    {W : List (List Char)} {m : Vm} {s : Lexis × List (List Char × List Char × Rat)} (h : Stocked A o W m s)
    {x : TextExt} {cfg : Config} {p : Params}
    (hw : cfg.weights.sum x.f64 ≠ 0) (hfw : 0 ≤ p.freqWeight)
    (ha : Fits p.maxAnagramDistance) (he : Fits p.maxEditDistance) :
    ∀ l, l ≠ [] → ShortEnough x A p l → ∃ res us, m.findVariants x.toExt cfg p l = .ok res ∧
      Suggestions x A s.1 cfg p l us ∧ List.Forall₂ (SuggestedBy m) res us := by
  intro l h1 h2
  obtain ⟨ops, hrun⟩ := h.history
  refine find_variants_exact A hne hlen ops o m hrun h.short ?_ s.1 h.describes x cfg p hw hfw ha he l h1 h2
  intro v hv t sc ht
  obtain ⟨id, hid⟩ := List.getElem?_of_mem hv
  obtain ⟨l, i, e, hi⟩ := forall₂_exists (h.known.links id v hid) _ (List.mem_filter.mpr ⟨ht, rfl⟩)
  cases e
  obtain ⟨t', ht', _⟩ := Option.map_eq_some_iff.mp hi
  exact (List.getElem?_eq_some_iff.mp ht').1

/-- A model without a language model in which words are looked up. -/
structure Ready (A : Alphabet) (o : Orders) (W : List (List Char)) (m : Vm)
    (s : Lexis × List (List Char × List Char × Rat)) : Prop where
  stocked : Stocked A o W m s
  noLm : NoLm m
  haveLm : m.haveLm = false
  some : ∃ t, s.1.indexed t

theorem Ready.index {A : Alphabet} {o : Orders} {W : List (List Char)} {m : Vm}
    {s : Lexis × List (List Char × List Char × Rat)} (h : Ready A o W m s) : m.index.isEmpty = false := by
  obtain ⟨t, ht⟩ := h.some
  obtain ⟨v, hv, _, k4⟩ := (h.stocked.indexed t).mp ht
  obtain ⟨id, k1⟩ := List.getElem?_of_mem hv
  rw [check_indexed'] at k4
  obtain ⟨ops, hrun⟩ := h.stocked.history
  obtain ⟨k, node, _, hk⟩ := (built_of_run hrun).complete id v k1 k4
  rw [← Bool.not_eq_true]
  intro he
  rw [List.isEmpty_iff.mp he] at hk
  cases hk

theorem ready_learn {A : Alphabet} {o : Orders} {W : List (List Char)} {m : Vm}
    {s : Lexis × List (List Char × List Char × Rat)} (h : Ready A o W m s) {fs : List Finding}
    {new : List (List Char × List Char × Rat)}
    (hn : List.Forall₂ (fun f k => textAt m f.vocabId = some k.1 ∧ f.input = k.2.1 ∧ f.distScore = k.2.2) fs new)
    (hnew : ∀ k ∈ new, (k.1 ∈ W ∧ ¬ Reserved k.1) ∧ k.2.1.length < 65536)
    {m' : Vm} {k : Nat} (hl : m.learnVariants fs true o = .ok (m', k)) :
    k = (proper new).length ∧ Ready A o W m' (s.1.learned new, s.2 ++ proper new) := by
  obtain ⟨h1, h2⟩ := stocked_learn h.stocked hn hnew hl
  obtain ⟨⟨m1, c⟩, g1, g2⟩ := bind_ok.mp hl
  obtain ⟨m2, g3, g4⟩ := bind_ok.mp g2
  cases pure_ok.mp g4
  obtain ⟨hk1, _, hg⟩ := learnLoop_known h.stocked.known (by simp) g1 hn
  have hno : NoLm m1 := by
    refine ⟨hk1.inv, ?_, ?_⟩
    · have hs : m.step (.learn fs false o) = .ok m1 := by
        exact bind_ok.mpr ⟨(m1, k), bind_ok.mpr ⟨(m1, k), g1, rfl⟩, rfl⟩
      rw [(step_noBuild (op := .learn fs false o) rfl hs).1]
      exact h.noLm.ngrams
    · intro v hv
      obtain ⟨i, hi⟩ := List.getElem?_of_mem hv
      rcases hg.new i v hi with ⟨v0, hv0⟩ | ⟨_, e, _⟩
      · obtain ⟨v', hv', _, a2, _⟩ := hg.old i v0 hv0
        rw [hi] at hv'
        cases hv'
        rw [a2]
        exact h.noLm.types v0 (List.mem_of_getElem? hv0)
      · rw [e]
        rfl
  obtain ⟨b1, b2⟩ := noLm_build hno g3
  exact ⟨h1, h2, b1, b2, h.some⟩

/-- Learning from parts of lines, for the library: `E` holds of what is suggested. -/
theorem ready_parts {A : Alphabet} {o : Orders} {W : List (List Char)} {m : Vm}
    {s : Lexis × List (List Char × List Char × Rat)} (h : Ready A o W m s)
    {x : TextExt} {cfg : TextConfig} {p : TextParams} (hsp : x.isAlpha ' ' = false) (hsolve : SolverOk x.solve)
    (hu : p.unicodeoffsets = false) {E : Suggestion → Prop}
    {divides : (List Char → List Suggestion) → List Char → List (Nat × List Char × Option Nat) → Prop}
    {found : List Char → List Suggestion}
    (hfound : ∀ t, t ≠ [] → ShortEnough x A p.variant t →
      Suggestions x A s.1 cfg.toConfig p.variant t (found t))
    {ls : List (List Char)} (hlen : ∀ l ∈ ls, l.length < 65536)
    (hls : ∀ l ∈ ls, ∃ ms, m.findAllMatches x cfg p l = .ok ms ∧
      divides found l (ms.map fun a => (a.first, a.text, a.selected)) ∧
      ∀ a ∈ ms, ShortEnough x A p.variant a.text ∧ ∃ vs, a.variants = some vs ∧
        List.Forall₂ (fun v u => SuggestedBy m v u ∧ E u) vs (found a.text))
    {m' : Vm} {k : Nat} (hl : m.learnFrom x cfg p ls false true o = .ok (m', k)) :
    ∃ new, FoundParts x A cfg.toConfig p.variant divides s.1 ls new ∧ k = (proper new).length ∧
      (∀ y ∈ new, ∃ u, E u ∧ y.2.2 = u.score) ∧
      Ready A o W m' (s.1.learned new, s.2 ++ proper new) := by
  obtain ⟨fss, h1, h2⟩ := learnFrom_ok hl
  have hall : ∃ rss : List (List (Nat × List Char × Option Nat)), List.Forall₂ (divides found) ls rss ∧
      (∀ rs ∈ rss, ∀ r ∈ rs, r.2.1 ≠ [] ∧ r.2.1.length < 65536 ∧ ShortEnough x A p.variant r.2.1 ∧
        ∀ u ∈ found r.2.1, E u) ∧
      List.Forall₂ (fun f k => textAt m f.vocabId = some k.1 ∧ f.input = k.2.1 ∧ f.distScore = k.2.2)
        fss.flatten (rss.flatten.filterMap fun r => r.2.2.bind fun i => (found r.2.1)[i]?.map fun u =>
          (u.word, r.2.1, u.score)) := by
    clear h2 hl
    induction h1 with
    | nil => exact ⟨[], .nil, by simp, .nil⟩
    | @cons l fs ls fss hf _ ih =>
      obtain ⟨rss, i1, i2, i3⟩ := ih (fun l hl => hlen l (List.mem_cons_of_mem _ hl))
        (fun l hl => hls l (List.mem_cons_of_mem _ hl))
      obtain ⟨ms, g1, g2, g3⟩ := hls l List.mem_cons_self
      refine ⟨ms.map (fun a => (a.first, a.text, a.selected)) :: rss, .cons g2 i1, ?_, ?_⟩
      · intro rs hrs
        rcases List.mem_cons.mp hrs with rfl | hrs
        · intro r hr
          obtain ⟨a, ha, rfl⟩ := List.mem_map.mp hr
          obtain ⟨⟨a0, c0, e1, _, _⟩, hne, _⟩ := (text_matches hsp hsolve hu g1).1 a ha
          have hl := hlen l List.mem_cons_self
          obtain ⟨hsh, vs, _, hv⟩ := g3 a ha
          refine ⟨hne, ?_, hsh, ?_⟩
          · show a.text.length < 65536
            have := (infix_length e1).1
            omega
          · intro u hu
            obtain ⟨v, _, hv⟩ := mem_of_forall₂_right hv hu
            exact hv.2
        · exact i2 rs hrs
      · have hfs : fs = ms.filterMap fun a => match a.variants, a.selected with
            | some variants, some selected =>
              variants[selected]?.map fun r => (⟨a.text, r.vocabId, r.distScore⟩ : Finding)
            | _, _ => none := by
          unfold Vm.findForLearning at hf
          rw [if_neg (by simp)] at hf
          obtain ⟨rs, q1, q2⟩ := bind_ok.mp hf
          rw [g1] at q1
          cases q1
          exact (pure_ok.mp q2).symm
        rw [List.flatten_cons, List.flatten_cons, List.filterMap_append, hfs]
        refine List.rel_append ?_ i3
        clear hfs g1 g2 i1 i2 i3 hf ih
        induction ms with
        | nil => exact .nil
        | cons a ms ih =>
          have ih := ih fun a ha => g3 a (List.mem_cons_of_mem _ ha)
          obtain ⟨_, vs, hvs, hv⟩ := g3 a List.mem_cons_self
          rw [List.map_cons, List.filterMap_cons, List.filterMap_cons, hvs]
          cases hsel : a.selected with
          | none => exact ih
          | some i =>
            simp only [Option.bind_some]
            cases hi : vs[i]? with
            | none =>
              have : (found a.text)[i]? = none := by
                rw [List.getElem?_eq_none_iff] at hi ⊢
                rw [← hv.length_eq]
                exact hi
              rw [this]
              exact ih
            | some v =>
              have hlt := (List.getElem?_eq_some_iff.mp hi).1
              have hlt' : i < (found a.text).length := by rw [← hv.length_eq]; exact hlt
              have hu : (found a.text)[i]? = some (found a.text)[i] := List.getElem?_eq_getElem hlt'
              have hvu := (List.forall₂_iff_get.mp hv).2 i hlt hlt'
              rw [hu]
              simp only [Option.map_some]
              refine .cons ⟨?_, rfl, ?_⟩ ih
              · obtain ⟨w, e1, e2⟩ := hvu.1.word
                have : vs.get ⟨i, hlt⟩ = v := (List.getElem?_eq_some_iff.mp hi).2
                rw [this] at e1
                unfold textAt
                simp only
                rw [e1, Option.map_some, e2]
                rfl
              · have : vs.get ⟨i, hlt⟩ = v := (List.getElem?_eq_some_iff.mp hi).2
                have hs := hvu.1.score
                rw [this] at hs
                exact hs
  obtain ⟨rss, hd, hr, hn⟩ := hall
  have hmem : ∀ y ∈ rss.flatten.filterMap (fun r => r.2.2.bind fun i => (found r.2.1)[i]?.map fun u =>
      (u.word, r.2.1, u.score)), ∃ rs ∈ rss, ∃ r ∈ rs, ∃ u ∈ found r.2.1, y = (u.word, r.2.1, u.score) := by
    intro y hy
    obtain ⟨r, hr, e⟩ := List.mem_filterMap.mp hy
    obtain ⟨rs, hrs, hr⟩ := List.mem_flatten.mp hr
    obtain ⟨i, _, e⟩ := Option.bind_eq_some_iff.mp e
    obtain ⟨u, hu, e⟩ := Option.map_eq_some_iff.mp e
    exact ⟨rs, hrs, r, hr, u, List.mem_of_getElem? hu, e.symm⟩
  obtain ⟨e, hs⟩ := ready_learn h hn (by
    intro y hy
    obtain ⟨rs, hrs, r, hr', u, hu, rfl⟩ := hmem y hy
    obtain ⟨a1, a2, a3, _⟩ := hr rs hrs r hr'
    exact ⟨h.stocked.suggested (hfound _ a1 a3) u hu, a2⟩) h2
  refine ⟨_, ⟨found, rss, hfound, hd, rfl⟩, e, ?_, hs⟩
  intro y hy
  obtain ⟨rs, hrs, r, hr', u, hu, rfl⟩ := hmem y hy
  exact ⟨u, (hr rs hrs r hr').2.2.2 u hu, rfl⟩

/-! ## C106 -/

/-- What is loaded without language models and context rules, for learning. -/
theorem ready_load {x : ToolExt} (hpos : StrictMono x.pos) (hmarks : MarksOk x.load.isSpace)
    (hb : x.load.isSpace '\\' = false)
    {c : CommandLine} (hc : Accepted c) (hplain : ∀ o ∈ [OptName.lm, .contextrules], ¬ Given c o)
    {as : List (List (List Char × Option Nat × VocabParams))} {w : Weights} {p : TextParams}
    (hfiles : UsableFiles x c as) (hnum : UsableNumbers x c w p) (hfw : 0 ≤ p.variant.freqWeight)
    (hwords : as.flatten ≠ []) (hr : ∀ a ∈ as.flatten, ¬ Reserved a.1)
    {afile : List Char} {alines : List (Option (List Char))} {alphabet : Alphabet}
    (ha : (.alphabet, afile) ∈ c.given) (hal : x.load.file afile = some alines)
    (hae : List.Forall₂ (AlphabetLine x.load.isSpace) (nonEmpty alines) alphabet)
    {kss : List (List (List Char × List Char × Rat))}
    (hk : List.Forall₂ (Gives x.load) (sourcesGiven c) kss)
    {cs : List Confusable} (hcs : ConfusablesGiven x c cs)
    {early : Bool} (hearly : early = true ↔ Given c .earlyConfusables) :
    ∃ L, Asked x c L w p ∧ L.book.rules = [] ∧
      (x.config c L w).toConfig = ⟨w, cs, early, x.editScript⟩ ∧ NoEmpty alphabet ∧ alphabet.length ≤ 166 ∧
      Ready alphabet x.orders (as.flatten.map Prod.fst) L.vm
        (lexisFrom (sourcesGiven c) as kss, proper kss.flatten) := by
  have hn0 : (c.given.filterMap fun g => if g.1 = .lm then some g.2 else none) = [] := by
    rw [List.filterMap_eq_nil_iff]
    intro g hg
    rw [if_neg]
    intro e
    exact hplain .lm (by simp) ⟨g.2, e ▸ hg⟩
  have hss : sourcesGiven c = (c.given.filterMap resourceOf).map sourceOf := by
    unfold sourcesGiven
    rw [hn0, List.map_nil, List.append_nil]
  have hadds' : AddsAll x.load 0 (sourcesGiven c) as := by
    obtain ⟨args, hnamed, hload⟩ := hfiles.1
    have := hload.words
    unfold sourcesOf at this
    rw [hnamed.resources, hnamed.lm] at this
    exact this
  have hrefs : ∀ k ∈ kss.flatten, ¬ Reserved k.1 := by
    intro k hk'
    obtain ⟨a, ha, e⟩ := gives_added hadds' hk k hk'
    exact e ▸ hr a ha
  obtain ⟨L0, asked0, _, _, _, hrb, _⟩ := resources_searchable hmarks hb hc hplain hfiles hnum hfw hwords hr ha hal
    hae hk hcs hearly
  obtain ⟨args, L, asked, hL, _, hsrc, hsz, hadds, hcfg, halpha, _, _⟩ :=
    resources_listed hmarks hb hc hfiles hnum hfw ha hal hae hk hrefs hcs hearly
  have e := loadedFor_unique hpos hc asked0.1 asked.1
  subst e
  obtain ⟨args', L', _, hload', hL', hLF', ha6, _, _, _, hshort⟩ := usable_loads hmarks hfiles
  have hLL := loadedFor_unique hpos hc hLF' asked.1
  subst hLL
  obtain ⟨_, _, _, _, _, hne, _⟩ := loaded_history hL
  have hst := stocked_load hL (by omega) hadds (hsrc ▸ hk) hrefs hshort
  rw [hsrc, halpha] at hst
  rw [halpha] at ha6 hne
  have hargs : args.lm = [] := by
    cases e : args.lm with
    | nil => rfl
    | cons f fs =>
      have : Source.lm f ∈ sourcesGiven c := by
        rw [← hsrc]
        unfold sourcesOf
        rw [e]
        simp
      rw [hss] at this
      obtain ⟨r, _, h⟩ := List.mem_map.mp this
      cases r <;> cases h
  obtain ⟨g1, g2⟩ := noLm_sources hL hargs hadds hr
  refine ⟨L', asked, hrb, hcfg, hne, ha6, hst, g1, g2, ?_⟩
  obtain ⟨a, ha⟩ := List.exists_mem_of_ne_nil _ hwords
  have hsome : (as.flatten.find? fun b => b.1 = a.1).isSome = true :=
    List.find?_isSome.mpr ⟨a, ha, by simp⟩
  obtain ⟨b, hb⟩ := Option.isSome_iff_exists.mp hsome
  exact ⟨a.1, hr a ha, b, hb, addsAll_indexed (hss ▸ hadds') b (List.mem_of_find?_eq_some hb)⟩

/-- **C106**, for single words: what `learn` prints. -/
theorem learn_words_prints {x : ToolExt} (hf : ∀ s, ';' ∈ s → x.parseF32 s = none) (hpos : StrictMono x.pos)
    (hmarks : MarksOk x.load.isSpace) (hsp : x.text.isAlpha ' ' = false) (hsolve : SolverOk x.text.solve)
    (hb : x.load.isSpace '\\' = false)
    {c : CommandLine} (hc : Accepted c) (hsub : c.sub = .learn)
    (hplain : ∀ o ∈ [OptName.strict, .json, .multiOutput, .lm, .contextrules], ¬ Given c o)
    {as : List (List (List Char × Option Nat × VocabParams))} {w : Weights} {p : TextParams}
    (hfiles : UsableFiles x c as) (hnum : UsableNumbers x c w p)
    (hfw : 0 ≤ p.variant.freqWeight) (hone : p.maxNgram = 1) (hseq : 1 ≤ p.maxSeq)
    (htok : 0 < p.lmWeight → ∀ a ∈ as.flatten, ∀ ws, TokensOf a.1 ws → ws.length ≤ 255)
    (hwords : as.flatten ≠ []) (hr : ∀ a ∈ as.flatten, ¬ Reserved a.1)
    {afile : List Char} {alines : List (Option (List Char))} {alphabet : Alphabet}
    (ha : (.alphabet, afile) ∈ c.given) (hal : x.load.file afile = some alines)
    (hae : List.Forall₂ (AlphabetLine x.load.isSpace) (nonEmpty alines) alphabet)
    {kss : List (List (List Char × List Char × Rat))}
    (hk : List.Forall₂ (Gives x.load) (sourcesGiven c) kss)
    {cs : List Confusable} (hcs : ConfusablesGiven x c cs)
    {early : Bool} (hearly : early = true ↔ Given c .earlyConfusables)
    {v : List Char} {n : Nat} (hv : InForce c .iterations "1".toList v) (hn : NumberText 255 v n)
    {files : List (List Char)} {inputs : List (List (Option (List Char)))} (hin : InputsOf x files inputs)
    (hlines : ∀ lines ∈ inputs, ∀ l ∈ untilError lines, LearnLine x c p.maxNgram l ∧
      ∀ b t, WordAt x.text.isAlpha l b t → ShortEnough x.text alphabet p.variant t)
    (hcount : (n * inputs.length + 1) *
      ((as.flatten.map fun a => a.2.1.getD 1).sum + n * (inputs.map bytesOf).sum) < 2 ^ 32) :
    ∃ texts, x.main c files = .ok (.output texts.flatten (texts.map fun _ => [])) ∧
      LearnAll (Learns (FoundParts x.text alphabet ⟨w, cs, early, x.editScript⟩ p.variant
          fun _ => InWords x.text.isAlpha)) n
        (LearnedText x.showF as) (lexisFrom (sourcesGiven c) as kss, proper kss.flatten) inputs texts
        (texts.map fun _ => []) := by
  have hns := hplain .strict (by simp)
  obtain ⟨L, asked, hrb, hcfg, hne, ha6, hst⟩ := ready_load hpos hmarks hb hc
    (fun o ho => hplain o (by revert o; simp)) hfiles hnum hfw hwords hr ha hal hae hk hcs hearly
  obtain ⟨hfa, hfe⟩ := UsableNumbers.fits hnum
  obtain ⟨q, hq, hqu, hqn⟩ := hnum.params
  have hu : p.unicodeoffsets = false := by rw [hqn.offsets, hqu]
  refine learn_prints hf hpos hmarks hsp hsolve hc hsub (strict := false) (by simpa using hns)
    (hplain .json (by simp)) (hplain .multiOutput (by simp)) hfiles
    hnum (fun _ => ⟨hseq, htok⟩) hv hn hin (fun ls hls l hl => (hlines ls hls l hl).1) hcount asked
    (fun _ _ h => h.stocked) ?_ hst
  intro lines hl m m' k s hs hstep
  have find := hs.stocked.find hne ha6 (x := x.text) (cfg := (x.config c L w).toConfig) (p := p.variant)
    hnum.nonzero hfw hfa hfe
  obtain ⟨found, hfound⟩ := suggested_function
    (F := fun l vs => m.findVariants x.text.toExt (x.config c L w).toConfig p.variant l = .ok vs)
    (S := Suggestions x.text alphabet s.1 (x.config c L w).toConfig p.variant)
    (R := fun vs us => List.Forall₂ (SuggestedBy m) vs us)
    (fun t h1 h2 => by
      obtain ⟨vs, us, a1, a2, a3⟩ := find t h1 h2
      exact ⟨vs, us, a1, a2, a3⟩)
  obtain ⟨new, h1, h2, _, h4⟩ := ready_parts hs hsp hsolve hu (E := fun _ => True)
    (divides := fun _ => InWords x.text.isAlpha) (found := found) (fun t a1 a2 => (hfound t a1 a2).1)
    (fun l hll => ((hlines lines hl l hll).1.lenient hns).2) (fun l hll => by
      obtain ⟨_, hw⟩ := hlines lines hl l hll
      obtain ⟨ms, b1, b2, b3⟩ := text_words (vm := m) (cfg := x.config c L w) hsp hone hu hs.haveLm hrb hs.index
        (text := l) (fun b t hbt => by
          obtain ⟨_, _, _, _, h1, _⟩ := id hbt
          obtain ⟨vs, h, _⟩ := (hfound t h1 (hw b t hbt)).2
          exact ⟨vs, h⟩)
      refine ⟨ms, b1, ⟨by rw [List.map_map]; exact b2, ?_⟩, ?_⟩
      · intro r hr
        obtain ⟨a, ha, rfl⟩ := List.mem_map.mp hr
        exact (b3 a ha).2.2.1
      · intro a ha
        obtain ⟨_, _, _, vs, c1, c2⟩ := b3 a ha
        have hwa := (b2.mem a.first a.text).mp (List.mem_map_of_mem (f := fun m : Match => (m.first, m.text)) ha)
        have hsh := hw _ _ hwa
        obtain ⟨_, _, _, _, hne', _⟩ := id hwa
        refine ⟨hsh, vs, c1, ?_⟩
        obtain ⟨vs', d1, d2⟩ := (hfound _ hne' hsh).2
        have : vs' = vs := Except.ok.inj (d1.symm.trans c2)
        subst this
        exact d2.imp fun _ _ h => ⟨h, trivial⟩) hstep
  rw [hcfg] at h1
  exact ⟨_, ⟨new, h1, rfl, h2⟩, h4⟩

/-- **C106**, for stretches of several words: what `learn` prints. -/
theorem learn_stretches_prints {x : ToolExt} (hf : ∀ s, ';' ∈ s → x.parseF32 s = none) (hpos : StrictMono x.pos)
    (hmarks : MarksOk x.load.isSpace) (hsp : x.text.isAlpha ' ' = false)
    (hb : x.load.isSpace '\\' = false)
    {c : CommandLine} (hc : Accepted c) (hsub : c.sub = .learn)
    (hplain : ∀ o ∈ [OptName.strict, .json, .multiOutput, .lm, .contextrules], ¬ Given c o)
    {as : List (List (List Char × Option Nat × VocabParams))} {w : Weights} {p : TextParams}
    (hfiles : UsableFiles x c as) (hnum : UsableNumbers x c w p) {u : Rat} {d : Nat → Rat}
    (hx : Reckons x.text p.variant.freqWeight u d) (hwt : WeightsOk x.text.f64 w)
    (hfw : 0 ≤ p.variant.freqWeight) (htwo : 2 ≤ p.maxNgram) (hseq : 1 ≤ p.maxSeq)
    (htok : 0 < p.lmWeight → ∀ a ∈ as.flatten, ∀ ws, TokensOf a.1 ws → ws.length ≤ 255)
    (hwords : as.flatten ≠ []) (hr : ∀ a ∈ as.flatten, ¬ Reserved a.1)
    {afile : List Char} {alines : List (Option (List Char))} {alphabet : Alphabet}
    (ha : (.alphabet, afile) ∈ c.given) (hal : x.load.file afile = some alines)
    (hae : List.Forall₂ (AlphabetLine x.load.isSpace) (nonEmpty alines) alphabet)
    {kss : List (List (List Char × List Char × Rat))}
    (hk : List.Forall₂ (Gives x.load) (sourcesGiven c) kss)
    (hks : ∀ k ∈ kss.flatten, 0 ≤ k.2.2 ∧ k.2.2 ≤ 1)
    {cs : List Confusable} (hcs : ConfusablesGiven x c cs) (hmild : ∀ k ∈ cs, 0 ≤ k.weight ∧ k.weight ≤ 1)
    {early : Bool} (hearly : early = true ↔ Given c .earlyConfusables)
    {v : List Char} {n : Nat} (hv : InForce c .iterations "1".toList v) (hn : NumberText 255 v n)
    {files : List (List Char)} {inputs : List (List (Option (List Char)))} (hin : InputsOf x files inputs)
    (hlines : ∀ lines ∈ inputs, ∀ l ∈ untilError lines, LearnLine x c p.maxNgram l ∧
      ShortRuns x.text alphabet p.variant p.maxNgram l)
    (hcount : (n * inputs.length + 1) *
      ((as.flatten.map fun a => a.2.1.getD 1).sum + n * (inputs.map bytesOf).sum) < 2 ^ 32) :
    ∃ texts, x.main c files = .ok (.output texts.flatten (texts.map fun _ => [])) ∧
      LearnAll (Learns (FoundParts x.text alphabet ⟨w, cs, early, x.editScript⟩ p.variant fun found =>
          CheapestIn x.text (slack u d) Suggestion.score (Suggestion.overall x.text.f64 p.variant.freqWeight) found
            p.maxNgram)) n
        (LearnedText x.showF as) (lexisFrom (sourcesGiven c) as kss, proper kss.flatten) inputs texts
        (texts.map fun _ => []) := by
  have hns := hplain .strict (by simp)
  obtain ⟨L, asked, hrb, hcfg, hne, ha6, hst⟩ := ready_load hpos hmarks hb hc
    (fun o ho => hplain o (by revert o; simp)) hfiles hnum hfw hwords hr ha hal hae hk hcs hearly
  obtain ⟨hfa, hfe⟩ := UsableNumbers.fits hnum
  obtain ⟨q, hq, hqu, hqn⟩ := hnum.params
  have hu : p.unicodeoffsets = false := by rw [hqn.offsets, hqu]
  have hboost : boost x.text.f64 cs ≤ 1 := by
    clear hcs hcfg
    unfold boost
    induction cs with
    | nil => exact le_refl _
    | cons k cs ih =>
      rw [List.foldl_cons, max_eq_left (hmild k List.mem_cons_self).2, one_mul, x.text.f64.one]
      exact ih fun k hk => hmild k (List.mem_cons_of_mem _ hk)
  have hconf : (x.config c L w).confusables = cs := congrArg Config.confusables hcfg
  refine learn_prints hf hpos hmarks hsp hx.solver.ok hc hsub (strict := false) (by simpa using hns)
    (hplain .json (by simp)) (hplain .multiOutput (by simp)) hfiles
    hnum (fun _ => ⟨hseq, htok⟩) hv hn hin (fun ls hls l hl => (hlines ls hls l hl).1) hcount asked
    (R := fun m s => Ready alphabet x.orders (as.flatten.map Prod.fst) m s ∧ ∀ k ∈ s.2, 0 ≤ k.2.2 ∧ k.2.2 ≤ 1)
    (fun _ _ h => h.1.stocked) ?_ ⟨hst, fun k hk => hks k (List.mem_filter.mp hk).1⟩
  rintro lines hl m m' k s ⟨hs, hsc⟩ hstep
  have hlinks : ∀ v ∈ m.decoder, ∀ t sc, VariantReference.variantOf t sc ∈ v.variants.getD [] →
      0 ≤ sc ∧ sc ≤ 1 := by
    intro v hv t sc ht
    obtain ⟨id, hid⟩ := List.getElem?_of_mem hv
    obtain ⟨l, hl, i, e, _⟩ := mem_of_forall₂_left (hs.stocked.known.links id v hid)
      (List.mem_filter.mpr ⟨ht, rfl⟩)
    cases e
    obtain ⟨k, hk', rfl⟩ := List.mem_map.mp hl
    exact hsc k (List.mem_filter.mp hk').1
  have find := hs.stocked.find hne ha6 (x := x.text) (cfg := (x.config c L w).toConfig) (p := p.variant)
    hnum.nonzero hfw hfa hfe
  obtain ⟨found, hfound⟩ := suggested_function
    (F := fun l vs => m.findVariants x.text.toExt (x.config c L w).toConfig p.variant l = .ok vs)
    (S := Suggestions x.text alphabet s.1 (x.config c L w).toConfig p.variant)
    (R := fun vs us => List.Forall₂ (fun v u => SuggestedBy m v u ∧ 0 ≤ u.score ∧ u.score ≤ 1) vs us)
    (fun t h1 h2 => by
      obtain ⟨vs, us, a1, a2, a3⟩ := find t h1 h2
      refine ⟨vs, us, a1, a2, (forall₂_mem_left a3).imp ?_⟩
      rintro v u ⟨b1, b2⟩
      obtain ⟨c1, c2⟩ := result_scores_bounded m x.text.toExt (x.config c L w).toConfig p.variant t vs hwt
        (fun k hk => (hmild k (hconf ▸ hk)).1) hlinks a1 v b2
      have c2 : v.distScore ≤ boost x.text.f64 (x.config c L w).confusables := c2
      rw [hconf] at c2
      rw [b1.score] at c1 c2
      exact ⟨b1, c1, c2.trans hboost⟩)
  obtain ⟨new, h1, h2, h3, h4⟩ := ready_parts hs hsp hx.solver.ok hu (E := fun u => 0 ≤ u.score ∧ u.score ≤ 1)
    (divides := fun found => CheapestIn x.text (slack u d) Suggestion.score
      (Suggestion.overall x.text.f64 p.variant.freqWeight) found p.maxNgram)
    (found := found) (fun t a1 a2 => (hfound t a1 a2).1)
    (fun l hll => ((hlines lines hl l hll).1.lenient hns).2) (fun l hll => by
      obtain ⟨ms, b1, b2, b3⟩ := text_divides_short (vm := m) (cfg := x.config c L w) (alphabet := alphabet)
        (R := fun v u => SuggestedBy m v u ∧ 0 ≤ u.score ∧ u.score ≤ 1)
        (dist := Suggestion.score) (score := Suggestion.overall x.text.f64 p.variant.freqWeight)
        (found := found) hsp hx hnum.nonzero htwo hseq hu hs.noLm.inv hs.haveLm hrb
        hs.index
        (fun t vs hv v hm => variant_scores_le (cfg := x.config c L w) hx.close64 hx.unit hx.weight hwt
          ⟨fun k hk => (hmild k (hconf ▸ hk)).1, by rw [hconf]; linarith⟩ hlinks hfw t vs hv v hm)
        (fun v u h => ⟨h.1.score, by
          unfold VariantResult.score Suggestion.overall
          rw [h.1.score, h.1.freq]⟩)
        (fun t a1 a2 => (hfound t a1 a2).2) (hlines lines hl l hll).2
      refine ⟨ms, b1, b2, fun a ha => ?_⟩
      obtain ⟨_, _, ⟨_, c1⟩, c2⟩ := b3 a ha
      exact ⟨c1, c2⟩) hstep
  rw [hcfg] at h1
  refine ⟨_, ⟨new, h1, rfl, h2⟩, h4, ?_⟩
  intro k hk
  rcases List.mem_append.mp hk with hk | hk
  · exact hsc k hk
  · obtain ⟨u, hu, e⟩ := h3 k (List.mem_filter.mp hk).1
    rw [e]
    exact hu

/-! ### Examples -/

/-- `learn --max-ngram-order 1 --iterations 2 --alphabet a --errors e --lexicon l --variants v
--confusables c --early-confusables --score-threshold 0.0 --cutoff-threshold 0.0` -/
def exLearnW : CommandLine :=
  { exLearnE with given := (.maxNgramOrder, ['1']) :: exLearnE.given.filter fun g => g.1 ≠ .strict }

/-- Learning from the words of lines. -/
example : ∃ texts, exToolL.main exLearnW [['-'], ['q']] = .ok (.output texts.flatten (texts.map fun _ => [])) ∧
    LearnAll (Learns (FoundParts exText [["a".toList, "A".toList], ["b".toList]]
        ⟨⟨1 / 2, 1 / 8, 1 / 8, 1 / 8, 1 / 8⟩, exLoaded.confusables, true, exToolR.editScript⟩
        (exNumbers exLearnW).variant fun _ => InWords exText.isAlpha)) 2
      (LearnedText exToolR.showF (exAdded.take 3))
      (lexisFrom [.errors ['e'], .lexicon ['l'], .variants ['v']] (exAdded.take 3) exLinksE,
        proper exLinksE.flatten)
      [exToolL.stdin, [some "ab".toList]] texts (texts.map fun _ => []) := by
  have hnum : UsableNumbers exToolL exLearnW ⟨1 / 2, 1 / 8, 1 / 8, 1 / 8, 1 / 8⟩ (exNumbers exLearnW) := by
    have h : UsableNumbers exToolR exLearnW _ _ :=
      exUsableNumbers (accepted_of (by decide) (by decide)) rfl (by decide +kernel) rfl
        (exSome exTextParams (by decide +kernel)) (.inl (by decide +kernel))
    exact ⟨h.weights, h.nonzero, h.params, h.cutoff, h.debug⟩
  have hns : ∀ o ∈ [OptName.strict, .json, .multiOutput, .lm, .contextrules], ¬ Given exLearnW o := by
    have : ∀ o ∈ [OptName.strict, .json, .multiOutput, .lm, .contextrules], ∀ g ∈ exLearnW.given, g.1 ≠ o := by
      decide
    exact fun o ho => not_given (this o ho)
  refine learn_words_prints (x := exToolL) (c := exLearnW) (v := ['2']) (n := 2) ex_noSemicolon ex_pos
    ex_marks rfl refSolver_ok rfl
    (accepted_of (by decide) (by decide)) rfl hns
    ⟨⟨{ exArgs with lm := [] }, by constructor <;> decide, exLoadableQuery⟩, by decide⟩
    hnum (by decide +kernel) (rfl) (by decide +kernel) ?tokens
    (by decide) (by unfold Reserved; decide)
    (afile := ['a']) (by decide) rfl exAlphabetE
    (kss := exLinksE) exGivesE (exConfusablesE (by decide)) 
    (early := true) (by simp only [true_iff]; exact ⟨[], by decide⟩)
    (.inl (by decide)) ((parseUnsigned_iff _ _ _).mp (by decide))
    (inputs := [exToolL.stdin, [some "ab".toList]]) (inputsOf_iff.mp (by decide)) ?lines (by decide)
  case tokens =>
    intro _ a ha ws hws
    have h : ∀ a ∈ (exAdded.take 3).flatten, (splitSpaces a.1).length ≤ 255 := by decide
    rw [tokensOf_unique hws]
    exact h a ha
  case lines =>
    intro lines hl l h
    have hs : l.length ≤ 30 ∧ l.countP (· == ' ') < 255 := by
      have hall : ∀ ls ∈ [exToolL.stdin, [some "ab".toList]], ∀ l ∈ untilError ls,
          l.length ≤ 30 ∧ l.countP (· == ' ') < 255 := by decide
      exact hall lines hl l h
    refine ⟨⟨hs.2, fun h => absurd h (hns .strict (by simp)), fun _ => ⟨?_, by omega⟩⟩, ?_⟩
    · intro segs a r b h1 h2 _
      exact short_words (by omega) segs a r b h1 h2
    · rintro b t ⟨pre, post, e, _⟩
      have : t.length ≤ l.length := by rw [e]; simp; omega
      exact exShort30 rfl (by omega)

example : exToolL.main exLearnW [['-'], ['q']] = .ok (.output
    ("b\tbb\t0.5\nab\tba\t0.5\taab\t0.5\tbab\t0.5\n".toList ++
      "b\tbb\t0.5\nab\tba\t0.5\taab\t0.5\tbab\t0.5\n".toList) [[], []]) := by
  decide +kernel

/-- `learn --max-ngram-order 2 --iterations 2 --alphabet a --errors e --lexicon l --variants v
--confusables c --early-confusables --score-threshold 0.0 --cutoff-threshold 0.0` -/
def exLearnS : CommandLine :=
  { exLearnE with given := (.maxNgramOrder, ['2']) :: exLearnE.given.filter fun g => g.1 ≠ .strict }

/-- Learning from stretches of lines. -/
example : ∃ texts, exToolL.main exLearnS [['-'], ['q']] = .ok (.output texts.flatten (texts.map fun _ => [])) ∧
    LearnAll (Learns (FoundParts exText [["a".toList, "A".toList], ["b".toList]]
        ⟨⟨1 / 2, 1 / 8, 1 / 8, 1 / 8, 1 / 8⟩, exLoaded.confusables, true, exToolR.editScript⟩
        (exNumbers exLearnS).variant fun found => CheapestIn exText (fun _ => 0) Suggestion.score
          (Suggestion.overall exText.f64 (exNumbers exLearnS).variant.freqWeight) found
          (exNumbers exLearnS).maxNgram)) 2
      (LearnedText exToolR.showF (exAdded.take 3))
      (lexisFrom [.errors ['e'], .lexicon ['l'], .variants ['v']] (exAdded.take 3) exLinksE,
        proper exLinksE.flatten)
      [exToolL.stdin, [some "ab".toList]] texts (texts.map fun _ => []) := by
  have hnum : UsableNumbers exToolL exLearnS ⟨1 / 2, 1 / 8, 1 / 8, 1 / 8, 1 / 8⟩ (exNumbers exLearnS) := by
    have h : UsableNumbers exToolR exLearnS _ _ :=
      exUsableNumbers (accepted_of (by decide) (by decide)) rfl (by decide +kernel) rfl
        (exSome exTextParams (by decide +kernel)) (.inl (by decide +kernel))
    exact ⟨h.weights, h.nonzero, h.params, h.cutoff, h.debug⟩
  have hns : ∀ o ∈ [OptName.strict, .json, .multiOutput, .lm, .contextrules], ¬ Given exLearnS o := by
    have : ∀ o ∈ [OptName.strict, .json, .multiOutput, .lm, .contextrules], ∀ g ∈ exLearnS.given, g.1 ≠ o := by
      decide
    exact fun o ho => not_given (this o ho)
  rw [← slack_zero]
  refine learn_stretches_prints (x := exToolL) (c := exLearnS) (v := ['2']) (n := 2) ex_noSemicolon ex_pos
    ex_marks rfl rfl
    (accepted_of (by decide) (by decide)) rfl hns
    ⟨⟨{ exArgs with lm := [] }, by constructor <;> decide, exLoadableQuery⟩, by decide⟩
    hnum (exText_reckons _) ?weights (by decide +kernel) (show 2 ≤ 2 by decide) (by decide +kernel) ?tokens
    (by decide) (by unfold Reserved; decide)
    (afile := ['a']) (by decide) rfl exAlphabetE
    (kss := exLinksE) exGivesE (by decide +kernel) (exConfusablesE (by decide)) (by decide +kernel)
    (early := true) (by simp only [true_iff]; exact ⟨[], by decide⟩)
    (.inl (by decide)) ((parseUnsigned_iff _ _ _).mp (by decide))
    (inputs := [exToolL.stdin, [some "ab".toList]]) (inputsOf_iff.mp (by decide)) ?lines (by decide)
  case weights => constructor <;> first | exact ⟨by norm_num, rfl⟩ | decide +kernel
  case tokens =>
    intro _ a ha ws hws
    have h : ∀ a ∈ (exAdded.take 3).flatten, (splitSpaces a.1).length ≤ 255 := by decide
    rw [tokensOf_unique hws]
    exact h a ha
  case lines =>
    intro lines hl l h
    have hs : l.length ≤ 30 ∧ l.countP (· == ' ') < 255 := by
      have hall : ∀ ls ∈ [exToolL.stdin, [some "ab".toList]], ∀ l ∈ untilError ls,
          l.length ≤ 30 ∧ l.countP (· == ' ') < 255 := by decide
      exact hall lines hl l h
    refine ⟨⟨hs.2, fun h => absurd h (hns .strict (by simp)), fun _ => ⟨?_, by omega⟩⟩, ?_⟩
    · intro segs a r b h1 h2 _
      exact short_words (by omega) segs a r b h1 h2
    · intro segs r hs' hr _ _
      have h2 : (stretch r).length ≤ l.length := by
        obtain ⟨a, b, e⟩ := hr
        refine le_trans (stretch_prefix_flat r).length_le ?_
        rw [← hs'.text_eq, ← e, flat_append, flat_append]
        simp
        omega
      exact exShort30 rfl (by omega)

example : exToolL.main exLearnS [['-'], ['q']] = .ok (.output
    ("b\tbb\t0.5\nab\tba\t0.5\taab\t0.5\tbab\t0.5\n".toList ++
      "b\tbb\t0.5\nab\tba\t0.5\taab\t0.5\tbab\t0.5\n".toList) [[], []]) := by
  decide +kernel

end Verif.Props
