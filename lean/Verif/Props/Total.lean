import Verif.Props.Lm
import Verif.Lemmas.Route

/-!
# The search in running text returns normally (C76)
-/
namespace Verif.Props

open Verif.Spec Verif.Model Verif.Lemmas

/-! ## The entries of results -/

/-- Results refer to entries of the vocabulary. -/
theorem find_variants_ids {m : Vm} {x : Ext} {cfg : Config} {p : Params} {input : List Char}
    {res : List VariantResult} (hw : cfg.weights.sum x.f64 ≠ 0)
    (h : m.findVariants x cfg p input = .ok res) : ∀ v ∈ res, v.vocabId < m.decoder.length := by
  unfold Vm.findVariants at h
  split at h
  · cases pure_ok.mp h
    intro v hv
    cases hv
  · obtain ⟨⟨qs, l⟩, _, h2⟩ := bind_ok.mp h
    obtain ⟨_, mf, cands, _, _, hc, rfl⟩ := scoreAndRank_ok hw h2
    intro v hv
    obtain ⟨y, hy, e1, _⟩ := mem_prune hv
    obtain ⟨z, hz, e2, _⟩ := mem_normalizeFreq (mem_ranked hy)
    rw [e1, e2]
    have scored : ∀ u ∈ scoredList m x.f64 cfg p input qs.length l, u.vocabId < m.decoder.length := by
      intro u hu
      obtain ⟨c, _, item, hitem, e, _⟩ := mem_scoredList hu
      rw [e]
      exact (List.getElem?_eq_some_iff.mp hitem).1
    split at hc
    · obtain ⟨u, hu, item, _, hh⟩ := (expandVariants_spec hc z).mp hz
      rcases hh with ⟨rfl, _⟩ | ⟨t, s, tg, _, ht, rfl⟩
      · exact scored _ hu
      · exact (List.getElem?_eq_some_iff.mp ht).1
    · rw [hc] at hz
      exact scored _ hz

/-! ## Gathering -/

theorem processSeq_total {f : Match → Res Match} {l : List Match} (h : ∀ s ∈ l, ∃ s', f s = .ok s') :
    ∃ l', processSeq f l = .ok l' := by
  induction l with
  | nil => exact ⟨[], rfl⟩
  | cons s l ih =>
    obtain ⟨s', h1⟩ := h s (by simp)
    obtain ⟨l', h2⟩ := ih fun s hs => h s (by simp [hs])
    exact ⟨s' :: l', bind_ok.mpr ⟨s', h1, bind_ok.mpr ⟨l', h2, rfl⟩⟩⟩

theorem gatherSegments_total {vm : Vm} {x : TextExt} {cfg : TextConfig} {p : TextParams}
    (hsp : x.isAlpha ' ' = false) {pre post : List Char} {g : List Seg}
    (hg : IsBatch x.isAlpha g) (n : Nat) : ∀ (order : Nat) (batch : List Match), 1 ≤ order →
      (∀ k run, order ≤ k → k < order + n → run ∈ runsFrom k (byteLen pre) g →
        ∃ v, vm.findVariants x.toExt cfg.toConfig p.variant run.text = .ok v) →
      ∃ out, vm.gatherSegments x cfg p (pre ++ flat g ++ post) (boundariesFrom (byteLen pre) g)
        (byteLen pre) (byteLen pre + byteLen (stretch g)) order n batch = .ok out := by
  induction n with
  | zero => intro order batch _ _; exact ⟨batch, rfl⟩
  | succ n ih =>
    intro order batch ho hf
    rw [Vm.gatherSegments, findMatchNgrams_eq hsp ho hg.seg.ne hg.seg]
    obtain ⟨segs, hs⟩ := processSeq_total (f := vm.processSegment x cfg p order batch)
      (l := runsFrom order (byteLen pre) g) (by
        intro s hs
        obtain ⟨v, hv⟩ := hf order s (Nat.le_refl _) (by omega) hs
        unfold Vm.processSegment
        split
        · exact ⟨_, bind_ok.mpr ⟨v, hv, rfl⟩⟩
        · exact ⟨s, rfl⟩)
    obtain ⟨out, ho'⟩ := ih (order + 1) (batch ++ segs) (by omega) fun k run h1 h2 =>
      hf k run (by omega) (by omega)
    refine ⟨out, bind_ok.mpr ⟨_, rfl, ?_⟩⟩
    simp only
    split
    · exact bind_ok.mpr ⟨segs, hs, ho'⟩
    · exact bind_ok.mpr ⟨segs, (processPar_perm (x.sched_perm _)).mpr hs, ho'⟩

/-! ## Candidate sequences -/

theorem mem_lookupSymbols {syms : List OutputSymbol} {ls : List Nat} {os : List OutputSymbol}
    (h : lookupSymbols syms ls = .ok os) : ∀ o ∈ os, ∃ l ∈ ls, syms[l]? = some o := by
  induction ls generalizing os with
  | nil => cases h; simp
  | cons l ls ih =>
    rw [lookupSymbols] at h
    split at h
    · cases h
    · next o ho =>
      obtain ⟨os', h1, h2⟩ := bind_ok.mp h
      have := pure_ok.mp h2
      subst this
      intro z hz
      rcases List.mem_cons.mp hz with rfl | hz
      · exact ⟨l, by simp, ho⟩
      · obtain ⟨l', h3, h4⟩ := ih h1 z hz
        exact ⟨l', by simp [h3], h4⟩

/-- The symbols of a path belong to transitions of matches. -/
theorem walk_symbols {x : TextExt} {fw : Rat} {o : Nat} {g : List Seg} {all : List Match}
    {syms : List OutputSymbol} {trs : List Tr} (ht : ∀ t ∈ trs, TrOk x fw o g all syms t)
    {ts : List Tr} {q q' : Nat} (hw : Walk (trs ++ epsilonTrs g.length) q ts q')
    {os : List OutputSymbol} (h : lookupSymbols syms (outputs ts) = .ok os) :
    ∀ sym ∈ os, sym.boundaryIndex < g.length ∧ (sym.vocabId = 0 ∨
      ∃ m ∈ all, ∃ vs, m.variants = some vs ∧ ∃ v ∈ vs, sym.vocabId = v.vocabId) := by
  intro sym hsym
  obtain ⟨l, hl, h1⟩ := mem_lookupSymbols h sym hsym
  unfold outputs at hl
  rw [List.mem_filter, List.mem_map] at hl
  obtain ⟨⟨t, h2, rfl⟩, h3⟩ := hl
  have h4 := walk_mem hw t h2
  rw [List.mem_append] at h4
  rcases h4 with h4 | h4
  · obtain ⟨sym', m, _, a2, a3, a4, a5, a6⟩ := ht t h4
    rw [h1] at a2
    cases a2
    refine ⟨by have := a4.le; omega, ?_⟩
    rcases a6 with ⟨vi, vs, v, _, b2, b3, b4, _⟩ | ⟨_, _, b3, _⟩
    · exact .inr ⟨m, List.mem_of_getElem? a3, vs, b2, v, List.mem_of_getElem? b3, b4⟩
    · exact .inl b3
  · unfold epsilonTrs at h4
    obtain ⟨j, _, rfl⟩ := List.mem_map.mp h4
    simp at h3

theorem lmScore_total {m : Vm} (hinv : Inv m) (hs : ∀ v ∈ m.decoder, spaces v.text < 255)
    (x : TextExt) (boundaries : List Match) (syms : List OutputSymbol)
    (hid : ∀ o ∈ syms, o.vocabId < m.decoder.length)
    (hb : ∀ o ∈ syms, o.boundaryIndex < boundaries.length) :
    ∃ y, m.lmScore x syms boundaries = .ok y := by
  obtain ⟨parts, h1, _⟩ := symbolTokens_ok hinv hs x.isSpace boundaries syms hid hb
  unfold Vm.lmScore
  rw [h1]
  simp only [bind, Except.bind]
  unfold Vm.lmScoreTokens
  rw [if_neg (by simp)]
  simp only
  split <;> exact ⟨_, rfl⟩

/-- What is asked of the options and of the model besides lookups that succeed. -/
structure Sound (vm : Vm) (cfg : TextConfig) (p : TextParams) : Prop where
  seq : 1 ≤ p.maxSeq
  lm : vm.haveLm = true → 0 < p.lmWeight → ∀ v ∈ vm.decoder, spaces v.text < 255
  rules : ∀ r ∈ cfg.contextRules, RuleOk r

theorem sequenceOf_total {vm : Vm} {x : TextExt} {cfg : TextConfig} {p : TextParams}
    (hinv : Inv vm) (hs : Sound vm cfg p) {bs : List Match} {syms os : List OutputSymbol}
    {path : FstPath} (h : lookupSymbols syms path.olabels = .ok os)
    (hid : ∀ o ∈ os, o.vocabId < vm.decoder.length)
    (hb : ∀ o ∈ os, o.boundaryIndex < bs.length) :
    ∃ s, vm.sequenceOf x cfg p bs syms path = .ok s := by
  unfold Vm.sequenceOf
  obtain ⟨A, score, results, hr, _⟩ := context_rules vm x cfg.contextRules os hs.rules
  rw [h]
  simp only [bind, Except.bind]
  split
  · next hlm =>
    obtain ⟨y, hy⟩ := lmScore_total hinv (hs.lm hlm.1 hlm.2) x bs os hid hb
    rw [hy]
    simp only [pure, Except.pure]
    split
    · exact ⟨_, rfl⟩
    · rw [hr]; exact ⟨_, rfl⟩
  · simp only [pure, Except.pure]
    split
    · exact ⟨_, rfl⟩
    · rw [hr]; exact ⟨_, rfl⟩

theorem sequencesOf_total {vm : Vm} {x : TextExt} {cfg : TextConfig} {p : TextParams}
    {bs : List Match} {syms : List OutputSymbol} {paths : List FstPath}
    (h : ∀ path ∈ paths, ∃ s, vm.sequenceOf x cfg p bs syms path = .ok s) :
    ∃ seqs, vm.sequencesOf x cfg p bs syms paths = .ok seqs ∧ seqs.length = paths.length := by
  induction paths with
  | nil => exact ⟨[], rfl, rfl⟩
  | cons a l ih =>
    obtain ⟨s, h1⟩ := h a (by simp)
    obtain ⟨r, h2, h3⟩ := ih fun b hb => h b (by simp [hb])
    exact ⟨s :: r, bind_ok.mpr ⟨s, h1, bind_ok.mpr ⟨r, h2, rfl⟩⟩, by simp [h3]⟩

/-- Choosing a sequence returns normally. -/
theorem mostLikelySequence_total {vm : Vm} {x : TextExt} {cfg : TextConfig} {p : TextParams}
    (hinv : Inv vm) (hsolve : SolverOk x.solve) (hs : Sound vm cfg p) {o : Nat} {g : List Seg}
    (hg : IsBatch x.isAlpha g) {all : List Match} (hsp : ∀ m ∈ all, ∃ s e, Span o g s e m)
    (hids : ∀ m ∈ all, ∀ vs, m.variants = some vs → ∀ v ∈ vs, v.vocabId < vm.decoder.length) :
    ∃ ms, vm.mostLikelySequence x cfg p all (boundariesFrom o g) (o + byteLen (stretch g)) =
      .ok ms := by
  obtain ⟨syms, trs, h1, _, h3, _, _⟩ := buildFst_ok x p.variant.freqWeight hg hsp
  unfold Vm.mostLikelySequence
  rw [h1]
  simp only [bind, Except.bind]
  split
  · exact ⟨_, rfl⟩
  · have h0 : 0 < vm.decoder.length := by
      have := hinv.bos
      unfold textAt at this
      obtain ⟨v, hv, _⟩ := Option.map_eq_some_iff.mp this
      exact (List.getElem?_eq_some_iff.mp hv).1
    have hpaths : ∀ path ∈ x.solve { states := g.length + 1, finals := [g.length], trs := trs ++ epsilonTrs g.length } p.maxSeq,
        ∃ s, vm.sequenceOf x cfg p (boundariesFrom o g) syms path = .ok s := by
      intro path hp
      obtain ⟨ts, ⟨q, _, hq⟩, e⟩ := hsolve.sound _ _ _ hp
      obtain ⟨os, a1, _⟩ := walk_matches hg h3 ts 0 q hq
      have hsym := walk_symbols h3 hq a1
      refine sequenceOf_total hinv hs (e ▸ a1) ?_ ?_
      · intro sym hm
        rcases (hsym sym hm).2 with h | ⟨m, hm, vs, hv, v, hv', h⟩
        · rw [h]; exact h0
        · rw [h]; exact hids m hm vs hv v hv'
      · intro sym hm
        rw [boundariesFrom_length]
        exact (hsym sym hm).1
    obtain ⟨seqs, h4, h5⟩ := sequencesOf_total hpaths
    rw [h4]
    have hne : seqs ≠ [] := by
      rintro rfl
      obtain ⟨ts, hts⟩ := epsilon_walk g.length 0 g.length (by omega)
      rw [Nat.zero_add] at hts
      refine hsolve.complete _ p.maxSeq ts hs.seq (forward_of_ok h3 (g.length + 1) [g.length])
        ⟨g.length, by simp, walk_mono (fun t ht => by simp [ht]) hts⟩ ?_
      exact List.length_eq_zero_iff.mp h5.symm
    obtain ⟨best, b1, b2, _⟩ := selectBest_none (vm.combinedScore x cfg p (bestPerplexity seqs)
      (bestCost x.f32 (boundariesFrom o g).length seqs) (bestContext seqs)) seqs hne
    simp only [b1]
    obtain ⟨path, hp, hpath⟩ := mem_of_forall₂_right (sequencesOf_ok.mp h4) b2
    obtain ⟨hs1, _⟩ := sequenceOf_symbols hpath
    obtain ⟨ts, ⟨q, _, hq⟩, e⟩ := hsolve.sound _ _ _ hp
    obtain ⟨os, a1, a2⟩ := walk_matches hg h3 ts 0 q hq
    rw [e, a1] at hs1
    cases hs1
    obtain ⟨ms', a3, _⟩ := a2 best.tags 0
    exact ⟨ms', a3⟩

/-! ## The whole text -/

theorem batchMatches_total {vm : Vm} {x : TextExt} {cfg : TextConfig} {p : TextParams}
    (hinv : Inv vm) (hw : cfg.weights.sum x.f64 ≠ 0) (hsp : x.isAlpha ' ' = false)
    (hsolve : SolverOk x.solve)
    (hs : p.maxNgram > 1 ∨ vm.haveLm ∨ cfg.contextRules ≠ [] → Sound vm cfg p) {pre post : List Char}
    {g : List Seg} (hg : IsBatch x.isAlpha g)
    (hf : ∀ a r b, g = a ++ r ++ b → r.length ≤ p.maxNgram → stretch r ≠ [] →
      ∃ v, vm.findVariants x.toExt cfg.toConfig p.variant (stretch r) = .ok v) :
    ∃ ms, vm.batchMatches x cfg p (pre ++ flat g ++ post) (boundariesFrom (byteLen pre) g)
      (byteLen pre) (byteLen pre + byteLen (stretch g)) = .ok ms := by
  obtain ⟨batch, h1⟩ := gatherSegments_total (vm := vm) (cfg := cfg) (p := p) (pre := pre)
    (post := post) hsp hg p.maxNgram 1 [] (Nat.le_refl 1) (by
      intro k run hk1 hk2 hrun
      obtain ⟨a, r, b, e1, e2, e3, rfl⟩ := mem_runs hrun
      exact hf a r b e1 (by omega) e3)
  unfold Vm.batchMatches
  rw [h1]
  simp only [bind, Except.bind]
  split
  · next hc =>
    obtain ⟨new, e1, e2, _⟩ := gatherSegments_ok hsp hg p.maxNgram 1 [] batch (Nat.le_refl 1) h1
    rw [List.nil_append] at e1
    subst e1
    refine mostLikelySequence_total hinv hsolve (hs ?_) hg ?_ ?_
    · rcases hc with h | h | h
      · exact .inl h
      · exact .inr (.inl h)
      · exact .inr (.inr (by rintro h0; simp [h0] at h))
    · intro m hm
      obtain ⟨k, run, _, _, h2, h3⟩ := e2 m hm
      obtain ⟨s, hs⟩ := h3.span h2
      exact ⟨s, _, hs⟩
    · intro m hm vs hv
      obtain ⟨k, run, _, _, h2, h3⟩ := e2 m hm
      exact find_variants_ids hw (h3.variants h2 vs hv)
  · exact ⟨_, rfl⟩

theorem batchesRun_total {vm : Vm} {x : TextExt} {cfg : TextConfig} {p : TextParams}
    (hinv : Inv vm) (hw : cfg.weights.sum x.f64 ≠ 0) (hsp : x.isAlpha ' ' = false)
    (hsolve : SolverOk x.solve)
    (hs : p.maxNgram > 1 ∨ vm.haveLm ∨ cfg.contextRules ≠ [] → Sound vm cfg p) (gs : List (List Seg)) :
    ∀ (pre post : List Char), (∀ g ∈ gs, IsBatch x.isAlpha g) →
      (∀ g ∈ gs, ∀ a r b, g = a ++ r ++ b → r.length ≤ p.maxNgram → stretch r ≠ [] →
        ∃ v, vm.findVariants x.toExt cfg.toConfig p.variant (stretch r) = .ok v) →
      ∃ ms, Vm.batchesRun vm x cfg p (pre ++ flat gs.flatten ++ post) (byteLen pre) gs = .ok ms := by
  induction gs with
  | nil => intro pre post _ _; exact ⟨[], rfl⟩
  | cons g gs ih =>
    intro pre post hb hf
    have ht : pre ++ flat (g :: gs).flatten ++ post = pre ++ flat g ++ (flat gs.flatten ++ post) := by
      simp [flat_append]
    have ht' : pre ++ flat (g :: gs).flatten ++ post = (pre ++ flat g) ++ flat gs.flatten ++ post := by
      simp [flat_append]
    obtain ⟨r, h1⟩ := batchMatches_total hinv hw hsp hsolve hs (pre := pre)
      (post := flat gs.flatten ++ post) (hb g (by simp)) (hf g (by simp))
    obtain ⟨rest, h2⟩ := ih (pre ++ flat g) post (fun g' hg' => hb g' (by simp [hg']))
      (fun g' hg' => hf g' (by simp [hg']))
    rw [← ht] at h1
    rw [← ht', byteLen_append] at h2
    exact ⟨r ++ rest, bind_ok.mpr ⟨r, h1, bind_ok.mpr ⟨rest, h2, rfl⟩⟩⟩

/-- The search in text returns normally if each lookup it makes does. -/
theorem search_total_of_lookups {vm : Vm} {x : TextExt} {cfg : TextConfig} {p : TextParams}
    {text : List Char} (hinv : Inv vm) (hw : cfg.weights.sum x.f64 ≠ 0) (hsp : x.isAlpha ' ' = false)
    (hsolve : SolverOk x.solve)
    (hs : p.maxNgram > 1 ∨ vm.haveLm ∨ cfg.contextRules ≠ [] → Sound vm cfg p)
    (hf : ∀ segs a r b, Segmented x.isAlpha text segs → segs = a ++ r ++ b → r.length ≤ p.maxNgram →
      stretch r ≠ [] → ∃ v, vm.findVariants x.toExt cfg.toConfig p.variant (stretch r) = .ok v) :
    ∃ ms, vm.findAllMatches x cfg p text = .ok ms := by
  by_cases hne : text = []
  · unfold Vm.findAllMatches
    rw [if_pos hne]
    exact ⟨_, rfl⟩
  by_cases hi : vm.index.isEmpty = true
  · unfold Vm.findAllMatches
    rw [if_neg hne, if_pos hi]
    exact ⟨_, rfl⟩
  rw [Bool.not_eq_true] at hi
  obtain ⟨segs, hseg, _⟩ := findBoundaries_eq x.isAlpha text
  rw [findAllMatches_eq vm x cfg p hne hi hseg]
  obtain ⟨hb, hflat⟩ := batches_of hseg
  obtain ⟨ms, h1, h2⟩ : ∃ ms, Vm.batchesRun vm x cfg p text 0 (batches [] segs) = .ok ms ∧
      ∀ m ∈ ms, Faithful text m := by
    rcases hflat with hflat | ⟨hflat, _⟩
    · have htot := batchesRun_total hinv hw hsp hsolve hs (batches [] segs) [] [] hb (by
        intro g hg a r b e hr hne'
        obtain ⟨a', b', e'⟩ := infix_of_mem_flatten hg
        rw [hflat] at e'
        exact hf segs (a' ++ a) r (b ++ b') hseg (by rw [e', e]; simp) hr hne')
      simp only [List.nil_append, List.append_nil, hflat, hseg.text_eq] at htot
      obtain ⟨ms, h1⟩ := htot
      refine ⟨ms, h1, ?_⟩
      have := batchesRun_textOk (vm := vm) (cfg := cfg) (p := p) hsp hsolve (batches [] segs) [] []
        ms hb (fun _ => by rw [hflat]; exact segmented_infix (a := []) (b := []) (by simpa using hseg) hseg.ne)
      simp only [List.nil_append, List.append_nil, hflat, hseg.text_eq] at this
      exact (this h1).1.faithful
    · rw [hflat]
      exact ⟨[], rfl, by simp⟩
  rw [h1]
  simp only [bind, Except.bind]
  split
  · obtain ⟨ms', h3, _⟩ := unicode_offsets text ms h2
    exact ⟨ms', h3⟩
  · exact ⟨ms, rfl⟩

/-- **C76**: on a model that was built last, whose references are entries, with weights of non-zero
sum, the search in a text of which no `maxNgram` consecutive words have more than 65280 characters
returns normally.  At least one sequence must be asked for, with a language model no entry may have
256 words or more, and context rules must not be too long. -/
theorem search_total (alphabet : Alphabet) (hne : NoEmpty alphabet)
    (hlen : alphabet.length ≤ 166) (ops : List Op) (o : Orders) (m : Vm)
    (h : (Vm.new alphabet).run (ops ++ [.build o]) = .ok m)
    (hrefs : ∀ y ∈ (ops ++ [Op.build o]).flatMap opLinks, y.1 < m.decoder.length)
    (hshort : ∀ v ∈ m.decoder, v.text.length < 65536) (x : TextExt) (cfg : TextConfig)
    (p : TextParams) (hw : cfg.weights.sum x.f64 ≠ 0) (hsp : x.isAlpha ' ' = false)
    (hsolve : SolverOk x.solve) (hseq : 1 ≤ p.maxSeq)
    (hlm : m.haveLm = true → 0 < p.lmWeight →
      ∀ v ∈ m.decoder, ∀ ws, TokensOf v.text ws → ws.length ≤ 255)
    (hrules : ∀ r ∈ cfg.contextRules, RuleOk r) (text : List Char)
    (hwords : ∀ segs a r b, Segmented x.isAlpha text segs → segs = a ++ r ++ b →
      r.length ≤ p.maxNgram → (stretch r).length ≤ 65280) :
    ∃ ms, m.findAllMatches x cfg p text = .ok ms := by
  refine search_total_of_lookups (inv_run (inv_new alphabet) h).1 hw hsp hsolve
    (fun _ => ⟨hseq, ?_, hrules⟩) ?_
  · intro h1 h2 v hv
    have := hlm h1 h2 v hv _ (splitSpaces_isTokens v.text)
    rw [splitSpaces_length] at this
    omega
  · intro segs a r b h1 h2 h3 h4
    exact find_variants_total alphabet hne hlen ops o m h hrefs hshort x.toExt cfg.toConfig p.variant
      hw (stretch r) h4 (hwords segs a r b h1 h2 h3)

/-- In a text of at most 65280 characters all runs of words are short enough. -/
theorem short_words {isAlpha : Char → Bool} {text : List Char} (h : text.length ≤ 65280)
    (segs a r b : List Seg) (hseg : Segmented isAlpha text segs) (he : segs = a ++ r ++ b) :
    (stretch r).length ≤ 65280 := by
  refine le_trans (stretch_prefix_flat r).length_le (le_trans ?_ h)
  rw [← hseg.text_eq, he, flat_append, flat_append, List.length_append, List.length_append]
  omega

/-- A context rule: `ab` followed by `ba` is worth more, and tagged. -/
def exPair : ContextRule :=
  { pattern := [.vocab 3, .vocab 6], score := 3/2, tag := [4, 5], tagoffset := [(0, 2), (1, 1)] }

theorem exPair_ok : RuleOk exPair := by
  refine ⟨?_, by decide, by decide⟩
  intro p hp
  simp only [exPair, List.mem_cons, List.not_mem_nil, or_false] at hp
  rcases hp with rfl | rfl <;> simp [Small]

/-- A text of three batches, with context rules. -/
example : NoEmpty exAlphabet ∧ exAlphabet.length ≤ 166 ∧ plainOps = plainOps.dropLast ++ [.build exOrders] ∧
    plainOps.flatMap opLinks = [] ∧ (∀ v ∈ plain.decoder, v.text.length < 65536) ∧
    exTextConfig.weights.sum exText.f64 ≠ 0 ∧ exText.isAlpha ' ' = false ∧ SolverOk exText.solve ∧
    1 ≤ exTextParams.maxSeq ∧ plain.haveLm = false ∧
    (∀ r ∈ [exPair], RuleOk r) ∧ "ab ba, a-x b".toList.length ≤ 65280 ∧
    (plain.findAllMatches exText { exTextConfig with contextRules := [exPair] } exTextParams
      "ab ba, a-x b".toList).toOption.map (·.map fun m => (m.text, m.tag, m.seqnr)) =
      some [("ab".toList, [4], [0]), ("ba".toList, [4, 5], [1, 0]), ("a-x".toList, [], []), ("b".toList, [], [])] :=
  ⟨by decide, by decide, rfl, rfl, by decide +kernel, by decide +kernel, by decide +kernel,
    refSolver_ok, by decide, rfl, by simpa using exPair_ok, by decide, by decide +kernel⟩

/-- Entries that are both looked up and part of the language model. -/
def bothOps : List Op :=
  [.add ['a'] (some 3) { vocabType := VocabType.INDEXED.union .LM },
   .add ['b'] (some 1) { vocabType := VocabType.INDEXED.union .LM },
   .add ['a', ' ', 'b'] (some 2) { vocabType := .LM }, .build exOrders]

def both : Vm := ((Vm.new exAlphabet).run bothOps).toOption.getD (Vm.new [])

/-- With a language model. -/
example : (Vm.new exAlphabet).run bothOps = .ok both ∧ both.haveLm = true ∧ 0 < exTextParams.lmWeight ∧
    (∀ v ∈ both.decoder, (splitSpaces v.text).length ≤ 255) ∧
    (both.findAllMatches exText exTextConfig exTextParams "a b, b".toList).toOption.map
      (·.map fun m => (m.text, m.selected)) =
      some [("a".toList, some 0), ("b".toList, some 0), ("b".toList, some 0)] :=
  ⟨rfl, rfl, by decide +kernel, by decide +kernel, by decide +kernel⟩

/-- If no sequence is asked for, the search panics. -/
theorem no_sequences_panics :
    (plain.findAllMatches exText exTextConfig { exTextParams with maxSeq := 0 } "ab".toList) =
      .error .expect := by
  decide +kernel

end Verif.Props
