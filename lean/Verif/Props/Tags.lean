import Verif.Spec.Choice
import Verif.Props.Total

/-!
# The tags of the matches found in a text (C78)
-/
namespace Verif.Props

open Verif.Spec Verif.Model Verif.Lemmas

theorem resultMatches_spec {all : List Match} {tags : List (List (Nat × Nat))}
    {os : List OutputSymbol} {ms : List Match} {i : Nat}
    (h : resultMatches all tags i os = .ok ms) :
    List.Forall₂ (fun (o : OutputSymbol) (m : Match) => ∃ m0, all[o.matchIndex]? = some m0 ∧
      m.selected = o.variantIndex ∧ m.variants = m0.variants) os ms ∧
    ∀ (j : Nat) o m, os[j]? = some o → ms[j]? = some m → ∃ m0 ∈ all,
      m.tag = (match tags[i + j]? with | some t => t.map Prod.fst | none => m0.tag) ∧
      m.seqnr = (match tags[i + j]? with | some t => t.map Prod.snd | none => m0.seqnr) := by
  induction os generalizing ms i with
  | nil => cases h; exact ⟨.nil, by simp⟩
  | cons o os ih =>
    rw [resultMatches] at h
    split at h
    · cases h
    · next m0 hm0 =>
      obtain ⟨rest, h1, h2⟩ := bind_ok.mp h
      have := pure_ok.mp h2
      subst this
      obtain ⟨e1, e2⟩ := ih h1
      refine ⟨.cons ⟨m0, hm0, ?_, ?_⟩ e1, ?_⟩
      · cases tags[i]? <;> rfl
      · cases tags[i]? <;> rfl
      · intro j o' m hj hm
        cases j with
        | zero =>
          simp only [List.getElem?_cons_zero, Option.some.injEq] at hj hm
          subst hj hm
          refine ⟨m0, List.mem_of_getElem? hm0, ?_, ?_⟩
          · rw [Nat.add_zero]; cases tags[i]? <;> rfl
          · rw [Nat.add_zero]; cases tags[i]? <;> rfl
        | succ j =>
          simp only [List.getElem?_cons_succ] at hj hm
          rw [show i + (j + 1) = i + 1 + j by omega]
          exact e2 j o' m hj hm

/-- The symbols of a path agree with the matches they refer to. -/
theorem walk_entries {x : TextExt} {fw : Rat} {o : Nat} {g : List Seg} {all : List Match}
    {syms : List OutputSymbol} {trs : List Tr} (ht : ∀ t ∈ trs, TrOk x fw o g all syms t)
    {ts : List Tr} {q q' : Nat} (hw : Walk (trs ++ epsilonTrs g.length) q ts q')
    {os : List OutputSymbol} (h : lookupSymbols syms (outputs ts) = .ok os) :
    ∀ sym ∈ os, ∃ m, all[sym.matchIndex]? = some m ∧
      ((∃ vi vs v, sym.variantIndex = some vi ∧ m.variants = some vs ∧ vs[vi]? = some v ∧
        sym.vocabId = v.vocabId) ∨ (sym.variantIndex = none ∧ sym.vocabId = 0)) := by
  intro sym hsym
  obtain ⟨l, hl, h1⟩ := mem_lookupSymbols h sym hsym
  unfold outputs at hl
  rw [List.mem_filter, List.mem_map] at hl
  obtain ⟨⟨t, h2, rfl⟩, h3⟩ := hl
  have h4 := walk_mem hw t h2
  rw [List.mem_append] at h4
  rcases h4 with h4 | h4
  · obtain ⟨sym', m, _, a2, a3, a4, a5, a6⟩ := ht t h4
    rw [h1] at a2
    cases a2
    refine ⟨m, a3, ?_⟩
    rcases a6 with ⟨vi, vs, v, b1, b2, b3, b4, _⟩ | ⟨b1, _, b3, _⟩
    · exact .inl ⟨vi, vs, v, b1, b2, b3, b4⟩
    · exact .inr ⟨b1, b3⟩
  · unfold epsilonTrs at h4
    obtain ⟨j, _, rfl⟩ := List.mem_map.mp h4
    simp at h3

theorem chosenEntry_of {vm : Vm} {all : List Match} {o : OutputSymbol} {m m0 m1 : Match}
    (h1 : all[o.matchIndex]? = some m1)
    (h2 : (∃ vi vs v, o.variantIndex = some vi ∧ m1.variants = some vs ∧ vs[vi]? = some v ∧
        o.vocabId = v.vocabId) ∨ (o.variantIndex = none ∧ o.vocabId = 0))
    (h0 : all[o.matchIndex]? = some m0) (h3 : m.selected = o.variantIndex)
    (h4 : m.variants = m0.variants) : chosenEntry vm m = vm.symbolLexindex o := by
  rw [h1] at h0
  cases h0
  unfold chosenEntry Vm.symbolLexindex
  rcases h2 with ⟨vi, vs, v, a1, a2, a3, a4⟩ | ⟨a1, a2⟩
  · rw [h3, a1, h4, a2]
    simp only [Option.bind_some, a3, a4]
    split
    · rfl
    · cases vm.decoder[v.vocabId]? <;> rfl
  · rw [h3, a1]
    simp [a2]

/-- The tags of an assignment. -/
theorem tags_assigned (rule : ContextRule) (k : Nat) :
    ((assigned rule k).filterMap fun p => p.tag.map fun t => (t, p.seqnr)) = tagsGiven rule k := by
  unfold assigned tagsGiven
  split
  · next h => simp [h]
  · rw [List.filterMap_map]
    induction (rule.tag.zip rule.tagoffset).filter fun y => y.2.1 ≤ k ∧ k < y.2.1 + y.2.2 with
    | nil => rfl
    | cons y l ih => rw [List.filterMap_cons]; simp

theorem greedy_nil (sequence : List (Nat × Nat)) : Greedy (Marked []) [] sequence [] :=
  ⟨by simp, .nil, by simp, fun p rule _ h => by simp at h⟩

theorem greedy_empty (rules : List ContextRule) : Greedy (Marked rules) rules [] [] :=
  ⟨by simp, .nil, by simp, fun p rule h => by simp at h⟩

theorem tagged_empty (vm : Vm) (rules : List ContextRule) : Tagged vm rules [] :=
  ⟨[], greedy_empty rules, by simp⟩

theorem mostLikelySequence_tagged {vm : Vm} {x : TextExt} {cfg : TextConfig} {p : TextParams}
    (hsolve : SolverOk x.solve) (hrules : ∀ r ∈ cfg.contextRules, RuleOk r) {o : Nat} {g : List Seg}
    (hg : IsBatch x.isAlpha g) {all ms : List Match} (hsp : ∀ m ∈ all, ∃ s e, Span o g s e m)
    (hw : ∃ m ∈ all, ∃ s v, Span o g s (s + 1) m ∧ m.variants = some v)
    (hnone : ∀ m ∈ all, m.tag = [] ∧ m.seqnr = [])
    (h : vm.mostLikelySequence x cfg p all (boundariesFrom o g) (o + byteLen (stretch g)) = .ok ms) :
    Tagged vm cfg.contextRules ms := by
  obtain ⟨syms, trs, seqs, best, h1, h2, h3, h4, h5, h6, h7⟩ := mostLikelySequence_best hg hsp hw h
  obtain ⟨b, b1, b2, _⟩ := selectBest_none (vm.combinedScore x cfg p (bestPerplexity seqs)
    (bestCost x.f32 g.length seqs) (bestContext seqs)) seqs h5
  rw [b1] at h6
  cases h6
  simp only at h7
  obtain ⟨path, hp, hs⟩ := mem_of_forall₂_right (sequencesOf_ok.mp h4) b2
  obtain ⟨hs1, _⟩ := sequenceOf_symbols hs
  obtain ⟨ts, ⟨q, _, hq⟩, e⟩ := hsolve.sound _ _ _ hp
  rw [e] at hs1
  have hent := walk_entries h2 hq hs1
  obtain ⟨hf, htags⟩ := resultMatches_spec h7
  have hseq : ms.map (chosenEntry vm) = b.outputSymbols.map vm.symbolLexindex := by
    clear h7 htags hs1 h
    generalize b.outputSymbols = os at hf hent
    induction hf with
    | nil => rfl
    | @cons sym m os ms hm _ ih =>
      obtain ⟨m0, c1, c2, c3⟩ := hm
      obtain ⟨m1, d1, d2⟩ := hent sym (by simp)
      rw [List.map_cons, List.map_cons, ih fun s hs => hent s (by simp [hs]),
        chosenEntry_of d1 d2 c1 c2 c3]
  have hlen : ms.length = b.outputSymbols.length := hf.length_eq.symm
  have hsym : ∀ (i : Nat) m, ms[i]? = some m → ∃ sym, b.outputSymbols[i]? = some sym := by
    intro i m hi
    have := (List.getElem?_eq_some_iff.mp hi).1
    exact ⟨_, List.getElem?_eq_getElem (hlen ▸ this)⟩
  unfold Tagged
  rw [hseq]
  by_cases hr : cfg.contextRules = []
  · have hb : b.tags = [] := by
      unfold Vm.sequenceOf at hs
      obtain ⟨os, _, hs⟩ := bind_ok.mp hs
      simp only [hr, List.isEmpty_nil, if_true] at hs
      split at hs
      · obtain ⟨_, _, hs⟩ := bind_ok.mp hs
        rw [← pure_ok.mp hs]
      · rw [← pure_ok.mp hs]
    rw [hr]
    refine ⟨[], greedy_nil _, fun i m hi => ⟨by simp, fun _ => ?_⟩⟩
    obtain ⟨sym, hsym⟩ := hsym i m hi
    obtain ⟨m0, hm0, t1, t2⟩ := htags i sym m hsym hi
    rw [hb] at t1 t2
    simp only [List.getElem?_nil] at t1 t2
    rw [t1, t2]
    exact hnone m0 hm0
  · obtain ⟨A, score, results, c1, c2, c3, c4, c5, _⟩ :=
      context_rules vm x cfg.contextRules b.outputSymbols hrules
    have hb : b.tags = tagsOf results := by
      unfold Vm.sequenceOf at hs
      obtain ⟨os, ho, hs⟩ := bind_ok.mp hs
      rw [e, hs1] at ho
      cases ho
      have hr' : cfg.contextRules.isEmpty = false := by simpa using hr
      simp only [hr', Bool.false_eq_true, if_false, c1] at hs
      split at hs
      · obtain ⟨_, _, hs⟩ := bind_ok.mp hs
        rw [← pure_ok.mp hs]
      · rw [← pure_ok.mp hs]
    refine ⟨A, c2, fun i m hi => ?_⟩
    obtain ⟨sym, hsym⟩ := hsym i m hi
    obtain ⟨m0, hm0, t1, t2⟩ := htags i sym m hsym hi
    have hi' : i < b.outputSymbols.length := (List.getElem?_eq_some_iff.mp hsym).1
    rw [hb, Nat.zero_add, tagsOf, List.getElem?_map] at t1 t2
    constructor
    · intro a ha rule hrule hmark
      have := c4 a ha rule hrule i hmark
      rw [this, Option.map_some, tags_assigned] at t1 t2
      exact ⟨t1, t2⟩
    · intro hno
      rw [c5 i hi' hno, Option.map_some] at t1 t2
      exact ⟨t1, t2⟩

theorem Looked.tags {vm : Vm} {x : TextExt} {cfg : TextConfig} {p : TextParams} {run m : Match}
    {k o : Nat} {g : List Seg} (h : Looked vm x cfg p run m) (hr : run ∈ runsFrom k o g) :
    m.tag = [] ∧ m.seqnr = [] := by
  obtain ⟨a, r, b, h1, h2, h3, rfl⟩ := mem_runs hr
  rcases h with rfl | ⟨v, _, rfl⟩ <;> exact ⟨rfl, rfl⟩

theorem batchMatches_tagged {vm : Vm} {x : TextExt} {cfg : TextConfig} {p : TextParams}
    (hsp : x.isAlpha ' ' = false) (hsolve : SolverOk x.solve)
    (hrules : ∀ r ∈ cfg.contextRules, RuleOk r) {pre post : List Char}
    {g : List Seg} (hg : IsBatch x.isAlpha g) {ms : List Match}
    (h : vm.batchMatches x cfg p (pre ++ flat g ++ post) (boundariesFrom (byteLen pre) g)
      (byteLen pre) (byteLen pre + byteLen (stretch g)) = .ok ms) :
    Tagged vm cfg.contextRules ms := by
  unfold Vm.batchMatches at h
  obtain ⟨batch, h1, h⟩ := bind_ok.mp h
  obtain ⟨new, e1, e2, e3⟩ := gatherSegments_ok hsp hg p.maxNgram 1 [] batch (Nat.le_refl 1) h1
  rw [List.nil_append] at e1
  subst e1
  have hnone : ∀ m ∈ batch, m.tag = [] ∧ m.seqnr = [] := by
    intro m hm
    obtain ⟨k, run, _, _, h2, h3⟩ := e2 m hm
    exact Looked.tags h3 h2
  split at h
  · by_cases hn : p.maxNgram = 0
    · rw [hn] at h1
      simp only [Vm.gatherSegments, Except.ok.injEq] at h1
      subst h1
      have sel := mostLikelySequence_ok hsolve hg (by simp) (.inl rfl) h
      have : ms = [] := by
        rw [List.eq_nil_iff_forall_not_mem]
        intro m hm
        obtain ⟨_, hm0, _⟩ := sel.from_ m hm
        cases hm0
      subst this
      exact tagged_empty vm _
    · obtain ⟨a, w, s, b, rfl, hw⟩ := hg.has_word
      have hr := run_mem (n := 1) (o := byteLen pre) (a := a) (r := [(w, s)]) (b := b) rfl hw
      obtain ⟨m, hm, h2, h3⟩ := e3 1 _ (Nat.le_refl 1) (by omega) hr
      obtain ⟨v, hv⟩ := h3 rfl
      obtain ⟨s', hs'⟩ := h2.span hr
      refine mostLikelySequence_tagged hsolve hrules hg ?_ ⟨m, hm, s', v, hs', hv⟩ hnone h
      intro m hm
      obtain ⟨k, run, _, _, h2, h3⟩ := e2 m hm
      obtain ⟨s, hs⟩ := h3.span h2
      exact ⟨s, _, hs⟩
  · next hc =>
    have hr : cfg.contextRules = [] := by
      by_contra hcon
      exact hc (.inr (.inr (by simpa using hcon)))
    have := pure_ok.mp h
    subst this
    rw [hr]
    refine ⟨[], greedy_nil _, fun i m hi => ⟨by simp, fun _ => ?_⟩⟩
    rw [List.getElem?_map] at hi
    obtain ⟨m0, h2, rfl⟩ := Option.map_eq_some_iff.mp hi
    exact hnone m0 (List.mem_of_getElem? h2)

theorem batchesRun_tagged {vm : Vm} {x : TextExt} {cfg : TextConfig} {p : TextParams}
    (hsp : x.isAlpha ' ' = false) (hsolve : SolverOk x.solve)
    (hrules : ∀ r ∈ cfg.contextRules, RuleOk r) (gs : List (List Seg)) :
    ∀ (pre post : List Char) (ms : List Match), (∀ g ∈ gs, IsBatch x.isAlpha g) →
      Vm.batchesRun vm x cfg p (pre ++ flat gs.flatten ++ post) (byteLen pre) gs = .ok ms →
      ∃ mss : List (List Match), ms = mss.flatten ∧ mss.length = gs.length ∧
        (∀ (i : Nat) g r, gs[i]? = some g → mss[i]? = some r → ∀ m ∈ r,
          ∃ s e, Span (byteLen pre + byteLen (flat (gs.take i).flatten)) g s e m) ∧
        ∀ r ∈ mss, Tagged vm cfg.contextRules r := by
  induction gs with
  | nil =>
    intro pre post ms _ h
    cases h
    exact ⟨[], rfl, rfl, by simp, by simp⟩
  | cons g gs ih =>
    intro pre post ms hb h
    have ht : pre ++ flat (g :: gs).flatten ++ post = pre ++ flat g ++ (flat gs.flatten ++ post) := by
      simp [flat_append]
    have ht' : pre ++ flat (g :: gs).flatten ++ post = (pre ++ flat g) ++ flat gs.flatten ++ post := by
      simp [flat_append]
    rw [Vm.batchesRun] at h
    obtain ⟨r, h1, h⟩ := bind_ok.mp h
    obtain ⟨rest, h2, h⟩ := bind_ok.mp h
    have h := pure_ok.mp h
    subst h
    have hg := hb g (by simp)
    rw [ht] at h1
    rw [ht', ← byteLen_append] at h2
    obtain ⟨mss, m1, m2, m3, m4⟩ := ih (pre ++ flat g) post rest (fun g' hg' => hb g' (by simp [hg'])) h2
    refine ⟨r :: mss, by rw [m1]; rfl, by simp [m2], ?_, ?_⟩
    · intro i g' r' hi hr m hm
      cases i with
      | zero =>
        simp only [List.getElem?_cons_zero, Option.some.injEq] at hi hr
        subst hi hr
        simpa [flat, byteLen] using (batchMatches_ok hsp hsolve hg h1).spans m hm
      | succ i =>
        simp only [List.getElem?_cons_succ] at hi hr
        have := m3 i g' r' hi hr m hm
        rw [List.take_succ_cons, List.flatten_cons, flat_append, byteLen_append, ← Nat.add_assoc]
        rwa [byteLen_append] at this
    · intro r' hr'
      rcases List.mem_cons.mp hr' with rfl | hr'
      · exact batchMatches_tagged hsp hsolve hrules hg h1
      · exact m4 r' hr'

/-- **C78**: the matches of each batch of the text have exactly the tags that the context rules,
applied to the entries selected in the batch, give them. -/
theorem text_tags {vm : Vm} {x : TextExt} {cfg : TextConfig} {p : TextParams} {text : List Char}
    {ms : List Match} (hsp : x.isAlpha ' ' = false) (hsolve : SolverOk x.solve)
    (hrules : ∀ r ∈ cfg.contextRules, RuleOk r) (hu : p.unicodeoffsets = false)
    (h : vm.findAllMatches x cfg p text = .ok ms) :
    ∃ segs mss, Segmented x.isAlpha text segs ∧ ms = mss.flatten ∧
      (∀ r ∈ mss, Tagged vm cfg.contextRules r) ∧
      (mss = [] ∨ (mss.length = (batches [] segs).length ∧
        ∀ (i : Nat) g r, (batches [] segs)[i]? = some g → mss[i]? = some r → ∀ m ∈ r,
          ∃ s e, Span (byteLen (flat ((batches [] segs).take i).flatten)) g s e m)) := by
  obtain ⟨segs, hseg, _⟩ := findBoundaries_eq x.isAlpha text
  by_cases hne : text = []
  · unfold Vm.findAllMatches at h
    rw [if_pos hne] at h
    cases h
    exact ⟨segs, [], hseg, rfl, by simp, .inl rfl⟩
  by_cases hi : vm.index.isEmpty = true
  · unfold Vm.findAllMatches at h
    rw [if_neg hne, if_pos hi] at h
    cases h
    exact ⟨segs, [], hseg, rfl, by simp, .inl rfl⟩
  rw [Bool.not_eq_true] at hi
  rw [findAllMatches_eq vm x cfg p hne hi hseg] at h
  obtain ⟨ms', h1, h⟩ := bind_ok.mp h
  rw [hu] at h
  have := pure_ok.mp h
  subst this
  obtain ⟨hb, hflat⟩ := batches_of hseg
  rcases hflat with hflat | ⟨hflat, _⟩
  · have := batchesRun_tagged (vm := vm) (cfg := cfg) (p := p) hsp hsolve hrules (batches [] segs) []
      [] ms' hb
    simp only [List.nil_append, List.append_nil, hflat, hseg.text_eq] at this
    obtain ⟨mss, m1, m2, m3, m4⟩ := this h1
    exact ⟨segs, mss, hseg, m1, m4, .inr ⟨m2, by simpa [byteLen] using m3⟩⟩
  · rw [hflat] at h1
    cases h1
    exact ⟨segs, [], hseg, rfl, by simp, .inl rfl⟩

/-- Two batches: in the first the words `ab` and `ba` take part in the rule, in the second none does. -/
example : (∀ r ∈ [exPair], RuleOk r) ∧ SolverOk exText.solve ∧
    (plain.findAllMatches exText { exTextConfig with contextRules := [exPair] } exTextParams
      "b ab ba, ba ab".toList).toOption.map (·.map fun m => (chosenEntry plain m, m.tag, m.seqnr)) =
      some [((4, 1), [], []), ((3, 1), [4], [0]), ((6, 1), [4, 5], [1, 0]), ((6, 1), [], []), ((3, 1), [], [])] ∧
    tagsGiven exPair 0 = [(4, 0)] ∧ tagsGiven exPair 1 = [(4, 1), (5, 0)] :=
  ⟨by simpa using exPair_ok, refSolver_ok, by decide +kernel, by decide +kernel, by decide +kernel⟩

/-- As many tags as numbers. -/
theorem text_tags_numbered {vm : Vm} {x : TextExt} {cfg : TextConfig} {p : TextParams}
    {text : List Char} {ms : List Match} (hsp : x.isAlpha ' ' = false) (hsolve : SolverOk x.solve)
    (hrules : ∀ r ∈ cfg.contextRules, RuleOk r) (h : vm.findAllMatches x cfg p text = .ok ms) :
    ∀ m ∈ ms, m.tag.length = m.seqnr.length := by
  have key : ∀ (p : TextParams) ms, p.unicodeoffsets = false → vm.findAllMatches x cfg p text = .ok ms →
      ∀ m ∈ ms, m.tag.length = m.seqnr.length := by
    intro p ms hu h m hm
    obtain ⟨segs, mss, _, rfl, h2, _⟩ := text_tags hsp hsolve hrules hu h
    obtain ⟨r, hr, hm⟩ := List.mem_flatten.mp hm
    obtain ⟨A, _, h3⟩ := h2 r hr
    obtain ⟨i, hi⟩ := List.mem_iff_getElem?.mp hm
    obtain ⟨h4, h5⟩ := h3 i m hi
    by_cases hA : ∃ a ∈ A, Marked cfg.contextRules a i
    · obtain ⟨a, ha, hmark⟩ := hA
      obtain ⟨rule, hrule, _⟩ := id hmark
      obtain ⟨e1, e2⟩ := h4 a ha rule hrule hmark
      rw [e1, e2]; simp
    · obtain ⟨e1, e2⟩ := h5 fun a ha hm => hA ⟨a, ha, hm⟩
      rw [e1, e2]
  cases hu : p.unicodeoffsets with
  | false => exact key p ms hu h
  | true =>
    obtain ⟨ms', h1, h2, _⟩ := text_matches_unicode hsp hsolve hu h
    intro m hm
    obtain ⟨m', hm', e, _⟩ := mem_of_forall₂_right h2 hm
    rw [e]
    exact key _ ms' rfl h1 m' hm'

end Verif.Props
