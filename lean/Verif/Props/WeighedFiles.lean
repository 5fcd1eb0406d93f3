import Verif.Spec.WeighedFiles
import Verif.Props.Searched
import Verif.Props.Weighed

/-!
# What searches with a language model and context rules print, in floating point (C123)
-/
namespace Verif.Props

open Verif.Model Verif.Spec Verif.Lemmas

/-! ## Readings with other descriptions of the variants -/

theorem priced_runs {V : Type} {r : Rounding} {fa : List Char → List V → Prop} {da sa : V → Rat} {n : Nat}
    (hn : 1 ≤ n) {o : Nat} {g : List Seg} {l : List (Part V)} {cs : List Rat} (h : Priced r fa da sa n o g l cs) :
    ∀ a ∈ l, Chosen fa a ∧ ∃ r, r <:+: g ∧ r.length ≤ n ∧ stretch r ≠ [] ∧ a.text = stretch r := by
  induction h with
  | done => simp
  | skip _ ih =>
    intro a ha
    obtain ⟨h0, r, h1, h2⟩ := ih a ha
    exact ⟨h0, r, h1.trans (List.suffix_cons _ _).isInfix, h2⟩
  | @variant _ r w s g _ _ vs i v h1 h2 _ h4 h5 _ ih =>
    intro a ha
    rcases List.mem_cons.mp ha with rfl | ha
    · refine ⟨⟨vs, h4, ?_⟩, r ++ [(w, s)], (List.prefix_append _ g).isInfix, by simpa using h1, h2, rfl⟩
      intro k hk
      cases hk
      exact h5
    · obtain ⟨h0, r', h1, h2⟩ := ih a ha
      exact ⟨h0, r', h1.trans (List.suffix_append _ g).isInfix, h2⟩
  | @unknown _ w s g _ _ h1 h2 _ ih =>
    intro a ha
    rcases List.mem_cons.mp ha with rfl | ha
    · exact ⟨⟨[], h2, fun k hk => nomatch hk⟩, [(w, s)], (List.prefix_append [(w, s)] g).isInfix, hn, h1, rfl⟩
    · obtain ⟨h0, r', h1, h2⟩ := ih a ha
      exact ⟨h0, r', h1.trans (List.suffix_cons _ _).isInfix, h2⟩

/-- A reading stays one, with the same costs, if the variants are replaced by others with the same scores. -/
theorem priced_imp {V W : Type} {R : V → W → Prop} {r : Rounding} {fa : List Char → List V → Prop}
    {fb : List Char → List W → Prop} {da sa : V → Rat} {db sb : W → Rat} {n : Nat} (hn : 1 ≤ n)
    (hR : ∀ v u, R v u → da v = db u ∧ sa v = sb u) {o : Nat} {g : List Seg} {l : List (Part V)} {cs : List Rat}
    (h : Priced r fa da sa n o g l cs)
    (hfound : ∀ r, r <:+: g → r.length ≤ n → stretch r ≠ [] → ∀ vs, fa (stretch r) vs →
      ∃ us, fb (stretch r) us ∧ List.Forall₂ R vs us) :
    ∃ l', List.Forall₂ (SamePlace R) l l' ∧ Priced r fb db sb n o g l' cs := by
  induction h with
  | done => exact ⟨[], .nil, .done⟩
  | @skip o w s g l c _ ih =>
    obtain ⟨l', h1, h2⟩ := ih fun r hr => hfound r (hr.trans (List.suffix_cons _ _).isInfix)
    exact ⟨l', h1, .skip h2⟩
  | @variant o r w s g l c vs i v h1 h2 h3 h4 h5 _ ih =>
    obtain ⟨l', i1, i2⟩ := ih fun r' hr => hfound r' (hr.trans (List.suffix_append _ g).isInfix)
    obtain ⟨us, k1, k2⟩ := hfound (r ++ [(w, s)]) (List.prefix_append _ g).isInfix (by simpa using h1) h2 vs h4
    obtain ⟨u, hu, hvu⟩ : ∃ u, us[i]? = some u ∧ R v u := by
      obtain ⟨hi, rfl⟩ := List.getElem?_eq_some_iff.mp h5
      have hi' : i < us.length := k2.length_eq ▸ hi
      exact ⟨us[i], List.getElem?_eq_getElem hi', List.forall₂_iff_get.mp k2 |>.2 i hi hi'⟩
    rw [(hR v u hvu).2]
    refine ⟨_, .cons ⟨rfl, rfl, rfl, .inr ⟨i, v, u, rfl, rfl, hvu⟩⟩ i1, .variant h1 h2 ?_ k1 hu i2⟩
    rcases h3 with h3 | ⟨q, hq, hqw, vs', e1, e2⟩
    · exact .inl h3
    · obtain ⟨w', s'⟩ := q
      have hin : [(w', s')] <:+: r ++ [(w, s)] ++ g := by
        obtain ⟨r1, r2, e⟩ := List.append_of_mem hq
        rw [e]
        exact ⟨r1, r2 ++ g, by simp⟩
      obtain ⟨us', j1, j2⟩ := hfound [(w', s')] hin hn hqw vs' e1
      refine .inr ⟨(w', s'), hq, hqw, us', j1, ?_⟩
      intro u hu
      cases j2 with
      | nil => cases hu
      | cons j _ =>
        cases hu
        rw [← (hR _ _ j).1]
        exact e2 _ rfl
  | @unknown o w s g l c h1 h2 _ ih =>
    obtain ⟨l', i1, i2⟩ := ih fun r hr => hfound r (hr.trans (List.suffix_cons _ _).isInfix)
    obtain ⟨us, k1, k2⟩ := hfound [(w, s)] (List.prefix_append [(w, s)] g).isInfix hn h1 [] h2
    cases k2
    exact ⟨_, .cons ⟨rfl, rfl, rfl, .inl ⟨rfl, rfl⟩⟩ i1, .unknown h1 k1 i2⟩

/-- A reading that is not beaten stays so. -/
theorem unbeaten_imp {V W : Type} {S : Weighing V} {T : Weighing W} {R : V → W → Prop} {n o : Nat} {g : List Seg}
    {l : List (Part V)} (hn : 1 ≤ S.width) (hwidth : T.width = S.width) (hr : T.r = S.r) (hτ : T.τ = S.τ)
    (hlm : T.lm = S.lm) (hov : T.overall = S.overall)
    (hR : ∀ v u, R v u → S.dist v = T.dist u ∧ S.score v = T.score u)
    (hS : ∀ t vs vs', S.found t vs → S.found t vs' → vs = vs')
    (hT : ∀ t us us', T.found t us → T.found t us' → us = us')
    (hfound : ∀ r, r <:+: g → r.length ≤ S.width → stretch r ≠ [] →
      ∃ vs us, S.found (stretch r) vs ∧ T.found (stretch r) us ∧ List.Forall₂ R vs us)
    (hperp : S.lm = true → ∀ l l', List.Forall₂ (SamePlace R) l l' → ∀ y, S.perplexity l y → T.perplexity l' y)
    (hctx : ∀ l l', List.Forall₂ (SamePlace R) l l' → ∀ y, S.context l y → T.context l' y)
    (h : Unbeaten S n o g l) :
    ∃ l', List.Forall₂ (SamePlace R) l l' ∧
      (∀ a ∈ l', ∃ r, r <:+: g ∧ r.length ≤ S.width ∧ stretch r ≠ [] ∧ a.text = stretch r) ∧ Unbeaten T n o g l' := by
  obtain ⟨l1, a, l2, best, hleast, hbest, hmax, hbefore, hafter, hone⟩ := h
  have there : ∀ l c, Priced S.r S.found S.dist S.score S.width o g l c →
      ∃ l', List.Forall₂ (SamePlace R) l l' ∧ Priced T.r T.found T.dist T.score T.width o g l' c := by
    intro l c h
    rw [hwidth, hr]
    refine priced_imp hn hR h fun r h1 h2 h3 vs h4 => ?_
    obtain ⟨vs', us, k1, k2, k3⟩ := hfound r h1 h2 h3
    cases hS _ _ _ h4 k1
    exact ⟨us, k2, k3⟩
  have back : ∀ l' c, Priced T.r T.found T.dist T.score T.width o g l' c →
      ∃ l, List.Forall₂ (SamePlace R) l l' ∧ Priced S.r S.found S.dist S.score S.width o g l c := by
    intro l' c h
    rw [hwidth, hr] at h
    obtain ⟨l, k1, k2⟩ := priced_imp (R := fun u v => R v u) hn
      (fun u v h => ⟨(hR v u h).1.symm, (hR v u h).2.symm⟩) h fun r h1 h2 h3 us h4 => by
        obtain ⟨vs, us', k1, k2, k3⟩ := hfound r h1 h2 h3
        cases hT _ _ _ h4 k2
        exact ⟨vs, k1, k3.flip⟩
    exact ⟨l, k1.flip.imp fun _ _ h => h.flip, k2⟩
  have runS : ∀ {l c}, Priced S.r S.found S.dist S.score S.width o g l c → ∀ a ∈ l, Chosen S.found a :=
    fun h a ha => (priced_runs hn h a ha).1
  have runT : ∀ {l c}, Priced T.r T.found T.dist T.score T.width o g l c → ∀ a ∈ l, Chosen T.found a :=
    fun h a ha => (priced_runs (hwidth ▸ hn) h a ha).1
  -- the readings to compare
  let Q : List (Part V) × Figures → List (Part W) × Figures → Prop := fun r r' =>
    List.Forall₂ (SamePlace R) r.1 r'.1 ∧ r'.2 = r.2 ∧
      ∃ cs, Priced T.r T.found T.dist T.score T.width o g r'.1 cs ∧ r.2.cost = added S.r cs
  have some' : ∀ rs : List (List (Part V) × Figures), (∀ r ∈ rs, HasFigures S o g r.1 r.2) →
      ∃ rs', List.Forall₂ Q rs rs' := by
    intro rs h
    obtain ⟨rs', h1, _⟩ := forall₂_both (P := Q) (Q := fun _ _ => True) (l := rs) (fun r hr => by
      obtain ⟨cs, c1, c2⟩ := (h r hr).cost
      obtain ⟨l', k1, k2⟩ := there _ _ c1
      exact ⟨(l', r.2), ⟨k1, rfl, cs, k2, c2⟩, trivial⟩)
    exact ⟨rs', h1⟩
  obtain ⟨l1', hl1⟩ := some' l1 fun r hr => hleast.figures r (by simp [hr])
  obtain ⟨l2', hl2⟩ := some' l2 fun r hr => hleast.figures r (by simp [hr])
  obtain ⟨l', hl', hlp⟩ : ∃ l', List.Forall₂ (SamePlace R) l l' ∧
      ∃ cs, Priced T.r T.found T.dist T.score T.width o g l' cs ∧ a.cost = added S.r cs := by
    obtain ⟨cs, c1, c2⟩ := (hleast.figures (l, a) (by simp)).cost
    obtain ⟨l', k1, k2⟩ := there _ _ c1
    exact ⟨l', k1, cs, k2, c2⟩
  have hrs : List.Forall₂ Q (l1 ++ (l, a) :: l2) (l1' ++ (l', a) :: l2') :=
    List.rel_append hl1 (.cons ⟨hl', rfl, hlp⟩ hl2)
  have hothers : List.Forall₂ Q (l1 ++ l2) (l1' ++ l2') := List.rel_append hl1 hl2
  have hnot : NoneNegative (l1' ++ (l', a) :: l2') → NoneNegative (l1 ++ (l, a) :: l2) := by
    intro h r hr
    obtain ⟨r', hr', _, e, _⟩ := mem_of_forall₂_left hrs hr
    rw [← e]
    exact h r' hr'
  have uniq : ∀ {r r' r''}, List.Forall₂ (SamePlace R) r r' → List.Forall₂ (SamePlace R) r r'' →
      (∀ a ∈ r', Chosen T.found a) → (∀ a ∈ r'', Chosen T.found a) → r' = r'' := by
    intro r r' r'' h1 h2 c1 c2
    exact samePlace_unique hT c1 c2 (h1.flip.imp fun _ _ h => h.flip) (h2.flip.imp fun _ _ h => h.flip)
  refine ⟨l', hl', ?_, l1', a, l2', best, ⟨?_, ?_, ?_, ?_⟩, ⟨?_, ?_, ?_⟩, ?_, ?_, ?_, ?_⟩
  · obtain ⟨cs, c1, _⟩ := hlp
    intro b hb
    rw [← hwidth]
    exact (priced_runs (hwidth ▸ hn) c1 b hb).2
  · intro r' hr'
    obtain ⟨r, hr0, h1, h2, cs, h3, h4⟩ := mem_of_forall₂_right hrs hr'
    have hm := hleast.figures r hr0
    refine ⟨?_, ⟨cs, h3, by rw [h2, h4, hr]⟩, by rw [h2]; exact hctx _ _ h1 _ hm.context⟩
    have hp := hm.perplexity
    rw [hlm, h2]
    split
    · next e =>
      rw [if_pos e] at hp
      exact hperp e _ _ h1 _ hp
    · next e =>
      rw [if_neg e] at hp
      exact hp
  · have hrs2 : List.Forall₂ (fun (k : List (Part V)) (r' : List (Part W) × Figures) =>
        List.Forall₂ (SamePlace R) k r'.1) ((l1 ++ (l, a) :: l2).map Prod.fst) (l1' ++ (l', a) :: l2') := by
      rw [List.forall₂_map_left_iff]
      exact hrs.imp fun r r' h => h.1
    refine forall₂_nodup hrs2 hleast.distinct ?_
    intro k hk k' hk' r r' h1 h2 e
    obtain ⟨q, hq, rfl⟩ := List.mem_map.mp hk
    obtain ⟨q', hq', rfl⟩ := List.mem_map.mp hk'
    rw [← e] at h2
    obtain ⟨_, c1, _⟩ := (hleast.figures q hq).cost
    obtain ⟨_, c2, _⟩ := (hleast.figures q' hq').cost
    exact samePlace_unique hS (runS c1) (runS c2) h1 h2
  · rw [← hrs.length_eq]
    exact hleast.atMost
  · intro k' c hk hnot
    obtain ⟨k, k1, k2⟩ := back k' c hk
    have hnot' : k ∉ (l1 ++ (l, a) :: l2).map Prod.fst := by
      intro hm
      obtain ⟨q, hq, rfl⟩ := List.mem_map.mp hm
      obtain ⟨q', hq', h1, _, _, h3, _⟩ := mem_of_forall₂_left hrs hq
      refine hnot (List.mem_map.mpr ⟨q', hq', ?_⟩)
      exact uniq h1 k1 (runT h3) (runT hk)
    obtain ⟨e, h1⟩ := hleast.others k c k2 hnot'
    refine ⟨by rw [← hrs.length_eq]; exact e, fun r' hr' => ?_⟩
    obtain ⟨r, hr0, _, h2, _⟩ := mem_of_forall₂_right hrs hr'
    rw [h2, hr, hτ]
    exact h1 r hr0
  · obtain ⟨b1, b2, b3, b4⟩ := hbest.perplexity
    refine ⟨b1.imp id ?_, b2, b3, ?_⟩
    · rintro ⟨r, hr0, e⟩
      obtain ⟨r', hr', _, h2, _⟩ := mem_of_forall₂_left hrs hr0
      exact ⟨r', hr', by rw [h2]; exact e⟩
    · intro r' hr'
      obtain ⟨r, hr0, _, h2, _⟩ := mem_of_forall₂_right hrs hr'
      rw [h2]
      exact b4 r hr0
  · have hset : ∀ y, (∃ r ∈ l1' ++ (l', a) :: l2', y = r.2.cost) ↔ ∃ r ∈ l1 ++ (l, a) :: l2, y = r.2.cost := by
      intro y
      constructor
      · rintro ⟨r', hr', e⟩
        obtain ⟨r, hr0, _, h2, _⟩ := mem_of_forall₂_right hrs hr'
        exact ⟨r, hr0, h2 ▸ e⟩
      · rintro ⟨r, hr0, e⟩
        obtain ⟨r', hr', _, h2, _⟩ := mem_of_forall₂_left hrs hr0
        exact ⟨r', hr', h2.symm ▸ e⟩
    simp only [hset, hr]
    exact hbest.cost
  · have hset : ∀ y, (∃ r ∈ l1' ++ (l', a) :: l2', y = r.2.context) ↔
        ∃ r ∈ l1 ++ (l, a) :: l2, y = r.2.context := by
      intro y
      constructor
      · rintro ⟨r', hr', e⟩
        obtain ⟨r, hr0, _, h2, _⟩ := mem_of_forall₂_right hrs hr'
        exact ⟨r, hr0, h2 ▸ e⟩
      · rintro ⟨r, hr0, e⟩
        obtain ⟨r', hr', _, h2, _⟩ := mem_of_forall₂_left hrs hr0
        exact ⟨r', hr', h2.symm ▸ e⟩
    simp only [hset]
    exact hbest.context
  · intro r' hr'
    obtain ⟨r, hr0, _, h2, _⟩ := mem_of_forall₂_right hothers hr'
    rw [h2, hov]
    exact hmax r hr0
  · intro hnone r' hr'
    obtain ⟨r, hr0, _, h2, _⟩ := mem_of_forall₂_right hl1 hr'
    rw [h2]
    exact hbefore (hnot hnone) r hr0
  · intro hnone r' hr'
    obtain ⟨r, hr0, _, h2, _⟩ := mem_of_forall₂_right hl2 hr'
    rw [h2, hov]
    exact hafter (hnot hnone) r hr0
  · intro hg r' hr'
    obtain ⟨r, hr0, _, h2, _⟩ := mem_of_forall₂_right hothers hr'
    rw [h2]
    exact hone hg r hr0

/-! ## What is loaded -/

/-- The perplexity of a reading is what the files say. -/
theorem loaded_computed {x : LoadExt} {args : LoadArgs} {o : Orders} {L : Loaded}
    (h : x.load args o = .ok L) (hcount : (sourcesOf args).length ≤ 256)
    {as : List Additions} (has : AddsAll x 0 (sourcesOf args) as)
    (hshort : ∀ a ∈ as.flatten, ∀ us, TokensOf a.1 us → us.length ≤ 255)
    {y : TextExt} {l : List (Part VariantResult)} {l' : List (Part Suggestion)}
    (hl : List.Forall₂ (SamePart L.vm) l l') {v : EFloat} :
    ComputedPerplexity L.vm y l v ↔ WordsPerplexity as.flatten y l' v :=
  loaded_transitions h hcount has hshort (y := y) hl fun steps => v = minusMean y steps

/-- The texts are read as the files say. -/
theorem resources_weighed {x : ToolExt} (hmarks : MarksOk x.load.isSpace) (hb : x.load.isSpace '\\' = false)
    (hsp : x.text.isAlpha ' ' = false)
    {c : CommandLine} (hc : Accepted c)
    {as : List Additions} {w : Weights} {p : TextParams} {τ : Rat} (hx : SoundFloats x.text p.variant.freqWeight τ)
    (hfiles : UsableFiles x c as) (hnum : UsableNumbers x c w p) (hwt : WeightsOk x.text.f64 w)
    (hfw : 0 ≤ p.variant.freqWeight) (hn : 1 ≤ p.maxNgram) (hseq : 1 ≤ p.maxSeq)
    (hwl : 0 ≤ p.lmWeight) (hwv : 0 ≤ p.variantmodelWeight) (hwc : 0 ≤ p.contextrulesWeight)
    (htokens : ∀ a ∈ as.flatten, ∀ us, TokensOf a.1 us → us.length ≤ 255)
    {afile : List Char} {alines : List (Option (List Char))} {alphabet : Alphabet}
    (ha : (.alphabet, afile) ∈ c.given) (hal : x.load.file afile = some alines)
    (hae : List.Forall₂ (AlphabetLine x.load.isSpace) (nonEmpty alines) alphabet)
    {kss : List (List (List Char × List Char × Rat))}
    (hk : List.Forall₂ (Gives x.load) (sourcesGiven c) kss) (hrefs : ∀ k ∈ kss.flatten, ¬ Reserved k.1)
    (hks : ∀ k ∈ kss.flatten, 0 ≤ k.2.2 ∧ k.2.2 ≤ 1)
    (hwords : ∃ t, (lexisFrom (sourcesGiven c) as kss).indexed t)
    {cs : List Confusable} (hcs : ConfusablesGiven x c cs) (hmild : MildConfusables x.text.f64 cs)
    {early : Bool} (hearly : early = true ↔ Given c .earlyConfusables)
    {rules : List WrittenRule}
    (hrules : RulesIn x.load (c.given.filterMap fun g => if g.1 = .contextrules then some g.2 else none) rules)
    (hnames : ∀ r ∈ rules, NamesKnown ((sourcesGiven c).map Source.name) as r)
    (htags : (rules.map fun r => r.tags.length).sum ≤ 65536)
    (hmode : 2 ≤ p.maxNgram ∨ HasLm as.flatten ∨ rules ≠ []) :
    ∃ args L found, ReadyFor x c args L as rules w p alphabet (lexisFrom (sourcesGiven c) as kss) cs early found ∧
      ∀ text, ShortRuns x.text alphabet p.variant p.maxNgram text → ∃ ms rs,
        L.vm.findAllMatches x.text (x.config c L w) p text = .ok ms ∧
        WeighedAs x.text τ ((sourcesGiven c).map Source.name) as rules p found text rs ∧
        List.Forall₂ (ShowsStretch (StandsFor x c L as p) L.book.tags found) rs ms := by
  obtain ⟨args, L, found, hready⟩ := resources_ready hmarks hb hc hfiles hnum hfw htokens ha hal hae hk hrefs hks hwords
    hcs hearly hrules hnames htags
  refine ⟨args, L, found, hready, fun text hshort => ?_⟩
  obtain ⟨_, ops, hrun⟩ := hready.run
  have hL := hready.loads
  have hcount := hready.count
  have has := hready.adds
  have hbook : (x.config c L w).contextRules = [] ↔ rules = [] := hready.book
  have hnames' := hnames
  rw [← hready.sources] at hnames'
  have hmode' : 1 < p.maxNgram ∨ L.vm.haveLm = true ∨ (x.config c L w).contextRules ≠ [] := by
    rcases hmode with h | h | h
    · exact .inl h
    · exact .inr (.inl (hready.lm.mpr h))
    · exact .inr (.inr fun e => h (hbook.mp e))
  obtain ⟨ms, rs, h1, h2, h3⟩ := ready_reads hmarks hsp hx.solver.ok hready hnum hseq hnames htags
    (pick := Unbeaten (weighingOf L.vm x.text τ (x.config c L w) p) p.maxSeq)
    (picked := Unbeaten (weighed x.text τ ((sourcesOf args).map Source.name) as rules p found L.vm.haveLm) p.maxSeq)
    (fun hs hms => search_weighs (cfg := x.config c L w) hrun hx
      (fun _ _ v hv ws hw => by
        have := hready.spaces v hv
        rw [tokensOf_unique hw, splitSpaces_length]
        omega) (fun r hr => (hready.rule r hr).1) hwl hwv hwc hsp hwt
      (show MildConfusables x.text.f64 L.confusables from hready.confusables ▸ hmild)
      hready.links hfw hn hmode' hready.offsets hready.index hs hms)
    (fun o g l hlook hl => unbeaten_imp (R := StandsFor x c L as p)
        (S := weighingOf L.vm x.text τ (x.config c L w) p)
        (T := weighed x.text τ ((sourcesOf args).map Source.name) as rules p found L.vm.haveLm) (hn := hn)
        (hwidth := rfl) (hr := rfl) (hτ := rfl) (hlm := rfl) (hov := by
          funext best a
          show wordsOverall x.text rules p L.vm.haveLm best a = computedOverall L.vm x.text (x.config c L w) p best a
          unfold wordsOverall computedOverall
          simp only [ne_eq, hbook]) (hR := fun v u h => h.scores _ _)
        (hS := fun t vs vs' e e' => Except.ok.inj (e.symm.trans e'))
        (hT := fun t us us' e e' => e.trans e'.symm)
        (hfound := fun r k1 k2 k3 => by
          obtain ⟨vs, k4, k5⟩ := hlook r k1 k2 k3
          exact ⟨vs, _, k4, rfl, k5⟩)
        (hperp := fun _ l l' h y hy => (loaded_computed hL hcount has htokens (SamePlace.part h)).mp hy)
        (hctx := fun l l' h y hy => (loaded_applications hmarks hL hcount has hready.rulesIn hnames' htags
          (SamePlace.part h) y fun scores n => y = x.text.f64.rnd (summed x.text.f32 scores / n)).mp hy) hl) hshort
  refine ⟨ms, rs, h1, ⟨L.vm.haveLm, hready.lm, ?_⟩, h3⟩
  rw [← hready.sources] at h2 ⊢
  exact h2

/-- **C123**: if no pair of tokens is counted more often than its first token, and the rules have no negative score,
no figure is negative. -/
theorem rare_figures {x : TextExt} {τ : Rat} {names : List (List Char)} {as : List Additions}
    {rules : List WrittenRule} {p : TextParams} {found : List Char → List Suggestion} {lm : Bool}
    (hln : ∀ a, 0 < a → a ≤ 1 → x.ln32 a ≤ 0) (hrare : PairsRarer as.flatten) (hpos : ∀ r ∈ rules, 0 ≤ r.score)
    {o : Nat} {g : List Seg} {n : Nat} {rs : List (List (Part Suggestion) × Figures)}
    (h : LeastReadings (weighed x τ names as rules p found lm) o g n rs) : NoneNegative rs := by
  intro r hr
  obtain ⟨h1, _, h3⟩ := h.figures r hr
  refine ⟨nonnegative_iff.mp ?_, ?_⟩
  · split at h1
    · obtain ⟨count, hcount, _, _, _, _, e⟩ := h1
      rw [e]
      refine mean_nonneg hln ?_ _
      intro a b c hc
      exact hrare a b c _ (hc ▸ hcount [a, b]) (hcount [a])
    · rw [h1]
      exact .inr (.inr ⟨0, le_refl _, rfl⟩)
  · obtain ⟨A, _, ⟨_, e⟩ | ⟨_, scores, s1, s2, s3, e⟩⟩ := h3
    · rw [e]
      exact zero_le_one
    · have hall : ∀ z ∈ scores, 0 ≤ z := by
        intro z hz
        obtain ⟨i, hi⟩ := List.mem_iff_getElem?.mp hz
        have hlt : i < (r.1.map Part.word).length := s1 ▸ (List.getElem?_eq_some_iff.mp hi).1
        by_cases hm : ∃ a ∈ A, TakesPart rules a i
        · obtain ⟨a, ha, hmark⟩ := hm
          obtain ⟨rule, hr, _⟩ := id hmark
          have := s2 a ha rule hr i hmark
          rw [hi] at this
          cases this
          exact hpos rule (List.mem_of_getElem? hr)
        · have := s3 i hlt fun a ha hm' => hm ⟨a, ha, hm'⟩
          rw [hi] at this
          cases this
          exact zero_le_one
      rw [e]
      exact rnd_nonneg _ (div_nonneg (summed_nonneg x.f32 hall) (by positivity))

/-- **C123**: in floating point, with all kinds of files, and without `--json`, a search ends normally and prints,
for each group of lines, the rows of a reading of each batch of the text that is not beaten, as compared by the
language model and the rules that the files give, with what is suggested for each stretch.  Scores of variants must be
between 0 and 1, and confusables may raise a score by nine tenths at most. -/
theorem search_prints_weighed {x : ToolExt} (hf : ∀ s, ';' ∈ s → x.parseF32 s = none)
    (hpos : StrictMono x.pos) (hmarks : MarksOk x.load.isSpace) (hb : x.load.isSpace '\\' = false)
    (hsp : x.text.isAlpha ' ' = false)
    {c : CommandLine} (hc : Accepted c) (hsub : c.sub = .search) (hj : ¬ Given c .json)
    {as : List Additions} {w : Weights} {p : TextParams} {τ : Rat} (hx : SoundFloats x.text p.variant.freqWeight τ)
    (hfiles : UsableFiles x c as) (hnum : UsableNumbers x c w p) (hwt : WeightsOk x.text.f64 w)
    (hfw : 0 ≤ p.variant.freqWeight) (hn : 1 ≤ p.maxNgram) (hseq : 1 ≤ p.maxSeq)
    (hwl : 0 ≤ p.lmWeight) (hwv : 0 ≤ p.variantmodelWeight) (hwc : 0 ≤ p.contextrulesWeight)
    (htokens : ∀ a ∈ as.flatten, ∀ us, TokensOf a.1 us → us.length ≤ 255)
    {afile : List Char} {alines : List (Option (List Char))} {alphabet : Alphabet}
    (ha : (.alphabet, afile) ∈ c.given) (hal : x.load.file afile = some alines)
    (hae : List.Forall₂ (AlphabetLine x.load.isSpace) (nonEmpty alines) alphabet)
    {kss : List (List (List Char × List Char × Rat))}
    (hk : List.Forall₂ (Gives x.load) (sourcesGiven c) kss) (hrefs : ∀ k ∈ kss.flatten, ¬ Reserved k.1)
    (hks : ∀ k ∈ kss.flatten, 0 ≤ k.2.2 ∧ k.2.2 ≤ 1)
    (hwords : ∃ t, (lexisFrom (sourcesGiven c) as kss).indexed t)
    {cs : List Confusable} (hcs : ConfusablesGiven x c cs) (hmild : MildConfusables x.text.f64 cs)
    {early : Bool} (hearly : early = true ↔ Given c .earlyConfusables)
    {rules : List WrittenRule}
    (hrules : RulesIn x.load (c.given.filterMap fun g => if g.1 = .contextrules then some g.2 else none) rules)
    (hnames : ∀ r ∈ rules, NamesKnown ((sourcesGiven c).map Source.name) as r)
    (htags : (rules.map fun r => r.tags.length).sum ≤ 65536)
    (hmode : 2 ≤ p.maxNgram ∨ HasLm as.flatten ∨ rules ≠ [])
    {files : List (List Char)}
    {inputs : List (List (Option (List Char)))} (hin : InputsOf x files inputs)
    (hlines : ∀ lines ∈ inputs, ∀ text, SearchedIn c lines text →
      ShortRuns x.text alphabet p.variant p.maxNgram text) :
    ∃ found, (∀ t, t ≠ [] → ShortEnough x.text alphabet p.variant t →
        Suggestions x.text alphabet (lexisFrom (sourcesGiven c) as kss) ⟨w, cs, early, x.editScript⟩
          p.variant t (found t)) ∧
      ∃ texts, List.Forall₂ (ReadLines x c as p found
          (WeighedAs x.text τ ((sourcesGiven c).map Source.name) as rules p found)) inputs texts ∧
        x.main c files = .ok (.output texts.flatten []) := by
  obtain ⟨args, L, found, hready, read⟩ := resources_weighed hmarks hb hsp hc hx hfiles hnum hwt hfw
    hn hseq hwl hwv hwc htokens ha hal hae hk hrefs hks hwords hcs hmild hearly hrules hnames htags hmode
  exact ⟨found, hready.suggestions, prints_read hf hpos hc hsub hj hready.asked read hin hlines⟩

/-- **C123**: the same with `--json` and at most one input: a search ends normally and writes a JSON document, with
one reading: an array with an object for each stretch of the readings, with its text, its offsets, the tags that the
context rules give it, and what is suggested for it, what was chosen first. -/
theorem search_writes_weighed {x : ToolExt} (hf : ∀ s, ';' ∈ s → x.parseF32 s = none)
    (hpos : StrictMono x.pos) (hmarks : MarksOk x.load.isSpace) (hb : x.load.isSpace '\\' = false)
    (hsp : x.text.isAlpha ' ' = false)
    {c : CommandLine} (hc : Accepted c) (hsub : c.sub = .search) (hj : Given c .json)
    (hret : ¬ Given c .retainLinebreaks)
    {as : List Additions} {w : Weights} {p : TextParams} {τ : Rat} (hx : SoundFloats x.text p.variant.freqWeight τ)
    (hfiles : UsableFiles x c as) (hnum : UsableNumbers x c w p) (hwt : WeightsOk x.text.f64 w)
    (hclean : CleanFiles x c)
    (hfw : 0 ≤ p.variant.freqWeight) (hn : 1 ≤ p.maxNgram) (hseq : 1 ≤ p.maxSeq)
    (hwl : 0 ≤ p.lmWeight) (hwv : 0 ≤ p.variantmodelWeight) (hwc : 0 ≤ p.contextrulesWeight)
    (htokens : ∀ a ∈ as.flatten, ∀ us, TokensOf a.1 us → us.length ≤ 255)
    {afile : List Char} {alines : List (Option (List Char))} {alphabet : Alphabet}
    (ha : (.alphabet, afile) ∈ c.given) (hal : x.load.file afile = some alines)
    (hae : List.Forall₂ (AlphabetLine x.load.isSpace) (nonEmpty alines) alphabet)
    {kss : List (List (List Char × List Char × Rat))}
    (hk : List.Forall₂ (Gives x.load) (sourcesGiven c) kss) (hrefs : ∀ k ∈ kss.flatten, ¬ Reserved k.1)
    (hks : ∀ k ∈ kss.flatten, 0 ≤ k.2.2 ∧ k.2.2 ≤ 1)
    (hwords : ∃ t, (lexisFrom (sourcesGiven c) as kss).indexed t)
    {cs : List Confusable} (hcs : ConfusablesGiven x c cs) (hmild : MildConfusables x.text.f64 cs)
    {early : Bool} (hearly : early = true ↔ Given c .earlyConfusables)
    {rules : List WrittenRule}
    (hrules : RulesIn x.load (c.given.filterMap fun g => if g.1 = .contextrules then some g.2 else none) rules)
    (hnames : ∀ r ∈ rules, NamesKnown ((sourcesGiven c).map Source.name) as r)
    (htags : (rules.map fun r => r.tags.length).sum ≤ 65536)
    (hmode : 2 ≤ p.maxNgram ∨ HasLm as.flatten ∨ rules ≠ [])
    {files : List (List Char)}
    {lines : List (Option (List Char))} (hin : InputsOf x files [lines])
    (hlines : ∀ text, SearchedIn c lines text → ShortRuns x.text alphabet p.variant p.maxNgram text)
    (hchars : ∀ l, some l ∈ lines → Plain l) :
    ∃ found, (∀ t, t ≠ [] → ShortEnough x.text alphabet p.variant t →
        Suggestions x.text alphabet (lexisFrom (sourcesGiven c) as kss) ⟨w, cs, early, x.editScript⟩
          p.variant t (found t)) ∧
      ∃ s perLine gs stretches js, (perLine = true ↔ Given c .perLine) ∧
        Groups perLine (untilError lines) gs ∧
        List.Forall₂ (fun g rs => WeighedAs x.text τ ((sourcesGiven c).map Source.name) as rules p found
          ([' '].intercalate g) rs) gs stretches ∧
        List.Forall₂ (TaggedAnswer x c as p.variant found) stretches.flatten js ∧
        Document s (.arr js) ∧ x.main c files = .ok (.output s []) := by
  obtain ⟨args, L, found, hready, read⟩ := resources_weighed hmarks hb hsp hc hx hfiles hnum hwt hfw
    hn hseq hwl hwv hwc htokens ha hal hae hk hrefs hks hwords hcs hmild hearly hrules hnames htags hmode
  exact ⟨found, hready.suggestions, writes_read hf hpos hmarks hsp hx.solver.ok hc hsub hj hret hready.asked hfiles
    hnum hclean read hin hlines hchars⟩

/-! ## Examples -/

/-- The texts of a language model with words and a pair. -/
def exRare : List Additions :=
  [[("ab".toList, some 7, { vocabType := .LM }), ("b".toList, some 3, { vocabType := .LM }),
    ("ab b".toList, some 2, { vocabType := .LM })]]

theorem exRare_rarer : PairsRarer exRare.flatten := by
  rintro u v c d ⟨ts, h1, h2, h3⟩ hd
  have hin : ∀ t ∈ ts, t = "ab b".toList ∧ u = "ab".toList := by
    intro t ht
    obtain ⟨⟨a, ha, _⟩, us, k1, _, k3⟩ := (h2 t).mp ht
    have hm := List.mem_of_find?_eq_some ha
    have ht : a.1 = t := by simpa using List.find?_some ha
    have hus := tokensOf_unique k1
    have hl := k3.length_eq
    subst hus
    rw [← ht] at hl k3 ⊢
    have hall : ∀ a ∈ exRare.flatten, (splitSpaces a.1).length = 2 →
        a.1 = "ab b".toList ∧ splitSpaces a.1 = ["ab".toList, "b".toList] := by decide +kernel
    obtain ⟨e1, e2⟩ := hall a hm hl
    refine ⟨e1, ?_⟩
    rw [e2] at k3
    cases k3 with
    | cons k4 _ =>
      rcases k4 with ⟨_, k4⟩ | ⟨k4, _⟩
      · exact k4
      · exact absurd (.inr ⟨_, List.mem_cons_self, rfl⟩) k4
  cases ts with
  | nil => cases h3
  | cons t ts =>
    obtain ⟨rfl, rfl⟩ := hin t List.mem_cons_self
    have : ts = [] := by
      cases ts with
      | nil => rfl
      | cons t' ts =>
        have := (hin t' (by simp)).1
        subst this
        simp at h1
    subst this
    have := lmCount_unique hd ((single_count (by decide)).1 ⟨_, rfl, .inr rfl⟩)
    rw [this]
    cases h3
    decide +kernel

/-- No figure of a reading of `ab b` is negative, whatever is suggested. -/
example (found : List Char → List Suggestion) : ∀ rs, LeastReadings (weighed exText32 0 [['m']] exRare [exWritten]
      exReadParams found true) 0 [("ab".toList, " ".toList), ("b".toList, [])] 5 rs → NoneNegative rs := fun _ h =>
  rare_figures (by
    intro a _ h
    show a - 1 ≤ 0
    linarith) exRare_rarer (by decide +kernel) h

def exToolR32 : ToolExt := { exToolR with text := exText32 }

theorem exWeightsM32 : WeightsOk exText32.f64 ⟨1 / 2, 1 / 8, 1 / 8, 1 / 8, 1 / 8⟩ := by
  constructor <;> decide +kernel

theorem exMildM32 : MildConfusables exText32.f64 exLoaded.confusables := by
  constructor <;> decide +kernel

theorem exUsable32 {c : CommandLine} {w : Weights} {p : TextParams} (h : UsableNumbers exToolR c w p)
    (h0 : w.sum exText32.f64 ≠ 0) : UsableNumbers exToolR32 c w p :=
  ⟨h.weights, h0, h.params, h.cutoff, h.debug⟩

theorem exSoundM32 {fw : Rat} (h : exText32.f64.rnd fw = fw) : SoundFloats exText32 fw 0 :=
  ieee_sound rfl rfl (by
    intro a b _ h
    show a - 1 ≤ b - 1
    linarith) (sumSolver_least _ (le_refl 0)) h

/-- A search with a language model and a rule. -/
example : ∃ found, (∀ t, t ≠ [] → ShortEnough exText32 [["a".toList, "A".toList], ["b".toList]]
        (exNumbers exSearchM).variant t →
      Suggestions exText32 [["a".toList, "A".toList], ["b".toList]]
        (lexisFrom [.errors ['e'], .lexicon ['l'], .variants ['v'], .lm ['m']] exAdded (exLinksE ++ [[]]))
        ⟨⟨1 / 2, 1 / 8, 1 / 8, 1 / 8, 1 / 8⟩, exLoaded.confusables, true, exToolR32.editScript⟩
        (exNumbers exSearchM).variant t (found t)) ∧
    ∃ texts, List.Forall₂ (ReadLines exToolR32 exSearchM exAdded (exNumbers exSearchM) found
        (WeighedAs exText32 0 [['e'], ['l'], ['v'], ['m']] exAdded [exWritten] (exNumbers exSearchM) found))
        [[some "ab".toList], exToolR32.stdin] texts ∧
      exToolR32.main exSearchM [['q'], ['-']] = .ok (.output texts.flatten []) := by
  refine search_prints_weighed (x := exToolR32) (c := exSearchM) ex_noSemicolon ex_pos ex_marks rfl rfl
    (accepted_of (by decide) (by decide)) rfl (not_given (by decide))
    (exSoundM32 (by decide +kernel)) ⟨⟨exArgsR, by constructor <;> decide, exLoadable⟩, by decide⟩
    (exUsable32 (exUsableNumbers (accepted_of (by decide) (by decide)) rfl (by decide +kernel) rfl
      (exSome exTextParams (by decide +kernel)) (.inl (by decide +kernel))) (by decide +kernel))
    exWeightsM32 (by decide +kernel) (by decide +kernel) (by decide +kernel) (by decide +kernel)
    (by decide +kernel) (by decide +kernel) exTokensM
    (afile := ['a']) (by decide) rfl exAlphabetE (kss := exLinksE ++ [[]])
    (List.rel_append exGivesE (.cons .lm .nil)) (by unfold Reserved; decide) (by decide +kernel)
    ⟨"ab".toList, by unfold Reserved; decide, _, rfl, rfl⟩ (exConfusablesE (by decide)) exMildM32
    (early := true) (by simp only [true_iff]; exact ⟨[], by decide⟩)
    (rules := [exWritten]) exRulesIn exKnownW (by decide) (.inr (.inr (by simp)))
    (inputs := [[some "ab".toList], exToolR32.stdin]) (inputsOf_iff.mp (by decide)) ?_
  intro lines hl text ht
  have h1 := searchedIn_length ht
  have h3 : ((untilError lines).map fun l => l.length + 1).sum ≤ 30 := by
    simp only [List.mem_cons, List.not_mem_nil, or_false] at hl
    rcases hl with rfl | rfl <;> decide
  exact exShortM rfl (by omega)

/-- What is printed. -/
example : exToolR32.main exSearchM [['q'], ['-']] = .ok (.output
    ("ab\t0:2\tab\t1\t\t\"l;v;m\"\tb\t0.5\t\t\"e;l\"\tba\t0.5\t\t\"v\"\tab\t0.5\t\t\"l;v;m\"\n".toList ++
      "ab\t0:2\tab\t1\t\t\"l;v;m\"\tb\t0.5\t\t\"e;l\"\tba\t0.5\t\t\"v\"\tab\t0.5\t\t\"l;v;m\"\n".toList ++
      "b\t3:4\tb\t1\t\t\"e;l\"\nbb\t5:7\tb\t0.5\t\t\"e;l\"\n".toList) []) := by
  decide +kernel

/-- The same, as objects. -/
example : ∃ found, (∀ t, t ≠ [] → ShortEnough exText32 [["a".toList, "A".toList], ["b".toList]]
        (exNumbers exSearchMJ).variant t →
      Suggestions exText32 [["a".toList, "A".toList], ["b".toList]]
        (lexisFrom [.errors ['e'], .lexicon ['l'], .variants ['v'], .lm ['m']] exAdded (exLinksE ++ [[]]))
        ⟨⟨1 / 2, 1 / 8, 1 / 8, 1 / 8, 1 / 8⟩, exLoaded.confusables, true, exToolR32.editScript⟩
        (exNumbers exSearchMJ).variant t (found t)) ∧
    ∃ s perLine gs stretches js, (perLine = true ↔ Given exSearchMJ .perLine) ∧
      Groups perLine (untilError exToolR32.stdin) gs ∧
      List.Forall₂ (fun g rs => WeighedAs exText32 0 [['e'], ['l'], ['v'], ['m']] exAdded [exWritten]
        (exNumbers exSearchMJ) found ([' '].intercalate g) rs) gs stretches ∧
      List.Forall₂ (TaggedAnswer exToolR32 exSearchMJ exAdded (exNumbers exSearchMJ).variant found)
        stretches.flatten js ∧
      Document s (.arr js) ∧ exToolR32.main exSearchMJ [] = .ok (.output s []) := by
  refine search_writes_weighed (x := exToolR32) (c := exSearchMJ) (lines := exToolR32.stdin) ex_noSemicolon ex_pos
    ex_marks rfl rfl
    (accepted_of (by decide) (by decide)) rfl ⟨[], by decide⟩ (not_given (by decide))
    (exSoundM32 (by decide +kernel)) ⟨⟨exArgsR, by constructor <;> decide, exLoadable⟩, by decide⟩
    (exUsable32 (exUsableNumbers (accepted_of (by decide) (by decide)) rfl (by decide +kernel) rfl
      (exSome exTextParams (by decide +kernel)) (.inl (by decide +kernel))) (by decide +kernel))
    exWeightsM32 (cleanFiles_of (by decide +kernel) (by decide +kernel) (by decide +kernel) exTool_numbers)
    (by decide +kernel) (by decide +kernel) (by decide +kernel) (by decide +kernel)
    (by decide +kernel) (by decide +kernel) exTokensM
    (afile := ['a']) (by decide) rfl exAlphabetE (kss := exLinksE ++ [[]])
    (List.rel_append exGivesE (.cons .lm .nil)) (by unfold Reserved; decide) (by decide +kernel)
    ⟨"ab".toList, by unfold Reserved; decide, _, rfl, rfl⟩ (exConfusablesE (by decide)) exMildM32
    (early := true) (by simp only [true_iff]; exact ⟨[], by decide⟩)
    (rules := [exWritten]) exRulesIn exKnownW (by decide) (.inr (.inr (by simp)))
    (.inl ⟨rfl, rfl⟩) (fun text ht => exShortM rfl (exSearchedE ht)) exPlainE

end Verif.Props
