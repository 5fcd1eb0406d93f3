import Verif.Spec.Searched
import Verif.Props.Context
import Verif.Props.Objects
import Verif.Props.Reading

/-!
# What searches with a language model and context rules print (C110, C111)
-/
namespace Verif.Props

open Verif.Model Verif.Spec Verif.Lemmas

/-! ## Readings with other descriptions of the variants -/

/-- The same stretch, with the same number for the choice, and related choices. -/
structure SamePlace {V W : Type} (R : V → W → Prop) (a : Part V) (b : Part W) : Prop where
  offset : a.offset = b.offset
  text : a.text = b.text
  sep : a.sep = b.sep
  choice : (a.choice = none ∧ b.choice = none) ∨ ∃ i v u, a.choice = some (i, v) ∧ b.choice = some (i, u) ∧
    R v u

theorem SamePlace.flip {V W : Type} {R : V → W → Prop} {a : Part V} {b : Part W} (h : SamePlace R a b) :
    SamePlace (fun u v => R v u) b a :=
  ⟨h.offset.symm, h.text.symm, h.sep.symm, h.choice.imp (fun e => ⟨e.2, e.1⟩)
    fun ⟨i, v, u, e1, e2, e3⟩ => ⟨i, u, v, e2, e1, e3⟩⟩

theorem SamePlace.idx {V W : Type} {R : V → W → Prop} {a : Part V} {b : Part W} (h : SamePlace R a b) :
    a.choice.map Prod.fst = b.choice.map Prod.fst := by
  rcases h.choice with ⟨e1, e2⟩ | ⟨i, v, u, e1, e2, _⟩ <;> rw [e1, e2] <;> rfl

/-- The choices of a reading are among what is found. -/
def Chosen {V : Type} (found : List Char → List V → Prop) (a : Part V) : Prop :=
  ∃ vs, found a.text vs ∧ ∀ k ∈ a.choice, vs[k.1]? = some k.2

theorem reading_runs {V : Type} {fa : List Char → List V → Prop} {da sa : V → Rat} {n : Nat} (hn : 1 ≤ n)
    {o : Nat} {g : List Seg} {l : List (Part V)} {c : Rat} (h : Reading fa da sa n o g l c) :
    ∀ a ∈ l, Chosen fa a ∧ ∃ r, r <:+: g ∧ r.length ≤ n ∧ stretch r ≠ [] ∧ a.text = stretch r := by
  induction h with
  | done => simp
  | skip _ ih =>
    intro a ha
    obtain ⟨h0, r, h1, h2⟩ := ih a ha
    exact ⟨h0, r, h1.trans (List.suffix_cons _ _).isInfix, h2⟩
  | @variant _ r w s g _ _ vs i v h1 h2 _ h4 h5 _ ih =>
    intro a ha
    rcases List.mem_cons.mp ha with rfl | ha
    · refine ⟨⟨vs, h4, ?_⟩, r ++ [(w, s)], (List.prefix_append _ g).isInfix, by simpa using h1, h2, rfl⟩
      intro k hk
      cases hk
      exact h5
    · obtain ⟨h0, r', h1, h2⟩ := ih a ha
      exact ⟨h0, r', h1.trans (List.suffix_append _ g).isInfix, h2⟩
  | @unknown _ w s g _ _ h1 h2 _ ih =>
    intro a ha
    rcases List.mem_cons.mp ha with rfl | ha
    · exact ⟨⟨[], h2, fun k hk => nomatch hk⟩, [(w, s)], (List.prefix_append [(w, s)] g).isInfix, hn, h1, rfl⟩
    · obtain ⟨h0, r', h1, h2⟩ := ih a ha
      exact ⟨h0, r', h1.trans (List.suffix_cons _ _).isInfix, h2⟩

/-- A reading stays one if the variants are replaced by others with the same scores. -/
theorem reading_imp {V W : Type} {R : V → W → Prop} {fa : List Char → List V → Prop}
    {fb : List Char → List W → Prop} {da sa : V → Rat} {db sb : W → Rat} {n : Nat} (hn : 1 ≤ n)
    (hR : ∀ v u, R v u → da v = db u ∧ sa v = sb u) {o : Nat} {g : List Seg} {l : List (Part V)} {c : Rat}
    (h : Reading fa da sa n o g l c)
    (hfound : ∀ r, r <:+: g → r.length ≤ n → stretch r ≠ [] → ∀ vs, fa (stretch r) vs →
      ∃ us, fb (stretch r) us ∧ List.Forall₂ R vs us) :
    ∃ l', List.Forall₂ (SamePlace R) l l' ∧ Reading fb db sb n o g l' c := by
  induction h with
  | done => exact ⟨[], .nil, .done⟩
  | @skip o w s g l c _ ih =>
    obtain ⟨l', h1, h2⟩ := ih fun r hr => hfound r (hr.trans (List.suffix_cons _ _).isInfix)
    exact ⟨l', h1, .skip h2⟩
  | @variant o r w s g l c vs i v h1 h2 h3 h4 h5 _ ih =>
    obtain ⟨l', i1, i2⟩ := ih fun r' hr => hfound r' (hr.trans (List.suffix_append _ g).isInfix)
    obtain ⟨us, k1, k2⟩ := hfound (r ++ [(w, s)]) (List.prefix_append _ g).isInfix (by simpa using h1) h2 vs h4
    obtain ⟨u, hu, hvu⟩ : ∃ u, us[i]? = some u ∧ R v u := by
      obtain ⟨hi, rfl⟩ := List.getElem?_eq_some_iff.mp h5
      have hi' : i < us.length := k2.length_eq ▸ hi
      exact ⟨us[i], List.getElem?_eq_getElem hi', List.forall₂_iff_get.mp k2 |>.2 i hi hi'⟩
    rw [(hR v u hvu).2]
    refine ⟨_, .cons ⟨rfl, rfl, rfl, .inr ⟨i, v, u, rfl, rfl, hvu⟩⟩ i1, .variant h1 h2 ?_ k1 hu i2⟩
    rcases h3 with h3 | ⟨q, hq, hqw, vs', e1, e2⟩
    · exact .inl h3
    · obtain ⟨w', s'⟩ := q
      have hin : [(w', s')] <:+: r ++ [(w, s)] ++ g := by
        obtain ⟨r1, r2, e⟩ := List.append_of_mem hq
        rw [e]
        exact ⟨r1, r2 ++ g, by simp⟩
      obtain ⟨us', j1, j2⟩ := hfound [(w', s')] hin hn hqw vs' e1
      refine .inr ⟨(w', s'), hq, hqw, us', j1, ?_⟩
      intro u hu
      cases j2 with
      | nil => cases hu
      | cons j _ =>
        cases hu
        rw [← (hR _ _ j).1]
        exact e2 _ rfl
  | @unknown o w s g l c h1 h2 _ ih =>
    obtain ⟨l', i1, i2⟩ := ih fun r hr => hfound r (hr.trans (List.suffix_cons _ _).isInfix)
    obtain ⟨us, k1, k2⟩ := hfound [(w, s)] (List.prefix_append [(w, s)] g).isInfix hn h1 [] h2
    cases k2
    exact ⟨_, .cons ⟨rfl, rfl, rfl, .inl ⟨rfl, rfl⟩⟩ i1, .unknown h1 k1 i2⟩

/-- Only one list of choices corresponds to another. -/
theorem samePlace_unique {V W : Type} {R : V → W → Prop} {fa : List Char → List V → Prop}
    (hf : ∀ t vs vs', fa t vs → fa t vs' → vs = vs') {l1 : List (Part V)} : ∀ {l2 : List (Part V)}
    {k : List (Part W)}, (∀ a ∈ l1, Chosen fa a) → (∀ a ∈ l2, Chosen fa a) →
    List.Forall₂ (SamePlace R) l1 k → List.Forall₂ (SamePlace R) l2 k → l1 = l2 := by
  induction l1 with
  | nil =>
    intro l2 k _ _ h1 h2
    cases h1
    cases h2
    rfl
  | cons a l1 ih =>
    intro l2 k c1 c2 h1 h2
    cases h1 with
    | @cons _ b _ k h1 h1' =>
    cases h2 with
    | @cons a' _ l2 _ h2 h2' =>
    rw [ih (fun a ha => c1 a (List.mem_cons_of_mem _ ha)) (fun a ha => c2 a (List.mem_cons_of_mem _ ha)) h1' h2']
    congr 1
    obtain ⟨vs, v1, v2⟩ := c1 a List.mem_cons_self
    obtain ⟨vs', v1', v2'⟩ := c2 a' List.mem_cons_self
    have hi := h1.idx.trans h2.idx.symm
    have ht := h1.text.trans h2.text.symm
    have ho := h1.offset.trans h2.offset.symm
    have hs := h1.sep.trans h2.sep.symm
    rw [ht] at v1
    cases hf _ _ _ v1 v1'
    obtain ⟨o, t, ch, s⟩ := a
    obtain ⟨o', t', ch', s'⟩ := a'
    simp only at ho ht hs hi v2 v2'
    subst ho ht hs
    congr 1
    match ch, ch' with
    | none, none => rfl
    | some (i, v), some (i', v') =>
      cases hi
      have := (v2 (i, v) rfl).symm.trans (v2' (i, v') rfl)
      cases this
      rfl

/-- A chosen reading stays chosen. -/
theorem chosen_imp {V W : Type} {S : Scoring V} {T : Scoring W} {R : V → W → Prop} {n o : Nat} {g : List Seg}
    {l : List (Part V)} (hn : 1 ≤ S.width) (hwidth : T.width = S.width) (hlm : T.lm = S.lm)
    (hmix : T.mix = S.mix) (hln : T.ln = S.ln)
    (hR : ∀ v u, R v u → S.dist v = T.dist u ∧ S.score v = T.score u)
    (hS : ∀ t vs vs', S.found t vs → S.found t vs' → vs = vs')
    (hT : ∀ t us us', T.found t us → T.found t us' → us = us')
    (hfound : ∀ r, r <:+: g → r.length ≤ S.width → stretch r ≠ [] →
      ∃ vs us, S.found (stretch r) vs ∧ T.found (stretch r) us ∧ List.Forall₂ R vs us)
    (hperp : S.lm = true → ∀ l l', List.Forall₂ (SamePlace R) l l' → ∀ y, S.perplexity l y → T.perplexity l' y)
    (hctx : ∀ l l', List.Forall₂ (SamePlace R) l l' → ∀ y, S.context l y → T.context l' y)
    (h : ChosenReading S n o g l) : ∃ l', List.Forall₂ (SamePlace R) l l' ∧ ChosenReading T n o g l' := by
  obtain ⟨rs, a, hcheap, hla, hone, hmore⟩ := h
  have there : ∀ l c, Reading S.found S.dist S.score S.width o g l c →
      ∃ l', List.Forall₂ (SamePlace R) l l' ∧ Reading T.found T.dist T.score T.width o g l' c := by
    intro l c h
    rw [hwidth]
    refine reading_imp hn hR h fun r h1 h2 h3 vs h4 => ?_
    obtain ⟨vs', us, k1, k2, k3⟩ := hfound r h1 h2 h3
    cases hS _ _ _ h4 k1
    exact ⟨us, k2, k3⟩
  have back : ∀ l' c, Reading T.found T.dist T.score T.width o g l' c →
      ∃ l, List.Forall₂ (SamePlace R) l l' ∧ Reading S.found S.dist S.score S.width o g l c := by
    intro l' c h
    rw [hwidth] at h
    obtain ⟨l, k1, k2⟩ := reading_imp (R := fun u v => R v u) hn
      (fun u v h => ⟨(hR v u h).1.symm, (hR v u h).2.symm⟩) h fun r h1 h2 h3 us h4 => by
        obtain ⟨vs, us', k1, k2, k3⟩ := hfound r h1 h2 h3
        cases hT _ _ _ h4 k2
        exact ⟨vs, k1, k3.flip⟩
    exact ⟨l, k1.flip.imp fun _ _ h => h.flip, k2⟩
  have runS : ∀ {l c}, Reading S.found S.dist S.score S.width o g l c → ∀ a ∈ l, Chosen S.found a :=
    fun h a ha => (reading_runs hn h a ha).1
  have runT : ∀ {l c}, Reading T.found T.dist T.score T.width o g l c → ∀ a ∈ l, Chosen T.found a :=
    fun h a ha => (reading_runs (hwidth ▸ hn) h a ha).1
  -- the readings to compare
  obtain ⟨rs', hrs, _⟩ : ∃ rs', List.Forall₂ (fun (r : List (Part V) × Merit) (r' : List (Part W) × Merit) =>
      List.Forall₂ (SamePlace R) r.1 r'.1 ∧ r'.2 = r.2 ∧
      Reading T.found T.dist T.score T.width o g r'.1 r.2.cost) rs rs' ∧
      List.Forall₂ (fun _ _ => True) rs rs' := by
    refine forall₂_both fun r hr => ?_
    obtain ⟨l', k1, k2⟩ := there _ _ (hcheap.merits r hr).cost
    exact ⟨(l', r.2), ⟨k1, rfl, k2⟩, trivial⟩
  have uniq : ∀ {r r' r''}, List.Forall₂ (SamePlace R) r r' → List.Forall₂ (SamePlace R) r r'' →
      (∀ a ∈ r', Chosen T.found a) → (∀ a ∈ r'', Chosen T.found a) → r' = r'' := by
    intro r r' r'' h1 h2 c1 c2
    exact samePlace_unique hT c1 c2 (h1.flip.imp fun _ _ h => h.flip) (h2.flip.imp fun _ _ h => h.flip)
  obtain ⟨⟨l', a'⟩, hla', hl', ha', hlr⟩ := mem_of_forall₂_left hrs hla
  simp only at hl' ha' hlr
  subst ha'
  have hov : ∀ best m, overallMerit T best m = overallMerit S best m := by
    intro best m
    unfold overallMerit
    rw [hln, hmix]
  refine ⟨l', hl', rs', a', ⟨?_, ?_, ?_, ?_⟩, hla', ?_, ?_⟩
  · intro r' hr'
    obtain ⟨r, hr, h1, h2, h3⟩ := mem_of_forall₂_right hrs hr'
    have hm := hcheap.merits r hr
    refine ⟨?_, by rw [h2]; exact h3, by rw [h2]; exact hctx _ _ h1 _ hm.context⟩
    have hp := hm.perplexity
    rw [hlm, h2]
    split
    · next e =>
      rw [if_pos e] at hp
      exact hperp e _ _ h1 _ hp
    · next e =>
      rw [if_neg e] at hp
      exact hp
  · have hrs2 : List.Forall₂ (fun (k : List (Part V)) (r' : List (Part W) × Merit) =>
        List.Forall₂ (SamePlace R) k r'.1 ∧ k ∈ rs.map Prod.fst) (rs.map Prod.fst) rs' := by
      rw [List.forall₂_map_left_iff]
      exact (forall₂_mem_left hrs).imp fun r r' h => ⟨h.1.1, List.mem_map.mpr ⟨r, h.2, rfl⟩⟩
    refine forall₂_nodup hrs2 hcheap.distinct ?_
    intro k hk k' hk' r r' h1 h2 e
    obtain ⟨q, hq, rfl⟩ := List.mem_map.mp hk
    obtain ⟨q', hq', rfl⟩ := List.mem_map.mp hk'
    rw [← e] at h2
    exact samePlace_unique hS (runS (hcheap.merits q hq).cost) (runS (hcheap.merits q' hq').cost) h1.1 h2.1
  · rw [← hrs.length_eq]
    exact hcheap.atMost
  · intro k' c hk hnot
    obtain ⟨k, k1, k2⟩ := back k' c hk
    have hnot' : k ∉ rs.map Prod.fst := by
      intro hm
      obtain ⟨q, hq, rfl⟩ := List.mem_map.mp hm
      obtain ⟨q', hq', h1, _, h3⟩ := mem_of_forall₂_left hrs hq
      refine hnot (List.mem_map.mpr ⟨q', hq', ?_⟩)
      exact uniq h1 k1 (runT h3) (runT hk)
    obtain ⟨e, h1⟩ := hcheap.others k c k2 hnot'
    refine ⟨by rw [← hrs.length_eq]; exact e, fun r' hr' => ?_⟩
    obtain ⟨r, hr, _, h2, _⟩ := mem_of_forall₂_right hrs hr'
    rw [h2]
    exact h1 r hr
  · intro hg r' hr'
    obtain ⟨r, hr, _, h2, _⟩ := mem_of_forall₂_right hrs hr'
    rw [h2]
    exact hone hg r hr
  · intro hg
    obtain ⟨best, hbest, hmax⟩ := hmore hg
    have hset : ∀ {f : Merit → Rat}, ∀ y, (∃ r ∈ rs', y = f r.2) ↔ ∃ r ∈ rs, y = f r.2 := by
      intro f y
      constructor
      · rintro ⟨r', hr', e⟩
        obtain ⟨r, hr, _, h2, _⟩ := mem_of_forall₂_right hrs hr'
        exact ⟨r, hr, h2 ▸ e⟩
      · rintro ⟨r, hr, e⟩
        obtain ⟨r', hr', _, h2, _⟩ := mem_of_forall₂_left hrs hr
        exact ⟨r', hr', h2.symm ▸ e⟩
    refine ⟨best, ⟨?_, ?_, ?_⟩, ?_⟩
    · have := hbest.perplexity
      rw [hlm]
      simp only [hset (f := Merit.perplexity)]
      exact this
    · have := hbest.cost
      simp only [hset (f := Merit.cost)]
      exact this
    · have := hbest.context
      simp only [hset (f := Merit.context)]
      exact this
    · intro e r' hr'
      rw [hov] at e ⊢
      obtain ⟨r, hr, _, h3, _⟩ := mem_of_forall₂_right hrs hr'
      rw [hov, h3]
      exact hmax e r hr

/-! ## What is loaded -/

theorem le_greatest {adds : Additions} {a : List Char × Option Nat × VocabParams} (ha : a ∈ adds) :
    a.2.1.getD 1 ≤ greatest adds a.1 := by
  unfold greatest
  induction adds with
  | nil => cases ha
  | cons b adds ih =>
    by_cases hb : b.1 = a.1
    · rw [List.filter_cons_of_pos (by simpa using hb), List.map_cons, List.foldr_cons]
      rcases List.mem_cons.mp ha with rfl | ha
      · exact Nat.le_max_left _ _
      · exact (ih ha).trans (Nat.le_max_right _ _)
    · rw [List.filter_cons_of_neg (by simpa using hb)]
      rcases List.mem_cons.mp ha with rfl | ha
      · exact absurd rfl hb
      · exact ih ha

/-- What is counted are tokens of the vocabulary. -/
theorem counted_words {x : LoadExt} {args : LoadArgs} {o : Orders} {L : Loaded}
    (h : x.load args o = .ok L) (hcount : (sourcesOf args).length ≤ 256)
    {as : List Additions} (has : AddsAll x 0 (sourcesOf args) as)
    (hshort : ∀ a ∈ as.flatten, ∀ us, TokensOf a.1 us → us.length ≤ 255) {ids : List Nat} {c : Nat}
    (hc : (NGram.fromList ids).bind L.vm.ngrams.get? = some c) :
    ids.length ≤ 5 ∧ ∃ ws, List.Forall₂ (fun id w => L.vm.encoder.get? w = some id) ids ws := by
  obtain ⟨g, hg, hgc⟩ := Option.bind_eq_some_iff.mp hc
  have hvec := fromList_some hg
  obtain ⟨m, hinv, hnil, hb⟩ := loaded_build h
  obtain ⟨_, _, hd, he⟩ := inv_build hinv hb
  have hs := loaded_spaces h hcount has hshort
  rw [hd] at hs
  rcases (build_isSome hinv hs hb g).mp (by rw [hgc]; rfl) with h1 | ⟨v, hv, h1, h2⟩
  · rw [hnil] at h1
    cases h1
  · have hids : ids = (splitSpaces v.text).map fun t => (L.vm.encoder.get? t).getD 2 := by
      rw [← hvec, ← h2, tokenIds, he]
      rfl
    obtain ⟨ws, k2⟩ : ∃ ws, List.Forall₂ (fun id w => L.vm.encoder.get? w = some id) ids ws := by
      obtain ⟨ws, k1, k2⟩ := forall₂_both (P := Stands as.flatten)
        (Q := fun u w => L.vm.encoder.get? w = some ((L.vm.encoder.get? u).getD 2)) (l := splitSpaces v.text)
        (fun u _ => by
          obtain ⟨⟨w, hw⟩, h3⟩ := stands_of h hcount has u
          exact ⟨w, hw, h3 w hw⟩)
      refine ⟨ws, ?_⟩
      rw [hids, List.forall₂_map_left_iff]
      exact k2
    have hlen : ids.length ≤ 5 := by
      rw [← hvec, toVec_length]
      cases g <;> simp [NGram.len]
    exact ⟨hlen, ws, k2⟩

/-- If no frequency in the language models is 0, no count is. -/
theorem loaded_positive {x : LoadExt} {args : LoadArgs} {o : Orders} {L : Loaded}
    (h : x.load args o = .ok L) (hcount : (sourcesOf args).length ≤ 256)
    {as : List Additions} (has : AddsAll x 0 (sourcesOf args) as)
    (hshort : ∀ a ∈ as.flatten, ∀ us, TokensOf a.1 us → us.length ≤ 255)
    (hfreq : ∀ a ∈ as.flatten, Reserved a.1 ∨ a.2.2.vocabType.lm = true → a.2.1 ≠ some 0) : Counts L.vm := by
  intro ids c hc
  obtain ⟨hlen, ws, k2⟩ := counted_words h hcount has hshort hc
  obtain ⟨ts, _, hts, hsum⟩ := loaded_counts h hcount has hshort hlen k2
  rw [hc] at hsum
  split at hsum
  · cases hsum
  · next hne =>
    cases hsum
    obtain ⟨t, ht⟩ := List.exists_mem_of_ne_nil _ hne
    obtain ⟨⟨a, ha, hlm⟩, _⟩ := (hts t).mp ht
    have ha1 : a.1 = t := by simpa using List.find?_some ha
    have ham := List.mem_of_find?_eq_some ha
    have h0 := hfreq a ham (ha1 ▸ hlm)
    have h3 := le_greatest ham
    have h4 : 0 < a.2.1.getD 1 := by
      cases e : a.2.1 with
      | none => exact Nat.one_pos
      | some n =>
        rw [e] at h0
        exact Nat.pos_of_ne_zero fun e => h0 (congrArg some e)
    rw [ha1] at h3
    exact lt_of_lt_of_le (h4.trans_le h3) (List.single_le_sum (fun _ _ => Nat.zero_le _) _
      (List.mem_map.mpr ⟨t, ht, rfl⟩))

/-- The match shows the stretch, with what was found for it (`R`) and the tags. -/
structure ShowsStretch (R : VariantResult → Suggestion → Prop) (tags : List (List Char))
    (found : List Char → List Suggestion) (r : Part Suggestion × List (List Char × Nat)) (m : Match) : Prop where
  text : m.text = r.1.text
  first : m.first = r.1.offset
  last : m.last = r.1.offset + byteLen r.1.text
  selected : m.selected = r.1.choice.map Prod.fst
  variants : ∃ vs, m.variants = some vs ∧ List.Forall₂ R vs (found r.1.text)
  tags : TagNames tags m r.2

theorem shows_entry {vm : Vm} {x : TextExt} {cfg : TextConfig} {p : TextParams} {a : Part VariantResult}
    {m : Match} (h : ShowsPart vm x cfg p a m) : chosenEntry vm m = a.entry vm := by
  obtain ⟨_, _, _, h4, vs, h5, _, h6⟩ := h
  unfold chosenEntry Part.entry
  rw [h4, h5]
  cases e : a.choice with
  | none => rfl
  | some k =>
    have := h6 k e
    simp only [Option.map_some, Option.bind_some, this]

/-- A variant stands for a suggestion, and is printed as such. -/
def StandsFor (x : ToolExt) (c : CommandLine) (L : Loaded) (as : List Additions) (p : TextParams)
    (v : VariantResult) (u : Suggestion) : Prop :=
  SuggestedBy L.vm v u ∧ (∃ col, VariantColumns x c L p v col ∧
      SuggestionColumn x c ((sourcesGiven c).map Source.name) as p.variant u col) ∧
    ∀ j, VariantObject x c L p v j →
      SuggestionObject x c ((sourcesGiven c).map Source.name) as p.variant u j

/-- What loading the files of a command line gives. -/
structure ReadyFor (x : ToolExt) (c : CommandLine) (args : LoadArgs) (L : Loaded) (as : List Additions)
    (rules : List WrittenRule) (w : Weights) (p : TextParams) (alphabet : Alphabet) (lexis : Lexis)
    (cs : List Confusable) (early : Bool) (found : List Char → List Suggestion) : Prop where
  asked : Asked x c L w p
  loads : x.load.load args x.orders = .ok L
  sources : sourcesOf args = sourcesGiven c
  count : (sourcesOf args).length ≤ 256
  adds : AddsAll x.load 0 (sourcesOf args) as
  rulesIn : RulesIn x.load args.contextrules rules
  run : ∃ alphabet ops, (Vm.new alphabet).run ops = .ok L.vm
  lm : L.vm.haveLm = true ↔ HasLm as.flatten
  written : List.Forall₂ (fun (r : ContextRule) (r' : WrittenRule) => RuleOk r ∧ r.score = r'.score) L.book.rules rules
  offsets : p.unicodeoffsets = false
  spaces : ∀ v ∈ L.vm.decoder, spaces v.text < 255
  index : L.vm.index.isEmpty = false
  links : ∀ v ∈ L.vm.decoder, ∀ t s, VariantReference.variantOf t s ∈ v.variants.getD [] → 0 ≤ s ∧ s ≤ 1
  confusables : L.confusables = cs
  suggestions : ∀ t, t ≠ [] → ShortEnough x.text alphabet p.variant t →
    Suggestions x.text alphabet lexis ⟨w, cs, early, x.editScript⟩ p.variant t (found t)
  lookup : ∀ t, t ≠ [] → ShortEnough x.text alphabet p.variant t →
    ∃ vs, L.vm.findVariants x.text.toExt (x.config c L w).toConfig p.variant t = .ok vs ∧
      List.Forall₂ (StandsFor x c L as p) vs (found t)

theorem ReadyFor.rule {x : ToolExt} {c : CommandLine} {args : LoadArgs} {L : Loaded} {as : List Additions}
    {rules : List WrittenRule} {w : Weights} {p : TextParams} {alphabet : Alphabet} {lexis : Lexis}
    {cs : List Confusable} {early : Bool} {found : List Char → List Suggestion}
    (h : ReadyFor x c args L as rules w p alphabet lexis cs early found) : ∀ r ∈ L.book.rules,
    RuleOk r ∧ ∃ r' ∈ rules, r.score = r'.score := by
  intro r hr
  obtain ⟨r', h1, h2, h3⟩ := mem_of_forall₂_left h.written hr
  exact ⟨h2, r', h1, h3⟩

theorem ReadyFor.book {x : ToolExt} {c : CommandLine} {args : LoadArgs} {L : Loaded} {as : List Additions}
    {rules : List WrittenRule} {w : Weights} {p : TextParams} {alphabet : Alphabet} {lexis : Lexis}
    {cs : List Confusable} {early : Bool} {found : List Char → List Suggestion}
    (h : ReadyFor x c args L as rules w p alphabet lexis cs early found) : L.book.rules = [] ↔ rules = [] := by
  rw [← List.length_eq_zero_iff, h.written.length_eq, List.length_eq_zero_iff]

/-- What the files of a command line give. -/
theorem resources_ready {x : ToolExt} (hmarks : MarksOk x.load.isSpace) (hb : x.load.isSpace '\\' = false)
    {c : CommandLine} (hc : Accepted c)
    {as : List Additions} {w : Weights} {p : TextParams}
    (hfiles : UsableFiles x c as) (hnum : UsableNumbers x c w p)
    (hfw : 0 ≤ p.variant.freqWeight)
    (htokens : ∀ a ∈ as.flatten, ∀ us, TokensOf a.1 us → us.length ≤ 255)
    {afile : List Char} {alines : List (Option (List Char))} {alphabet : Alphabet}
    (ha : (.alphabet, afile) ∈ c.given) (hal : x.load.file afile = some alines)
    (hae : List.Forall₂ (AlphabetLine x.load.isSpace) (nonEmpty alines) alphabet)
    {kss : List (List (List Char × List Char × Rat))}
    (hk : List.Forall₂ (Gives x.load) (sourcesGiven c) kss) (hrefs : ∀ k ∈ kss.flatten, ¬ Reserved k.1)
    (hks : ∀ k ∈ kss.flatten, 0 ≤ k.2.2 ∧ k.2.2 ≤ 1)
    (hwords : ∃ t, (lexisFrom (sourcesGiven c) as kss).indexed t)
    {cs : List Confusable} (hcs : ConfusablesGiven x c cs)
    {early : Bool} (hearly : early = true ↔ Given c .earlyConfusables)
    {rules : List WrittenRule}
    (hrules : RulesIn x.load (c.given.filterMap fun g => if g.1 = .contextrules then some g.2 else none) rules)
    (hnames : ∀ r ∈ rules, NamesKnown ((sourcesGiven c).map Source.name) as r)
    (htags : (rules.map fun r => r.tags.length).sum ≤ 65536) :
    ∃ args L found, ReadyFor x c args L as rules w p alphabet (lexisFrom (sourcesGiven c) as kss) cs early found := by
  obtain ⟨args, L, asked, hL, hargs, hsrc, hsz, has, hcfg, halpha, hdesc, find⟩ :=
    resources_listed hmarks hb hc hfiles hnum hfw ha hal hae hk hrefs hcs hearly
  obtain ⟨_, ops, _, _, _, _, hrun, _⟩ := loaded_history hL
  have hcount : (sourcesOf args).length ≤ 256 := by omega
  rw [← hargs] at hrules
  rw [← hsrc] at hnames
  have hwritten := loaded_written hmarks hL hcount has hrules hnames htags
  obtain ⟨q, hq, hqu, hqn⟩ := hnum.params
  obtain ⟨found, hfound⟩ := suggested_function find
  refine ⟨args, L, found, asked, hL, hsrc, hcount, has, hrules, ⟨_, _, hrun⟩, loaded_haveLm hL hcount has htokens,
    hwritten.imp fun _ _ h => ⟨h.ok, h.score⟩, by rw [hqn.offsets, hqu], loaded_spaces hL hcount has htokens, ?_, ?_,
    congrArg Config.confusables hcfg, fun t h1 h2 => (hfound t h1 h2).1, fun t h1 h2 => ?_⟩
  · obtain ⟨t, hi⟩ := hwords
    obtain ⟨v, hv, _, k4⟩ := (hdesc.indexed _).mp hi
    obtain ⟨id, k1⟩ := List.getElem?_of_mem hv
    rw [check_indexed'] at k4
    obtain ⟨k, node, _, hk⟩ := (built_of_run hrun).complete id v k1 k4
    rw [← Bool.not_eq_true]
    intro he
    rw [List.isEmpty_iff.mp he] at hk
    cases hk
  · intro v hv t s ht
    have known := known_load hL has (hsrc ▸ hk)
    obtain ⟨id, hid⟩ := List.getElem?_of_mem hv
    obtain ⟨l, hl, i, e, _⟩ := mem_of_forall₂_left (known.links id v hid) (List.mem_filter.mpr ⟨ht, rfl⟩)
    cases e
    obtain ⟨k, hk', rfl⟩ := List.mem_map.mp hl
    exact hks k (List.mem_filter.mp (List.mem_filter.mp hk').1).1
  · rw [hcfg]
    exact (hfound t h1 h2).2

/-- The texts are read as the files say, if readings that are picked correspond to those that the files say are. -/
theorem ready_reads {x : ToolExt} (hmarks : MarksOk x.load.isSpace)
    (hsp : x.text.isAlpha ' ' = false) (hsolve : SolverOk x.text.solve)
    {c : CommandLine} {args : LoadArgs} {L : Loaded}
    {as : List Additions} {w : Weights} {p : TextParams}
    {alphabet : Alphabet} {lexis : Lexis} {cs : List Confusable} {early : Bool} {rules : List WrittenRule}
    {found : List Char → List Suggestion}
    (hready : ReadyFor x c args L as rules w p alphabet lexis cs early found)
    (hnum : UsableNumbers x c w p) (hseq : 1 ≤ p.maxSeq)
    (hnames : ∀ r ∈ rules, NamesKnown ((sourcesGiven c).map Source.name) as r)
    (htags : (rules.map fun r => r.tags.length).sum ≤ 65536)
    {pick : Nat → List Seg → List (Part VariantResult) → Prop}
    {picked : Nat → List Seg → List (Part Suggestion) → Prop}
    (hreads : ∀ {text segs ms}, Segmented x.text.isAlpha text segs →
      L.vm.findAllMatches x.text (x.config c L w) p text = .ok ms →
      ∃ ls mss, List.Forall₂ (fun b l => pick b.1 b.2 l) (placed 0 (batches [] segs)) ls ∧
        List.Forall₂ (fun l out => List.Forall₂ (ShowsPart L.vm x.text (x.config c L w) p) l out ∧
          Tagged L.vm (x.config c L w).contextRules out) ls mss ∧
        ms = mss.flatten)
    (himp : ∀ o g l, (∀ r, r <:+: g → r.length ≤ p.maxNgram → stretch r ≠ [] →
        ∃ vs, L.vm.findVariants x.text.toExt (x.config c L w).toConfig p.variant (stretch r) = .ok vs ∧
          List.Forall₂ (StandsFor x c L as p) vs (found (stretch r))) → pick o g l →
      ∃ l', List.Forall₂ (SamePlace (StandsFor x c L as p)) l l' ∧
        (∀ a ∈ l', ∃ r, r <:+: g ∧ r.length ≤ p.maxNgram ∧ stretch r ≠ [] ∧ a.text = stretch r) ∧ picked o g l')
    {text : List Char} (hshort : ShortRuns x.text alphabet p.variant p.maxNgram text) :
    ∃ ms rs, L.vm.findAllMatches x.text (x.config c L w) p text = .ok ms ∧
      ReadBy x.text.isAlpha picked (WordTags ((sourcesGiven c).map Source.name) as rules) text rs ∧
      List.Forall₂ (ShowsStretch (StandsFor x c L as p) L.book.tags found) rs ms := by
  have hL := hready.loads
  have hinv := loaded_inv hL
  have hcount := hready.count
  have has := hready.adds
  have hrules := hready.rulesIn
  rw [← hready.sources] at hnames ⊢
  have lookup := hready.lookup
  obtain ⟨ms, hms⟩ : ∃ ms, L.vm.findAllMatches x.text (x.config c L w) p text = .ok ms := by
    refine search_total_of_lookups hinv hnum.nonzero hsp hsolve
      (fun _ => ⟨hseq, fun _ _ => hready.spaces, fun r hr => (hready.rule r hr).1⟩) ?_
    intro segs' a r b h1 h2 h3 h4
    obtain ⟨vs, h5, _⟩ := lookup (stretch r) h4 (hshort segs' r h1 ⟨a, b, h2.symm⟩ h3 h4)
    exact ⟨vs, h5⟩
  obtain ⟨segs, hs, _⟩ := findBoundaries_eq x.text.isAlpha text
  obtain ⟨ls, mss, h1, h2, rfl⟩ := hreads hs hms
  -- batches are parts of the text
  have hinfix : ∀ b ∈ placed 0 (batches [] segs), b.2 <:+: segs := by
    intro b hb
    have hb := mem_placed _ _ hb
    rcases (batches_of hs).2 with hflat | ⟨hflat, _⟩
    · obtain ⟨a', b', e⟩ := infix_of_mem_flatten hb
      rw [hflat] at e
      exact ⟨a', b', e.symm⟩
    · rw [hflat] at hb
      cases hb
  have chosen : ∀ b ∈ placed 0 (batches [] segs), ∀ l, pick b.1 b.2 l →
      ∃ l', List.Forall₂ (SamePlace (StandsFor x c L as p)) l l' ∧
        (∀ a ∈ l', a.text ≠ [] ∧ ShortEnough x.text alphabet p.variant a.text) ∧ picked b.1 b.2 l' := by
    intro b hb l hl
    have hrun : ∀ r, r <:+: b.2 → r.length ≤ p.maxNgram → stretch r ≠ [] →
        ShortEnough x.text alphabet p.variant (stretch r) := fun r k1 k2 k3 =>
      hshort segs r hs (k1.trans (hinfix b hb)) k2 k3
    obtain ⟨l', k1, k2, k3⟩ := himp b.1 b.2 l (fun r k1 k2 k3 => lookup _ k3 (hrun r k1 k2 k3)) hl
    refine ⟨l', k1, fun a ha => ?_, k3⟩
    obtain ⟨r, r1, r2, r3, r4⟩ := k2 a ha
    rw [r4]
    exact ⟨r3, hrun r r1 r2 r3⟩
  -- the batches
  have each : ∀ b ∈ placed 0 (batches [] segs), ∀ l out, pick b.1 b.2 l →
      List.Forall₂ (ShowsPart L.vm x.text (x.config c L w) p) l out →
      Tagged L.vm (x.config c L w).contextRules out →
      ∃ rs : List (Part Suggestion × List (List Char × Nat)),
        (picked b.1 b.2 (rs.map Prod.fst) ∧
        WordTags ((sourcesOf args).map Source.name) as rules ((rs.map Prod.fst).map Part.word) (rs.map Prod.snd)) ∧
        List.Forall₂ (ShowsStretch (StandsFor x c L as p) L.book.tags found) rs out := by
    intro b hb l out k1 k2 k3
    obtain ⟨l', j1, j2, j3⟩ := chosen b hb l k1
    have hboth : List.Forall₂ (fun a m => ∃ z, SamePlace (StandsFor x c L as p) z a ∧
        ShowsPart L.vm x.text (x.config c L w) p z m) l' out := by
      clear k1 k3 j3 j2
      induction j1 generalizing out with
      | nil => cases k2; exact .nil
      | cons e1 _ ih =>
        cases k2 with
        | cons e2 e3 => exact .cons ⟨_, e1, e2⟩ (ih _ e3)
    have hent : List.Forall₂ (fun m w => SameEntry L.vm (chosenEntry L.vm m) w) out (l'.map Part.word) := by
      rw [List.forall₂_map_right_iff]
      refine hboth.flip.imp ?_
      rintro m a ⟨z, e1, e2⟩
      rw [shows_entry e2]
      exact part_entry hinv ⟨e1.offset, e1.text, e1.sep, e1.choice.imp id
        fun ⟨i, v, u, e1, e2, e3⟩ => ⟨i, v, u, e1, e2, e3.1⟩⟩
    obtain ⟨tags, t1, t2⟩ := loaded_tags hmarks hL hcount has hrules hnames htags hent k3
    have hlen : tags.length = l'.length := by
      rw [← t2.length_eq, ← hboth.length_eq]
    refine ⟨l'.zip tags, ⟨?_, ?_⟩, ?_⟩
    · rw [List.map_fst_zip (by omega)]
      exact j3
    · rw [List.map_fst_zip (by omega), List.map_snd_zip (by omega)]
      exact t1
    · clear t1 hent hlen k1 k2 k3 j1 j3
      induction t2 generalizing l' with
      | nil => cases hboth; exact .nil
      | @cons m ns out tags n1 n2 ih =>
        cases hboth with
        | @cons a _ l' _ n3 n4 =>
          refine .cons ?_ (ih l' (fun a ha => j2 a (List.mem_cons_of_mem _ ha)) n4)
          obtain ⟨z, e1, f1, f2, f3, f4, vs, f5, f6, _⟩ := n3
          obtain ⟨vs', g1, g2⟩ := lookup a.text (j2 a List.mem_cons_self).1 (j2 a List.mem_cons_self).2
          rw [e1.text] at f6
          cases f6.symm.trans g1
          exact ⟨f1.trans e1.text, f2.trans e1.offset, by rw [f3, e1.offset, e1.text], f4.trans e1.idx, ⟨vs, f5, g2⟩, n1⟩
  obtain ⟨rss, g1, g2⟩ : ∃ rss : List (List (Part Suggestion × List (List Char × Nat))),
      List.Forall₂ (fun b rs => picked b.1 b.2 (rs.map Prod.fst) ∧
        WordTags ((sourcesOf args).map Source.name) as rules ((rs.map Prod.fst).map Part.word) (rs.map Prod.snd))
        (placed 0 (batches [] segs)) rss ∧
      List.Forall₂ (List.Forall₂ (ShowsStretch (StandsFor x c L as p) L.book.tags found)) rss mss := by
    clear hms hinfix chosen
    generalize placed 0 (batches [] segs) = bs at h1 each
    induction h1 generalizing mss with
    | nil => cases h2; exact ⟨[], .nil, .nil⟩
    | cons e1 _ ih =>
      cases h2 with
      | cons e2 e3 =>
        obtain ⟨rss, i1, i2⟩ := ih _ e3 (fun b hb => each b (List.mem_cons_of_mem _ hb))
        obtain ⟨rs, j1, j2⟩ := each _ List.mem_cons_self _ _ e1 e2.1 e2.2
        exact ⟨rs :: rss, .cons j1 i1, .cons j2 i2⟩
  refine ⟨mss.flatten, rss.flatten, hms, ⟨segs, rss, hs, g1, rfl⟩, ?_⟩
  clear g1 h1 h2 hms each chosen
  induction g2 with
  | nil => exact .nil
  | cons e1 _ ih => exact List.rel_append e1 ih

theorem SamePlace.part {x : ToolExt} {c : CommandLine} {L : Loaded} {as : List Additions} {p : TextParams}
    {l : List (Part VariantResult)} {l' : List (Part Suggestion)}
    (h : List.Forall₂ (SamePlace (StandsFor x c L as p)) l l') : List.Forall₂ (SamePart L.vm) l l' :=
  h.imp fun _ _ h =>
    ⟨h.offset, h.text, h.sep, h.choice.imp id fun ⟨i, v, u, e1, e2, e3⟩ => ⟨i, v, u, e1, e2, e3.1⟩⟩

theorem StandsFor.scores {x : ToolExt} {c : CommandLine} {L : Loaded} {as : List Additions} {p : TextParams}
    (r : Rounding) (fw : Rat) {v : VariantResult} {u : Suggestion} (h : StandsFor x c L as p v u) :
    v.distScore = u.score ∧ v.score r fw = u.overall r fw := by
  refine ⟨h.1.score, ?_⟩
  unfold VariantResult.score Suggestion.overall
  rw [h.1.score, h.1.freq]

/-- The texts are read as the files say. -/
theorem resources_read {x : ToolExt} (hmarks : MarksOk x.load.isSpace) (hb : x.load.isSpace '\\' = false)
    (hsp : x.text.isAlpha ' ' = false) (hsolve : SolverBest x.text.solve)
    (h32 : x.text.f32 = Rounding.exact) (h64 : x.text.f64 = Rounding.exact) (hln1 : x.text.ln64 1 = 0)
    {c : CommandLine} (hc : Accepted c)
    {as : List Additions} {w : Weights} {p : TextParams}
    (hfiles : UsableFiles x c as) (hnum : UsableNumbers x c w p) (hwt : WeightsOk x.text.f64 w)
    (hfw : 0 ≤ p.variant.freqWeight) (hn : 1 ≤ p.maxNgram) (hseq : 1 ≤ p.maxSeq)
    (hwl : 0 ≤ p.lmWeight) (hwv : 0 < p.variantmodelWeight) (hwc : 0 ≤ p.contextrulesWeight)
    (htokens : ∀ a ∈ as.flatten, ∀ us, TokensOf a.1 us → us.length ≤ 255)
    (hfreq : ∀ a ∈ as.flatten, Reserved a.1 ∨ a.2.2.vocabType.lm = true → a.2.1 ≠ some 0)
    {afile : List Char} {alines : List (Option (List Char))} {alphabet : Alphabet}
    (ha : (.alphabet, afile) ∈ c.given) (hal : x.load.file afile = some alines)
    (hae : List.Forall₂ (AlphabetLine x.load.isSpace) (nonEmpty alines) alphabet)
    {kss : List (List (List Char × List Char × Rat))}
    (hk : List.Forall₂ (Gives x.load) (sourcesGiven c) kss) (hrefs : ∀ k ∈ kss.flatten, ¬ Reserved k.1)
    (hks : ∀ k ∈ kss.flatten, 0 ≤ k.2.2 ∧ k.2.2 ≤ 1)
    (hwords : ∃ t, (lexisFrom (sourcesGiven c) as kss).indexed t)
    {cs : List Confusable} (hcs : ConfusablesGiven x c cs) (hmild : MildConfusables x.text.f64 cs)
    {early : Bool} (hearly : early = true ↔ Given c .earlyConfusables)
    {rules : List WrittenRule}
    (hrules : RulesIn x.load (c.given.filterMap fun g => if g.1 = .contextrules then some g.2 else none) rules)
    (hnames : ∀ r ∈ rules, NamesKnown ((sourcesGiven c).map Source.name) as r)
    (htags : (rules.map fun r => r.tags.length).sum ≤ 65536) (hpos : ∀ r ∈ rules, 0 < r.score)
    (hmode : 2 ≤ p.maxNgram ∨ HasLm as.flatten ∨ rules ≠ []) :
    ∃ args L found, ReadyFor x c args L as rules w p alphabet (lexisFrom (sourcesGiven c) as kss) cs early found ∧
      ∀ text, ShortRuns x.text alphabet p.variant p.maxNgram text → ∃ ms rs,
        L.vm.findAllMatches x.text (x.config c L w) p text = .ok ms ∧
        ReadAs x.text ((sourcesGiven c).map Source.name) as rules p found text rs ∧
        List.Forall₂ (ShowsStretch (StandsFor x c L as p) L.book.tags found) rs ms := by
  obtain ⟨args, L, found, hready⟩ := resources_ready hmarks hb hc hfiles hnum hfw htokens ha hal hae hk hrefs hks hwords
    hcs hearly hrules hnames htags
  refine ⟨args, L, found, hready, fun text hshort => ?_⟩
  obtain ⟨_, ops, hrun⟩ := hready.run
  have hL := hready.loads
  have hcount := hready.count
  have has := hready.adds
  have hbook : (x.config c L w).contextRules = [] ↔ rules = [] := hready.book
  have hnames' := hnames
  rw [← hready.sources] at hnames'
  have hmode' : 1 < p.maxNgram ∨ L.vm.haveLm = true ∨ (x.config c L w).contextRules ≠ [] := by
    rcases hmode with h | h | h
    · exact .inl h
    · exact .inr (.inl (hready.lm.mpr h))
    · exact .inr (.inr fun e => h (hbook.mp e))
  obtain ⟨ms, rs, h1, h2, h3⟩ := ready_reads hmarks hsp hsolve.exact.ok hready hnum hseq hnames htags
    (pick := ChosenReading (scoringOf L.vm x.text (x.config c L w) p) p.maxSeq)
    (picked := ChosenReading (compared x.text ((sourcesOf args).map Source.name) as rules p found L.vm.haveLm) p.maxSeq)
    (fun hs hms => search_reads (cfg := x.config c L w) hrun h32 h64 hln1
      (fun _ _ => ⟨loaded_positive hL hcount has htokens hfreq, fun v hv ws hw => by
        have := hready.spaces v hv
        rw [tokensOf_unique hw, splitSpaces_length]
        omega⟩) (fun r hr => (hready.rule r hr).1)
      (fun r hr => by
        obtain ⟨_, r', hr', h⟩ := hready.rule r hr
        rw [h]
        exact hpos r' hr') hwl hwv hwc hsolve hsp hwt
      (show MildConfusables x.text.f64 L.confusables from hready.confusables ▸ hmild)
      hready.links hfw hn hmode' hready.offsets hready.index hs hms)
    (fun o g l hlook hl => by
      obtain ⟨l', k1, k2⟩ := chosen_imp (R := StandsFor x c L as p)
        (S := scoringOf L.vm x.text (x.config c L w) p)
        (T := compared x.text ((sourcesOf args).map Source.name) as rules p found L.vm.haveLm) (hn := hn)
        (hwidth := rfl) (hlm := rfl) (hmix := by
          show (if _ then _ else _) = mixOf L.vm (x.config c L w) p
          unfold mixOf
          simp only [hbook]) (hln := rfl) (hR := fun v u h => h.scores _ _)
        (hS := fun t vs vs' e e' => Except.ok.inj (e.symm.trans e'))
        (hT := fun t us us' e e' => e.trans e'.symm)
        (hfound := fun r k1 k2 k3 => by
          obtain ⟨vs, k4, k5⟩ := hlook r k1 k2 k3
          exact ⟨vs, _, k4, rfl, k5⟩)
        (hperp := fun _ l l' h y hy => (loaded_perplexity hL hcount has htokens (SamePlace.part h)).mp hy)
        (hctx := fun l l' h y hy =>
          (loaded_context hmarks hL hcount has hready.rulesIn hnames' htags (SamePlace.part h) y).mp hy) hl
      refine ⟨l', k1, fun a ha => ?_, k2⟩
      obtain ⟨rs, m, hcheap, hm, _⟩ := k2
      exact (reading_runs hn (hcheap.merits _ hm).cost a ha).2) hshort
  refine ⟨ms, rs, h1, ⟨L.vm.haveLm, hready.lm, ?_⟩, h3⟩
  rw [← hready.sources] at h2 ⊢
  exact h2

/-! ## C110 -/

/-- What is printed, if the texts are read as `reads` says. -/
theorem prints_read {x : ToolExt} (hf : ∀ s, ';' ∈ s → x.parseF32 s = none)
    (hpos : StrictMono x.pos) {c : CommandLine} (hc : Accepted c) (hsub : c.sub = .search) (hj : ¬ Given c .json)
    {L : Loaded} {as : List Additions} {w : Weights} {p : TextParams} {alphabet : Alphabet}
    {found : List Char → List Suggestion} (asked : Asked x c L w p)
    {reads : List Char → List (Part Suggestion × List (List Char × Nat)) → Prop}
    (read : ∀ text, ShortRuns x.text alphabet p.variant p.maxNgram text → ∃ ms rs,
      L.vm.findAllMatches x.text (x.config c L w) p text = .ok ms ∧ reads text rs ∧
      List.Forall₂ (ShowsStretch (StandsFor x c L as p) L.book.tags found) rs ms)
    {files : List (List Char)}
    {inputs : List (List (Option (List Char)))} (hin : InputsOf x files inputs)
    (hlines : ∀ lines ∈ inputs, ∀ text, SearchedIn c lines text →
      ShortRuns x.text alphabet p.variant p.maxNgram text) :
    ∃ texts, List.Forall₂ (ReadLines x c as p found reads) inputs texts ∧
      x.main c files = .ok (.output texts.flatten []) := by
  -- the matches in a text
  have one : ∀ text, ShortRuns x.text alphabet p.variant p.maxNgram text →
      ∃ rs ms rows, reads text rs ∧
        L.vm.findAllMatches x.text (x.config c L w) p text = .ok ms ∧
        List.Forall₂ (MatchRow x c L p) ms rows ∧
        List.Forall₂ (fun r row => DividedRow
          (SuggestionColumn x c ((sourcesGiven c).map Source.name) as p.variant) found
          (r.1.offset, r.1.text, r.1.choice.map Prod.fst) row) rs rows := by
    intro text hshort
    obtain ⟨ms, rs, hms, h1, h2⟩ := read text hshort
    obtain ⟨rows, g1, g2⟩ : ∃ rows, List.Forall₂ (MatchRow x c L p) ms rows ∧
        List.Forall₂ (fun r row => DividedRow
          (SuggestionColumn x c ((sourcesGiven c).map Source.name) as p.variant) found
          (r.1.offset, r.1.text, r.1.choice.map Prod.fst) row) rs rows := by
      clear hms h1
      induction h2 with
      | nil => exact ⟨[], .nil, .nil⟩
      | @cons r m rs ms h _ ih =>
        obtain ⟨rows, i1, i2⟩ := ih
        obtain ⟨vs, e2, e5⟩ := h.variants
        obtain ⟨l, hl⟩ := listed_exists vs m.selected
        obtain ⟨l', hl', hR⟩ := listed_map e5 hl
        obtain ⟨cols, c1, c2⟩ : ∃ cols, List.Forall₂ (VariantColumns x c L p) l cols ∧
            List.Forall₂ (SuggestionColumn x c ((sourcesGiven c).map Source.name) as p.variant) l' cols := by
          clear hl hl'
          induction hR with
          | nil => exact ⟨[], .nil, .nil⟩
          | cons h _ ih =>
            obtain ⟨cols, i1, i2⟩ := ih
            obtain ⟨_, ⟨col, c1, c2⟩, _⟩ := h
            exact ⟨col :: cols, .cons c1 i1, .cons c2 i2⟩
        refine ⟨_ :: rows, .cons ⟨cols, ?_, rfl⟩ i1, .cons ⟨l', cols, h.selected ▸ hl', c2, ?_⟩ i2⟩
        · rw [e2]
          exact ⟨l, hl, c1⟩
        · rw [h.text, h.first, h.last]
    exact ⟨rs, ms, rows, h1, hms, g1, g2⟩
  -- the text for an input
  have input : ∀ lines ∈ inputs, ∃ text,
      SearchText x c L p (L.vm.findAllMatches x.text (x.config c L w) p) lines text ∧
      ReadLines x c as p found reads lines text := by
    intro lines hli
    obtain ⟨perLine, hper⟩ : ∃ b : Bool, b = true ↔ Given c .perLine := by
      classical
      exact ⟨decide (Given c .perLine), decide_eq_true_iff⟩
    obtain ⟨sep, hsep⟩ : ∃ sep, (Given c .retainLinebreaks ∧ sep = '\n') ∨
        (¬ Given c .retainLinebreaks ∧ sep = ' ') := by
      by_cases h : Given c .retainLinebreaks
      · exact ⟨_, .inl ⟨h, rfl⟩⟩
      · exact ⟨_, .inr ⟨h, rfl⟩⟩
    obtain ⟨gs, hg, _⟩ := search_output (x.printer c L p) (fun _ => .ok []) false false perLine lines
    have group : ∀ g ∈ gs, ∃ z : List (Part Suggestion × List (List Char × Nat)) × List Match × List (List Char),
        (reads ([sep].intercalate g) z.1 ∧
          L.vm.findAllMatches x.text (x.config c L w) p ([sep].intercalate g) = .ok z.2.1) ∧
        List.Forall₂ (MatchRow x c L p) z.2.1 z.2.2 ∧
        List.Forall₂ (fun r row => DividedRow
          (SuggestionColumn x c ((sourcesGiven c).map Source.name) as p.variant) found
          (r.1.offset, r.1.text, r.1.choice.map Prod.fst) row) z.1 z.2.2 := by
      intro g hgm
      obtain ⟨rs, ms, rows, h1, h2, h3, h4⟩ := one ([sep].intercalate g)
        (hlines lines hli _ ⟨perLine, sep, gs, g, hper, hsep, hg, hgm, rfl⟩)
      exact ⟨(rs, ms, rows), ⟨h1, h2⟩, h3, h4⟩
    obtain ⟨zs, h1, h2⟩ := forall₂_both group
    refine ⟨_, ⟨perLine, sep, gs, zs.map fun z => z.2.1, zs.map fun z => z.2.2, hper, hsep, hg, ?_, ?_, rfl⟩,
      perLine, sep, gs, zs.map Prod.fst, zs.map fun z => z.2.2, hper, hsep, hg, ?_, ?_, rfl⟩
    · rw [List.forall₂_map_right_iff]
      exact h1.imp fun _ _ h => h.2
    · rw [List.forall₂_map_left_iff, List.forall₂_map_right_iff, List.forall₂_same]
      intro z hz
      obtain ⟨_, _, h, _⟩ := mem_of_forall₂_right h2 hz
      exact h
    · rw [List.forall₂_map_right_iff]
      exact h1.imp fun _ _ h => h.1
    · rw [List.forall₂_map_left_iff, List.forall₂_map_right_iff, List.forall₂_same]
      intro z hz
      obtain ⟨_, _, _, h⟩ := mem_of_forall₂_right h2 hz
      exact h
  obtain ⟨texts, h1, h2⟩ := forall₂_both input
  exact ⟨texts, h2, (search_run hf hpos hc hsub hj files _ _).mpr
    ⟨rfl, L, w, p, _, inputs, texts, asked, settings_iff.mpr rfl, hin, h1, rfl⟩⟩

/-- **C110**: with all kinds of files (lexicons, variant lists, error lists, language models, confusables and
context rules), and without `--json`, a search ends normally and prints, for each group of lines, the rows of
the best reading of each batch of the text, as compared by the language model and the rules that the files
give, with what is suggested for each stretch.  Frequencies in language models must not be 0, scores of rules
must be positive, scores of variants between 0 and 1, and confusables may raise a score by nine tenths at most. -/
theorem search_prints_readings {x : ToolExt} (hf : ∀ s, ';' ∈ s → x.parseF32 s = none)
    (hpos : StrictMono x.pos) (hmarks : MarksOk x.load.isSpace) (hb : x.load.isSpace '\\' = false)
    (hsp : x.text.isAlpha ' ' = false) (hsolve : SolverBest x.text.solve)
    (h32 : x.text.f32 = Rounding.exact) (h64 : x.text.f64 = Rounding.exact) (hln1 : x.text.ln64 1 = 0)
    {c : CommandLine} (hc : Accepted c) (hsub : c.sub = .search) (hj : ¬ Given c .json)
    {as : List Additions} {w : Weights} {p : TextParams}
    (hfiles : UsableFiles x c as) (hnum : UsableNumbers x c w p) (hwt : WeightsOk x.text.f64 w)
    (hfw : 0 ≤ p.variant.freqWeight) (hn : 1 ≤ p.maxNgram) (hseq : 1 ≤ p.maxSeq)
    (hwl : 0 ≤ p.lmWeight) (hwv : 0 < p.variantmodelWeight) (hwc : 0 ≤ p.contextrulesWeight)
    (htokens : ∀ a ∈ as.flatten, ∀ us, TokensOf a.1 us → us.length ≤ 255)
    (hfreq : ∀ a ∈ as.flatten, Reserved a.1 ∨ a.2.2.vocabType.lm = true → a.2.1 ≠ some 0)
    {afile : List Char} {alines : List (Option (List Char))} {alphabet : Alphabet}
    (ha : (.alphabet, afile) ∈ c.given) (hal : x.load.file afile = some alines)
    (hae : List.Forall₂ (AlphabetLine x.load.isSpace) (nonEmpty alines) alphabet)
    {kss : List (List (List Char × List Char × Rat))}
    (hk : List.Forall₂ (Gives x.load) (sourcesGiven c) kss) (hrefs : ∀ k ∈ kss.flatten, ¬ Reserved k.1)
    (hks : ∀ k ∈ kss.flatten, 0 ≤ k.2.2 ∧ k.2.2 ≤ 1)
    (hwords : ∃ t, (lexisFrom (sourcesGiven c) as kss).indexed t)
    {cs : List Confusable} (hcs : ConfusablesGiven x c cs) (hmild : MildConfusables x.text.f64 cs)
    {early : Bool} (hearly : early = true ↔ Given c .earlyConfusables)
    {rules : List WrittenRule}
    (hrules : RulesIn x.load (c.given.filterMap fun g => if g.1 = .contextrules then some g.2 else none) rules)
    (hnames : ∀ r ∈ rules, NamesKnown ((sourcesGiven c).map Source.name) as r)
    (htags : (rules.map fun r => r.tags.length).sum ≤ 65536) (hrpos : ∀ r ∈ rules, 0 < r.score)
    (hmode : 2 ≤ p.maxNgram ∨ HasLm as.flatten ∨ rules ≠ [])
    {files : List (List Char)}
    {inputs : List (List (Option (List Char)))} (hin : InputsOf x files inputs)
    (hlines : ∀ lines ∈ inputs, ∀ text, SearchedIn c lines text →
      ShortRuns x.text alphabet p.variant p.maxNgram text) :
    ∃ found, (∀ t, t ≠ [] → ShortEnough x.text alphabet p.variant t →
        Suggestions x.text alphabet (lexisFrom (sourcesGiven c) as kss) ⟨w, cs, early, x.editScript⟩
          p.variant t (found t)) ∧
      ∃ texts, List.Forall₂ (ReadText x c as rules p found) inputs texts ∧
        x.main c files = .ok (.output texts.flatten []) := by
  obtain ⟨args, L, found, hready, read⟩ := resources_read hmarks hb hsp hsolve h32 h64 hln1 hc hfiles hnum hwt hfw
    hn hseq hwl hwv hwc htokens hfreq ha hal hae hk hrefs hks hwords hcs hmild hearly hrules hnames htags hrpos hmode
  exact ⟨found, hready.suggestions, prints_read hf hpos hc hsub hj hready.asked read hin hlines⟩

/-! ## C111 -/

theorem tagged_answer {x : ToolExt} {c : CommandLine} {L : Loaded} {as : List Additions} {p : TextParams}
    {found : List Char → List Suggestion} {r : Part Suggestion × List (List Char × Nat)} {m : Match} {j : Json}
    (h : ShowsStretch (StandsFor x c L as p) L.book.tags found r m) (hj : SearchObject x c L p m j) :
    TaggedAnswer x c as p.variant found r j := by
  obtain ⟨tags, vars, h1, h2, rfl⟩ := hj
  obtain ⟨vs, e2, e5⟩ := h.variants
  rw [e2] at h2
  obtain ⟨l, js, hl, k1, rfl⟩ := h2
  obtain ⟨l', hl', hR⟩ := listed_map e5 hl
  refine ⟨l', js, h.selected ▸ hl', objects_of (fun _ _ h => h.2.2) hR k1, ?_⟩
  obtain ⟨t1, t2⟩ := h.tags
  rw [h.text, h.first, h.last]
  have ht : tags = if r.2 = [] then [] else [("tag".toList, Json.arr (r.2.map fun t => .str t.1)),
      ("seqnr".toList, Json.arr (r.2.map fun t => .num (Nat.toDigits 10 t.2)))] := by
    rcases h1 with ⟨e, rfl⟩ | ⟨e, names, n1, rfl⟩
    · rw [e] at t1
      rw [if_pos (List.forall₂_nil_left_iff.mp t1)]
    · rw [if_neg]
      · have : names = r.2.map Prod.fst := by
          clear t2
          generalize r.2 = ns at t1
          generalize m.tag = ts at t1 n1
          clear e
          induction t1 generalizing names with
          | nil => cases n1; rfl
          | cons a1 _ ih =>
            cases n1 with
            | cons b1 b2 =>
              rw [List.map_cons, ih _ b2]
              have := b1.symm.trans a1
              cases this
              rfl
        rw [this, t2, List.map_map, List.map_map]
        rfl
      · intro e'
        rw [e'] at t1
        cases hm : m.tag with
        | nil => exact e hm
        | cons => rw [hm] at t1; cases t1
  rw [ht]

/-- What is written, if the texts are read as `reads` says. -/
theorem writes_read {x : ToolExt} (hf : ∀ s, ';' ∈ s → x.parseF32 s = none)
    (hpos : StrictMono x.pos) (hmarks : MarksOk x.load.isSpace)
    (hsp : x.text.isAlpha ' ' = false) (hsolve : SolverOk x.text.solve)
    {c : CommandLine} (hc : Accepted c) (hsub : c.sub = .search) (hj : Given c .json)
    (hret : ¬ Given c .retainLinebreaks)
    {L : Loaded} {as : List Additions} {w : Weights} {p : TextParams} {alphabet : Alphabet}
    {found : List Char → List Suggestion} (asked : Asked x c L w p)
    (hfiles : UsableFiles x c as) (hnum : UsableNumbers x c w p) (hclean : CleanFiles x c)
    {reads : List Char → List (Part Suggestion × List (List Char × Nat)) → Prop}
    (read : ∀ text, ShortRuns x.text alphabet p.variant p.maxNgram text → ∃ ms rs,
      L.vm.findAllMatches x.text (x.config c L w) p text = .ok ms ∧ reads text rs ∧
      List.Forall₂ (ShowsStretch (StandsFor x c L as p) L.book.tags found) rs ms)
    {files : List (List Char)}
    {lines : List (Option (List Char))} (hin : InputsOf x files [lines])
    (hlines : ∀ text, SearchedIn c lines text → ShortRuns x.text alphabet p.variant p.maxNgram text)
    (hchars : ∀ l, some l ∈ lines → Plain l) :
    ∃ s perLine gs stretches js, (perLine = true ↔ Given c .perLine) ∧
      Groups perLine (untilError lines) gs ∧
      List.Forall₂ (fun g rs => reads ([' '].intercalate g) rs) gs stretches ∧
      List.Forall₂ (TaggedAnswer x c as p.variant found) stretches.flatten js ∧
      Document s (.arr js) ∧ x.main c files = .ok (.output s []) := by
  obtain ⟨_, L', _, _, _, hL', _, hlex, hrok, hbook, _⟩ := usable_loads hmarks hfiles
  cases loadedFor_unique hpos hc asked.loaded hL'
  obtain ⟨q, hq, hqu, hqn⟩ := hnum.params
  have hu : p.unicodeoffsets = false := by rw [hqn.offsets, hqu]
  obtain ⟨s, hs⟩ := search_total_of (x := x) (c := c) (inputs := [lines]) hsub hsp hsolve hlex hrok hbook
    hnum.nonzero (fun ls hls t ht => by
      rw [List.mem_singleton.mp hls] at ht
      obtain ⟨ms, _, h1, _⟩ := read t (hlines t ht)
      exact ⟨ms, h1⟩)
  obtain ⟨_, perLine, gs, mss, js, g1, g2, g3, g4, g5⟩ := search_document hsub hj hret hclean hsp hsolve
    asked.loaded hrok hu hchars hs
  obtain ⟨rss, k1, k2⟩ : ∃ rss, List.Forall₂ (fun g rs => reads ([' '].intercalate g) rs) gs rss ∧
      List.Forall₂ (List.Forall₂ (ShowsStretch (StandsFor x c L as p) L.book.tags found)) rss mss := by
    have each : ∀ g ∈ gs, ∀ ms, L.vm.findAllMatches x.text (x.config c L w) p ([' '].intercalate g) = .ok ms →
        ∃ rs, reads ([' '].intercalate g) rs ∧
          List.Forall₂ (ShowsStretch (StandsFor x c L as p) L.book.tags found) rs ms := by
      intro g hg ms hms
      obtain ⟨ms', rs, h1, h2⟩ := read _ (hlines _ ⟨perLine, ' ', gs, g, g1, .inr ⟨hret, rfl⟩, g2, hg, rfl⟩)
      rw [hms] at h1
      cases h1
      exact ⟨rs, h2⟩
    clear g2 g5 hs
    induction g3 with
    | nil => exact ⟨[], .nil, .nil⟩
    | cons h1 _ ih =>
      obtain ⟨rss, i1, i2⟩ := ih fun g hg => each g (List.mem_cons_of_mem _ hg)
      obtain ⟨rs, j1, j2⟩ := each _ List.mem_cons_self _ h1
      exact ⟨rs :: rss, .cons j1 i1, .cons j2 i2⟩
  have hflat : List.Forall₂ (ShowsStretch (StandsFor x c L as p) L.book.tags found) rss.flatten mss.flatten := by
    clear k1 g3 g5 hs
    induction k2 with
    | nil => exact .nil
    | cons e1 _ ih => exact List.rel_append e1 ih
  refine ⟨s, perLine, gs, rss, js, g1, g2, k1, ?_, g4, ?_⟩
  · clear k1 k2 g3 hs
    generalize rss.flatten = rs at hflat
    generalize mss.flatten = ms at hflat g5
    clear g4
    induction hflat generalizing js with
    | nil => cases g5; exact .nil
    | cons e1 _ ih =>
      cases g5 with
      | cons e2 e3 => exact .cons (tagged_answer e1 e2) (ih _ e3)
  · rw [asked_main hf hpos hc (by rw [hsub]; decide) (by rw [hsub]; decide) asked]
    unfold ToolExt.modes
    rw [inputsOf_iff.mpr hin, hsub]
    exact hs

/-- **C111**: with all kinds of files, with `--json` and at most one input, a search ends normally and writes a
JSON document, with one reading: an array with an object for each stretch of the best readings of the texts, with
its text, its offsets, the tags that the context rules give it, and what is suggested for it, what was chosen
first. -/
theorem search_writes_readings {x : ToolExt} (hf : ∀ s, ';' ∈ s → x.parseF32 s = none)
    (hpos : StrictMono x.pos) (hmarks : MarksOk x.load.isSpace) (hb : x.load.isSpace '\\' = false)
    (hsp : x.text.isAlpha ' ' = false) (hsolve : SolverBest x.text.solve)
    (h32 : x.text.f32 = Rounding.exact) (h64 : x.text.f64 = Rounding.exact) (hln1 : x.text.ln64 1 = 0)
    {c : CommandLine} (hc : Accepted c) (hsub : c.sub = .search) (hj : Given c .json)
    (hret : ¬ Given c .retainLinebreaks)
    {as : List Additions} {w : Weights} {p : TextParams}
    (hfiles : UsableFiles x c as) (hnum : UsableNumbers x c w p) (hwt : WeightsOk x.text.f64 w)
    (hclean : CleanFiles x c)
    (hfw : 0 ≤ p.variant.freqWeight) (hn : 1 ≤ p.maxNgram) (hseq : 1 ≤ p.maxSeq)
    (hwl : 0 ≤ p.lmWeight) (hwv : 0 < p.variantmodelWeight) (hwc : 0 ≤ p.contextrulesWeight)
    (htokens : ∀ a ∈ as.flatten, ∀ us, TokensOf a.1 us → us.length ≤ 255)
    (hfreq : ∀ a ∈ as.flatten, Reserved a.1 ∨ a.2.2.vocabType.lm = true → a.2.1 ≠ some 0)
    {afile : List Char} {alines : List (Option (List Char))} {alphabet : Alphabet}
    (ha : (.alphabet, afile) ∈ c.given) (hal : x.load.file afile = some alines)
    (hae : List.Forall₂ (AlphabetLine x.load.isSpace) (nonEmpty alines) alphabet)
    {kss : List (List (List Char × List Char × Rat))}
    (hk : List.Forall₂ (Gives x.load) (sourcesGiven c) kss) (hrefs : ∀ k ∈ kss.flatten, ¬ Reserved k.1)
    (hks : ∀ k ∈ kss.flatten, 0 ≤ k.2.2 ∧ k.2.2 ≤ 1)
    (hwords : ∃ t, (lexisFrom (sourcesGiven c) as kss).indexed t)
    {cs : List Confusable} (hcs : ConfusablesGiven x c cs) (hmild : MildConfusables x.text.f64 cs)
    {early : Bool} (hearly : early = true ↔ Given c .earlyConfusables)
    {rules : List WrittenRule}
    (hrules : RulesIn x.load (c.given.filterMap fun g => if g.1 = .contextrules then some g.2 else none) rules)
    (hnames : ∀ r ∈ rules, NamesKnown ((sourcesGiven c).map Source.name) as r)
    (htags : (rules.map fun r => r.tags.length).sum ≤ 65536) (hrpos : ∀ r ∈ rules, 0 < r.score)
    (hmode : 2 ≤ p.maxNgram ∨ HasLm as.flatten ∨ rules ≠ [])
    {files : List (List Char)}
    {lines : List (Option (List Char))} (hin : InputsOf x files [lines])
    (hlines : ∀ text, SearchedIn c lines text → ShortRuns x.text alphabet p.variant p.maxNgram text)
    (hchars : ∀ l, some l ∈ lines → Plain l) :
    ∃ found, (∀ t, t ≠ [] → ShortEnough x.text alphabet p.variant t →
        Suggestions x.text alphabet (lexisFrom (sourcesGiven c) as kss) ⟨w, cs, early, x.editScript⟩
          p.variant t (found t)) ∧
      ∃ s perLine gs stretches js, (perLine = true ↔ Given c .perLine) ∧
        Groups perLine (untilError lines) gs ∧
        List.Forall₂ (fun g rs => ReadAs x.text ((sourcesGiven c).map Source.name) as rules p found
          ([' '].intercalate g) rs) gs stretches ∧
        List.Forall₂ (TaggedAnswer x c as p.variant found) stretches.flatten js ∧
        Document s (.arr js) ∧ x.main c files = .ok (.output s []) := by
  obtain ⟨args, L, found, hready, read⟩ := resources_read hmarks hb hsp hsolve h32 h64 hln1 hc hfiles hnum hwt hfw
    hn hseq hwl hwv hwc htokens hfreq ha hal hae hk hrefs hks hwords hcs hmild hearly hrules hnames htags hrpos hmode
  exact ⟨found, hready.suggestions, writes_read hf hpos hmarks hsp hsolve.exact.ok hc hsub hj hret hready.asked hfiles
    hnum hclean read hin hlines hchars⟩

/-! ## Examples -/

/-- `search --alphabet a --errors e --lexicon l --variants v --confusables c --early-confusables
--output-lexmatch --max-ngram-order 2 --score-threshold 0.0 --cutoff-threshold 0.0 --lm m --contextrules r` -/
def exSearchM : CommandLine :=
  { exSearchE with given := exSearchE.given ++ [(.lm, ['m']), (.contextrules, ['r'])] }

/-- The same with `--json`. -/
def exSearchMJ : CommandLine := { exSearchM with given := (.json, []) :: exSearchM.given }

theorem exTokensM : ∀ a ∈ exAdded.flatten, ∀ us, TokensOf a.1 us → us.length ≤ 255 := by
  intro a ha ws hws
  have h : ∀ a ∈ exAdded.flatten, (splitSpaces a.1).length ≤ 255 := by decide
  rw [tokensOf_unique hws]
  exact h a ha

theorem exWeightsM : WeightsOk exText.f64 ⟨1 / 2, 1 / 8, 1 / 8, 1 / 8, 1 / 8⟩ := by
  constructor <;> first | exact ⟨by norm_num, rfl⟩ | decide +kernel

theorem exMildM : MildConfusables exText.f64 exLoaded.confusables := by
  constructor <;> decide +kernel

theorem exShortM {x : TextExt} {p : TextParams} {text : List Char} (hp : p.variant = (exNumbers exSearchM).variant)
    (h : text.length ≤ 30) :
    ShortRuns x [["a".toList, "A".toList], ["b".toList]] p.variant p.maxNgram text := by
  intro segs r hs hr _ _
  have h2 : (stretch r).length ≤ text.length := by
    obtain ⟨a, b, e⟩ := hr
    refine le_trans (stretch_prefix_flat r).length_le ?_
    rw [← hs.text_eq, ← e, flat_append, flat_append]
    simp
    omega
  rw [hp]
  exact exShort30 rfl (by omega)

/-- A search with a language model and a rule. -/
example : ∃ found, (∀ t, t ≠ [] → ShortEnough exText [["a".toList, "A".toList], ["b".toList]]
        (exNumbers exSearchM).variant t →
      Suggestions exText [["a".toList, "A".toList], ["b".toList]]
        (lexisFrom [.errors ['e'], .lexicon ['l'], .variants ['v'], .lm ['m']] exAdded (exLinksE ++ [[]]))
        ⟨⟨1 / 2, 1 / 8, 1 / 8, 1 / 8, 1 / 8⟩, exLoaded.confusables, true, exToolR.editScript⟩
        (exNumbers exSearchM).variant t (found t)) ∧
    ∃ texts, List.Forall₂ (ReadText exToolR exSearchM exAdded [exWritten] (exNumbers exSearchM) found)
        [[some "ab".toList], exToolR.stdin] texts ∧
      exToolR.main exSearchM [['q'], ['-']] = .ok (.output texts.flatten []) := by
  refine search_prints_readings (x := exToolR) (c := exSearchM) ex_noSemicolon ex_pos ex_marks rfl rfl
    refSolver_best rfl rfl (by decide +kernel)
    (accepted_of (by decide) (by decide)) rfl (not_given (by decide))
    ⟨⟨exArgsR, by constructor <;> decide, exLoadable⟩, by decide⟩
    (exUsableNumbers (accepted_of (by decide) (by decide)) rfl (by decide +kernel) rfl
      (exSome exTextParams (by decide +kernel)) (.inl (by decide +kernel)))
    exWeightsM (by decide +kernel) (by decide +kernel) (by decide +kernel) (by decide +kernel)
    (by decide +kernel) (by decide +kernel) exTokensM (by unfold Reserved; decide)
    (afile := ['a']) (by decide) rfl exAlphabetE (kss := exLinksE ++ [[]])
    (List.rel_append exGivesE (.cons .lm .nil)) (by unfold Reserved; decide) (by decide +kernel)
    ⟨"ab".toList, by unfold Reserved; decide, _, rfl, rfl⟩ (exConfusablesE (by decide)) exMildM
    (early := true) (by simp only [true_iff]; exact ⟨[], by decide⟩)
    (rules := [exWritten]) exRulesIn exKnownW (by decide) (by decide +kernel) (.inr (.inr (by simp)))
    (inputs := [[some "ab".toList], exToolR.stdin]) (inputsOf_iff.mp (by decide)) ?_
  intro lines hl text ht
  have h1 := searchedIn_length ht
  have h3 : ((untilError lines).map fun l => l.length + 1).sum ≤ 30 := by
    simp only [List.mem_cons, List.not_mem_nil, or_false] at hl
    rcases hl with rfl | rfl <;> decide
  exact exShortM rfl (by omega)

/-- What is printed. -/
example : exToolR.main exSearchM [['q'], ['-']] = .ok (.output
    ("ab\t0:2\tab\t1\t\t\"l;v;m\"\tb\t0.5\t\t\"e;l\"\tba\t0.5\t\t\"v\"\tab\t0.5\t\t\"l;v;m\"\n".toList ++
      "ab\t0:2\tab\t1\t\t\"l;v;m\"\tb\t0.5\t\t\"e;l\"\tba\t0.5\t\t\"v\"\tab\t0.5\t\t\"l;v;m\"\n".toList ++
      "b\t3:4\tb\t1\t\t\"e;l\"\nbb\t5:7\tb\t0.5\t\t\"e;l\"\n".toList) []) := by
  decide +kernel

/-- The same, as objects. -/
example : ∃ found, (∀ t, t ≠ [] → ShortEnough exText [["a".toList, "A".toList], ["b".toList]]
        (exNumbers exSearchMJ).variant t →
      Suggestions exText [["a".toList, "A".toList], ["b".toList]]
        (lexisFrom [.errors ['e'], .lexicon ['l'], .variants ['v'], .lm ['m']] exAdded (exLinksE ++ [[]]))
        ⟨⟨1 / 2, 1 / 8, 1 / 8, 1 / 8, 1 / 8⟩, exLoaded.confusables, true, exToolR.editScript⟩
        (exNumbers exSearchMJ).variant t (found t)) ∧
    ∃ s perLine gs stretches js, (perLine = true ↔ Given exSearchMJ .perLine) ∧
      Groups perLine (untilError exToolR.stdin) gs ∧
      List.Forall₂ (fun g rs => ReadAs exText [['e'], ['l'], ['v'], ['m']] exAdded [exWritten]
        (exNumbers exSearchMJ) found ([' '].intercalate g) rs) gs stretches ∧
      List.Forall₂ (TaggedAnswer exToolR exSearchMJ exAdded (exNumbers exSearchMJ).variant found)
        stretches.flatten js ∧
      Document s (.arr js) ∧ exToolR.main exSearchMJ [] = .ok (.output s []) := by
  refine search_writes_readings (x := exToolR) (c := exSearchMJ) (lines := exToolR.stdin) ex_noSemicolon ex_pos
    ex_marks rfl rfl refSolver_best rfl rfl (by decide +kernel)
    (accepted_of (by decide) (by decide)) rfl ⟨[], by decide⟩ (not_given (by decide))
    ⟨⟨exArgsR, by constructor <;> decide, exLoadable⟩, by decide⟩
    (exUsableNumbers (accepted_of (by decide) (by decide)) rfl (by decide +kernel) rfl
      (exSome exTextParams (by decide +kernel)) (.inl (by decide +kernel)))
    exWeightsM (cleanFiles_of (by decide +kernel) (by decide +kernel) (by decide +kernel) exTool_numbers)
    (by decide +kernel) (by decide +kernel) (by decide +kernel) (by decide +kernel)
    (by decide +kernel) (by decide +kernel) exTokensM (by unfold Reserved; decide)
    (afile := ['a']) (by decide) rfl exAlphabetE (kss := exLinksE ++ [[]])
    (List.rel_append exGivesE (.cons .lm .nil)) (by unfold Reserved; decide) (by decide +kernel)
    ⟨"ab".toList, by unfold Reserved; decide, _, rfl, rfl⟩ (exConfusablesE (by decide)) exMildM
    (early := true) (by simp only [true_iff]; exact ⟨[], by decide⟩)
    (rules := [exWritten]) exRulesIn exKnownW (by decide) (by decide +kernel) (.inr (.inr (by simp)))
    (.inl ⟨rfl, rfl⟩) (fun text ht => exShortM rfl (exSearchedE ht)) exPlainE

/-- What is written: the words of the rule have its tag. -/
example : exToolR.main exSearchMJ [] = .ok (.output
    ("[\n    { \"input\": \"ab\", \"begin\": 0, \"end\": 2, \"tag\": [\"g\"], \"seqnr\": [ 0], ".toList ++
      "\"variants\": [ \n        { \"text\": \"ab\", \"score\": 1, \"dist_score\": 1, \"freq_score\": 1, ".toList ++
      "\"lexicons\": [ \"l\", \"v\", \"m\" ] },\n        { \"text\": \"b\", \"score\": 0.5, ".toList ++
      "\"dist_score\": 0.5, \"freq_score\": 0.5, \"lexicons\": [ \"e\", \"l\" ] },\n".toList ++
      "        { \"text\": \"ba\", \"score\": 0.5, \"dist_score\": 0.5, \"freq_score\": 0.5, ".toList ++
      "\"lexicons\": [ \"v\" ] },\n        { \"text\": \"ab\", \"score\": 0.5, \"dist_score\": 0.5, ".toList ++
      "\"freq_score\": 0.5, \"via\": \"ba\", \"lexicons\": [ \"l\", \"v\", \"m\" ] }\n    ] }\n".toList ++
      "    ,{ \"input\": \"b\", \"begin\": 3, \"end\": 4, \"tag\": [\"g\"], \"seqnr\": [ 1], ".toList ++
      "\"variants\": [ \n        { \"text\": \"b\", \"score\": 1, \"dist_score\": 1, \"freq_score\": 1, ".toList ++
      "\"lexicons\": [ \"e\", \"l\" ] }\n    ] }\n".toList ++
      "    ,{ \"input\": \"bb\", \"begin\": 5, \"end\": 7, \"variants\": [ \n".toList ++
      "        { \"text\": \"b\", \"score\": 0.5, \"dist_score\": 0.5, \"freq_score\": 1, ".toList ++
      "\"lexicons\": [ \"e\", \"l\" ] }\n    ] }\n]\n".toList) []) := by
  decide +kernel

end Verif.Props
