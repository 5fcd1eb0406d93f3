import Verif.Spec.Similar
import Verif.Props.RunTotal
import Verif.Props.RankExact

/-!
# What queries with lexicons find and print (C90)
-/
namespace Verif.Props

open Verif.Spec Verif.Model Verif.Lemmas

/-! ## The specification and the model -/

/-- the limit is a `u8` -/
def Fits : DistanceThreshold → Prop
  | .ratio _ => True
  | .ratioWithLimit _ l => l ≤ 255
  | .absolute l => l ≤ 255

theorem isGreatest_iff {s : Set Nat} {k n : Nat} (h : IsGreatest s k) : IsGreatest s n ↔ n = k :=
  ⟨fun h' => h'.unique h, fun e => e ▸ h⟩

theorem allowed_iff {r : Rounding} {len : Nat} {t : DistanceThreshold} (ht : Fits t) {n : Nat} :
    Allowed r len t n ↔ n = effectiveDistance r len t := by
  cases t with
  | absolute l => exact isGreatest_iff (effective_absolute r len l ht)
  | ratio q =>
    refine isGreatest_iff ?_
    rcases lt_or_ge (r.rnd (r.rnd len * q)) 0 with h | h
    · rw [((effective_ratio_sign r len q).2 h).1]
      refine ⟨.inl rfl, ?_⟩
      rintro k (rfl | ⟨_, hk⟩)
      · exact le_rfl
      · exact absurd (hk.trans_lt h) (not_lt.mpr (Nat.cast_nonneg k))
    · obtain ⟨h1, h2⟩ := effective_ratio r len q h
      refine ⟨.inr h1, ?_⟩
      rintro k (rfl | hk)
      · exact Nat.zero_le _
      · exact h2 hk
  | ratioWithLimit q l =>
    refine isGreatest_iff ?_
    rcases lt_or_ge (r.rnd (r.rnd len * q)) 0 with h | h
    · rw [((effective_ratio_sign r len q).2 h).2 l]
      refine ⟨.inl rfl, ?_⟩
      rintro k (rfl | ⟨_, hk⟩)
      · exact le_rfl
      · exact absurd (hk.trans_lt h) (not_lt.mpr (Nat.cast_nonneg k))
    · obtain ⟨h1, h2⟩ := effective_ratio_limit r len q l ht h
      refine ⟨.inr h1, ?_⟩
      rintro k (rfl | hk)
      · exact Nat.zero_le _
      · exact h2 hk

theorem scoreOf_iff {r : Rounding} {w : Weights} {len : Nat} {d : Distance} {s : Rat} :
    ScoreOf r w len d s ↔ s = similarity r w len d := by
  rcases Nat.lt_or_ge len d.ld with h | h
  · have h' : d.ld > len := h
    simp only [similarity, if_pos h']
    constructor
    · rintro ⟨kept, ⟨hn, _⟩ | ⟨_, rfl⟩, rfl⟩
      · omega
      · rfl
    · rintro rfl
      exact ⟨0, .inr ⟨h, rfl⟩, rfl⟩
  · have h' : ¬ d.ld > len := not_lt.mpr h
    simp only [similarity, if_neg h']
    constructor
    · rintro ⟨kept, ⟨_, rfl⟩ | ⟨hn, _⟩, rfl⟩
      · rfl
      · omega
    · rintro rfl
      exact ⟨_, .inl ⟨h, rfl⟩, rfl⟩

/-! ## Models without links -/

theorem noLinks_vocabulary {m m' : Vm} {f : List Char} {params : VocabParams}
    {lines : List (Option (List Char))} (hm : NoLinks m)
    (h : m.readVocabulary f params lines = .ok m') : NoLinks m' := by
  obtain ⟨es, m1, h1, h2, rfl⟩ := (read_vocabulary _ _ _ _ _).mp h
  have hs : LinkStep (fun vs => vs = none) (fun _ _ => False) :=
    ⟨rfl, fun _ _ _ _ h => h.elim, fun _ _ _ _ h => h.elim⟩
  refine allLinks_run hs (m' := m1) hm (fun op hop y hy => ?_) h2
  obtain ⟨e, _, rfl⟩ := List.mem_map.mp hop
  cases hy

theorem noLinks_resources {x : LoadExt} {rs : List Resource} {m m' : Vm} (hm : NoLinks m)
    (hlex : ∀ r ∈ rs, ∃ f, r = .lexicon f) (h : m.readResources x rs = .ok m') : NoLinks m' := by
  induction rs generalizing m with
  | nil => cases h; exact hm
  | cons r rs ih =>
    obtain ⟨m1, k1, k2⟩ := bind_ok.mp h
    obtain ⟨f, rfl⟩ := hlex r List.mem_cons_self
    obtain ⟨ls, _, k3⟩ := bind_ok.mp k1
    exact ih (noLinks_vocabulary hm k3) (fun r hr => hlex r (List.mem_cons_of_mem _ hr)) k2

theorem noLinks_lms {x : LoadExt} {fs : List (List Char)} {m m' : Vm} (hm : NoLinks m)
    (h : m.readLms x fs = .ok m') : NoLinks m' := by
  induction fs generalizing m with
  | nil => cases h; exact hm
  | cons f fs ih =>
    obtain ⟨ls, _, k2⟩ := bind_ok.mp h
    obtain ⟨m1, k3, k4⟩ := bind_ok.mp k2
    exact ih (noLinks_vocabulary hm k3) k4

/-- If all resources are lexicons (or language models), what is loaded has no links. -/
theorem noLinks_load {x : LoadExt} {args : LoadArgs} {o : Orders} {L : Loaded}
    (h : x.load args o = .ok L) (hlex : ∀ r ∈ args.resources, ∃ f, r = .lexicon f) : NoLinks L.vm := by
  unfold LoadExt.load at h
  obtain ⟨m0, h0, h⟩ := bind_ok.mp h
  obtain ⟨m1, h1, h⟩ := bind_ok.mp h
  obtain ⟨m2, h2, h⟩ := bind_ok.mp h
  obtain ⟨cs, h3, h⟩ := bind_ok.mp h
  obtain ⟨book, h4, h⟩ := bind_ok.mp h
  obtain ⟨m3, h5, h⟩ := bind_ok.mp h
  cases pure_ok.mp h
  obtain ⟨lines, g0, g1⟩ := bind_ok.mp h0
  cases pure_ok.mp g1
  have i0 : NoLinks (Vm.new (readAlphabet x.isSpace [] lines)) := by
    intro v hv
    simp only [Vm.new, List.mem_cons, List.not_mem_nil, or_false] at hv
    rcases hv with rfl | rfl | rfl <;> rfl
  have i2 := noLinks_lms (noLinks_resources i0 hlex h1) h2
  exact allLinks_build (P := fun vs => vs = none) i2 h5

/-! ## What is found -/

theorem crop_firstOnes (r : Rounding) (fw : Rat) (n : Nat) (l : List VariantResult) :
    crop r fw n l = firstOnes n (VariantResult.score r fw) VariantResult.distScore l := by
  unfold firstOnes
  split
  · next h => rw [h]; rfl
  · next h => exact max_matches_weighted r fw n (by omega) l

theorem applyCutoff_closeOnes (r : Rounding) (fw c : Rat) {l : List VariantResult}
    (hs : l.Pairwise fun a b => b.score r fw ≤ a.score r fw) :
    applyCutoff r fw c l = closeOnes r c (VariantResult.score r fw) l := by
  unfold closeOnes
  split
  · next h => exact cutoff_off _ _ _ h _
  · next h =>
    cases l with
    | nil => unfold applyCutoff; split <;> rfl
    | cons a k => exact cutoff_exact r _ _ (not_lt.mp h) a k hs

/-- What pruning leaves of a list in order of score, without confusables. -/
theorem prune_shown {m : Vm} {r : Rounding} {cfg : Config} {p : Params} {input : List Char}
    {l : List VariantResult} (hconf : cfg.confusables = [])
    (hs : l.Pairwise fun a b => b.score r p.freqWeight ≤ a.score r p.freqWeight) :
    m.prune r cfg p input l =
      shown r p.maxMatches p.cutoffThreshold (VariantResult.score r p.freqWeight)
        VariantResult.distScore l := by
  unfold Vm.prune shown
  simp only [hconf, List.isEmpty_nil, Bool.not_true, Bool.false_and, Bool.false_eq_true, if_false]
  rw [crop_firstOnes]
  refine applyCutoff_closeOnes r _ _ (hs.sublist ?_)
  unfold firstOnes
  split
  · exact .refl _
  · exact List.take_sublist _ _

/-- Without links and confusables, a query of a built model gives what is shown of the ranking of the indexed entries that are similar to the text. -/
theorem similar_entries_found (alphabet : Alphabet) (hne : NoEmpty alphabet)
    (hlen : alphabet.length ≤ 166) (ops : List Op) (o : Orders) (m : Vm)
    (h : (Vm.new alphabet).run (ops ++ [.build o]) = .ok m) (hlinks : NoLinks m)
    (hshort : ∀ v ∈ m.decoder, v.text.length < 65536) (x : TextExt) (cfg : Config) (p : Params)
    (hw : cfg.weights.sum x.f64 ≠ 0) (hconf : cfg.confusables = [])
    (hstop : p.stopCriterion = .exhaustive) (hfw : 0 ≤ p.freqWeight)
    (ha : Fits p.maxAnagramDistance) (he : Fits p.maxEditDistance)
    (input : List Char) (hin : input ≠ []) (hs : ShortEnough x alphabet p input) :
    ∃ mf ranked, m.findVariants x.toExt cfg p input =
        .ok (shown x.f64 p.maxMatches p.cutoffThreshold (VariantResult.score x.f64 p.freqWeight)
          VariantResult.distScore ranked) ∧
      (ranked.map VariantResult.vocabId).Nodup ∧
      ranked.Pairwise (fun a b => rankLe x.f64 p.freqWeight a b = true) ∧
      (∀ id s, (∃ r ∈ ranked, r.vocabId = id ∧ r.distScore = s) ↔
        ∃ v, m.decoder[id]? = some v ∧ v.vocabtype.check .INDEXED = true ∧
          Similar x alphabet cfg.weights p input v.text s) ∧
      (∀ r ∈ ranked, ∀ v, m.decoder[r.vocabId]? = some v →
        r.freqScore = x.f64.rnd ((if m.haveFreq then x.f64.rnd v.frequency else 1) / mf)) ∧
      (ranked ≠ [] → IsGreatest {f : Rat | ∃ v s, v ∈ m.decoder ∧ v.vocabtype.check .INDEXED = true ∧
        Near x alphabet cfg.weights p input v.text s ∧
        f = if m.haveFreq then x.f64.rnd v.frequency else 1} mf) := by
  obtain ⟨qs, n, hqs, hn, hsz⟩ := hs
  rw [allowed_iff ha] at hn
  subst hn
  have haq := (encodes_change hqs alphabet.length).resolve_right (by omega)
  generalize (qs.map fun c => if c < alphabet.length then c else alphabet.length) = a at haq
  obtain ⟨l, h1, hnd, hl⟩ := candidates_exact alphabet hne hlen ops o m h hshort x.toExt cfg.weights p
    hstop input hin a qs haq hqs hsz
  -- the words within reach are the candidates
  have hnear : ∀ id s, (∃ v, m.decoder[id]? = some v ∧ v.vocabtype.check .INDEXED = true ∧
      Near x alphabet cfg.weights p input v.text s) ↔
      ∃ d, (id, d) ∈ l ∧ s = similarity x.f64 cfg.weights qs.length d := by
    intro id s
    constructor
    · rintro ⟨v, hv, hi, a', b, qs', ns, d, na, ne, e1, e2, e3, e4, e5, e6, e7, e8, e9, e10, e11⟩
      cases encodes_unique e1 haq
      cases encodes_unique e3 hqs
      rw [allowed_iff ha] at e5
      rw [allowed_iff he] at e9
      subst e5 e9
      exact ⟨d, (hl id d).mpr ⟨v, hv, hi, b, ns, e2, e4, e6, e7, e8, e10⟩, scoreOf_iff.mp e11⟩
    · rintro ⟨d, hd, rfl⟩
      obtain ⟨v, hv, hi, b, ns, e2, e4, e6, e7, e8, e10⟩ := (hl id d).mp hd
      exact ⟨v, hv, hi, a, b, qs, ns, d, _, _, haq, e2, hqs, e4, (allowed_iff ha).mpr rfl, e6, e7, e8,
        (allowed_iff he).mpr rfl, e10, scoreOf_iff.mpr rfl⟩
  have hsim : ∀ id s, (∃ v, m.decoder[id]? = some v ∧ v.vocabtype.check .INDEXED = true ∧
      Similar x alphabet cfg.weights p input v.text s) ↔
      ∃ d, (id, d) ∈ l ∧ s = similarity x.f64 cfg.weights qs.length d ∧ p.scoreThreshold ≤ s := by
    intro id s
    constructor
    · rintro ⟨v, hv, hi, hn, ht⟩
      obtain ⟨d, hd, e⟩ := (hnear id s).mp ⟨v, hv, hi, hn⟩
      exact ⟨d, hd, e, ht⟩
    · rintro ⟨d, hd, e, ht⟩
      obtain ⟨v, hv, hi, hn⟩ := (hnear id s).mpr ⟨d, hd, e⟩
      exact ⟨v, hv, hi, hn, ht⟩
  simp only [hsim]
  cases hidx : m.index.isEmpty with
  | true =>
    refine ⟨0, [], ?_, by simp, by simp, ?_, by simp, by simp⟩
    · unfold Vm.findVariants
      rw [hidx]
      have : shown x.f64 p.maxMatches p.cutoffThreshold (VariantResult.score x.f64 p.freqWeight)
          VariantResult.distScore [] = [] := by
        unfold shown closeOnes firstOnes
        simp
      rw [this]
      rfl
    intro id s
    simp only [List.not_mem_nil, false_and, exists_false, false_iff, not_exists]
    rintro d ⟨hd, _⟩
    obtain ⟨v, hv, hi, _⟩ := (hl id d).mp hd
    rw [check_indexed'] at hi
    obtain ⟨k, node, _, hk⟩ := (built_of_run h).complete id v hv hi
    have : m.index = [] := List.isEmpty_iff.mp hidx
    rw [this] at hk
    cases hk
  | false =>
    have hq0 : qs.length ≠ 0 := by
      intro e
      have := List.length_eq_zero_iff.mp e
      subst this
      exact hin (encodes_nil_text hqs)
    obtain ⟨mf, hmf0, hmf, hmf', hres⟩ : ∃ mf, 0 ≤ mf ∧ (∀ y ∈ l, ∀ item, m.decoder[y.1]? = some item →
          (if m.haveFreq then x.f64.rnd item.frequency else 1) ≤ mf) ∧
        (mf = 0 ∨ ∃ y ∈ l, ∃ item, m.decoder[y.1]? = some item ∧
          mf = if m.haveFreq then x.f64.rnd item.frequency else 1) ∧
        m.scoreAndRank x.f64 cfg p input qs.length l = .ok (m.prune x.f64 cfg p input
          (rankResults x.f64 p.freqWeight (normalizeFreq x.f64 mf
            (l.filterMap (Lemmas.scored m x.f64 cfg.weights qs.length p.scoreThreshold))))) := by
      obtain ⟨mf, g1, g2, g3, g4⟩ := scoreLoop_spec m x.f64 cfg.weights hw qs.length p.scoreThreshold l []
        0 false
      refine ⟨mf, g2, g3, g4, ?_⟩
      unfold Vm.scoreAndRank
      rw [if_neg hq0, g1, Bool.false_or, List.nil_append]
      have hl0 : (l.any fun y => ((m.decoder[y.1]?).bind VocabValue.variants).isSome) = false :=
        noLinks_hasLinks hlinks l
      rw [hl0]
      change (m.rankExpanded x.f64 cfg input p.freqWeight _ mf false >>= fun l =>
        pure (m.prune x.f64 cfg p input l)) = _
      rw [rankExpanded_false]
      simp only [hconf, List.isEmpty_nil, Bool.not_true, Bool.false_and, Bool.false_eq_true, if_false]
      rfl
    have hsorted := rankResults_sorted x.f64 p.freqWeight (normalizeFreq x.f64 mf
            (l.filterMap (Lemmas.scored m x.f64 cfg.weights qs.length p.scoreThreshold)))
    have hperm : ((rankResults x.f64 p.freqWeight (normalizeFreq x.f64 mf
            (l.filterMap (Lemmas.scored m x.f64 cfg.weights qs.length p.scoreThreshold)))).map
          fun y => (y.vocabId, y.distScore)).Perm
        ((l.filter fun y => p.scoreThreshold ≤ similarity x.f64 cfg.weights qs.length y.2).map
          fun y => (y.1, similarity x.f64 cfg.weights qs.length y.2)) := by
      refine ((rankResults_perm _ _ _).map _).trans ?_
      rw [normalizeFreq_map, scored_map x.f64 cfg.weights qs.length p.scoreThreshold (candidate_ids h1)]
    refine ⟨mf, _, ?_, ?_, hsorted, ?_, ?_, ?_⟩
    · unfold Vm.findVariants
      rw [hidx, if_neg (by simp), h1]
      refine hres.trans ?_
      rw [prune_shown hconf (hsorted.imp fun h => rankLe_score x.f64 hfw h)]
    · have := hperm.map Prod.fst
      rw [List.map_map, List.map_map] at this
      refine this.nodup_iff.mpr ?_
      exact hnd.sublist (List.filter_sublist.map _)
    · intro id s
      have e1 : (∃ r ∈ rankResults x.f64 p.freqWeight (normalizeFreq x.f64 mf
            (l.filterMap (Lemmas.scored m x.f64 cfg.weights qs.length p.scoreThreshold))),
          r.vocabId = id ∧ r.distScore = s) ↔
          (id, s) ∈ (rankResults x.f64 p.freqWeight (normalizeFreq x.f64 mf
            (l.filterMap (Lemmas.scored m x.f64 cfg.weights qs.length p.scoreThreshold)))).map
              fun y => (y.vocabId, y.distScore) := by
        simp only [List.mem_map, Prod.mk.injEq]
      rw [e1, hperm.mem_iff, List.mem_map]
      constructor
      · rintro ⟨⟨i, d⟩, hy, e⟩
        obtain ⟨hy1, hy2⟩ := List.mem_filter.mp hy
        simp only [decide_eq_true_eq] at hy2
        obtain ⟨rfl, rfl⟩ := Prod.mk.inj e
        exact ⟨d, hy1, rfl, hy2⟩
      · rintro ⟨d, hd, rfl, ht⟩
        exact ⟨(id, d), List.mem_filter.mpr ⟨hd, by simpa using ht⟩, rfl⟩
    · intro r hr v hv
      obtain ⟨y, hy, e1, _, _, e2⟩ := mem_normalizeFreq ((rankResults_perm _ _ _).mem_iff.mp hr)
      obtain ⟨z, hz, e⟩ := List.mem_filterMap.mp hy
      obtain ⟨w, hw'⟩ := candidate_ids h1 z hz
      simp only [Lemmas.scored, hw'] at e
      split at e
      · cases e
        have e1 : r.vocabId = z.1 := e1
        rw [e1, hw'] at hv
        cases hv
        have hle := hmf z hz v hw'
        rw [e2]
        split
        · rfl
        · next h0 =>
          have h0 : mf = 0 := le_antisymm (not_lt.mp h0) hmf0
          rw [h0, div_zero, x.f64.zero]
          rw [h0] at hle
          refine le_antisymm hle ?_
          split
          · rw [← x.f64.zero]
            exact x.f64.mono _ _ (Nat.cast_nonneg _)
          · exact zero_le_one
      · cases e
    · intro hr
      have hmem : ∀ f : Rat, (∃ y ∈ l, ∃ item, m.decoder[y.1]? = some item ∧
          f = if m.haveFreq then x.f64.rnd item.frequency else 1) ↔
          ∃ v s, v ∈ m.decoder ∧ v.vocabtype.check .INDEXED = true ∧
            Near x alphabet cfg.weights p input v.text s ∧
            f = if m.haveFreq then x.f64.rnd v.frequency else 1 := by
        intro f
        constructor
        · rintro ⟨⟨id, d⟩, hy, item, hitem, e⟩
          obtain ⟨v, hv, hi, hn⟩ := (hnear id _).mpr ⟨d, hy, rfl⟩
          have hitem : m.decoder[id]? = some item := hitem
          rw [hv] at hitem
          cases hitem
          exact ⟨item, _, List.mem_of_getElem? hv, hi, hn, e⟩
        · rintro ⟨v, s, hv, hi, hn, e⟩
          obtain ⟨id, hid⟩ := List.mem_iff_getElem?.mp hv
          obtain ⟨d, hd, _⟩ := (hnear id s).mp ⟨v, hid, hi, hn⟩
          exact ⟨(id, d), hd, v, hid, e⟩
      constructor
      · refine (hmem mf).mp ?_
        rcases hmf' with h0 | h0
        · obtain ⟨r, hr⟩ := List.exists_mem_of_ne_nil _ hr
          obtain ⟨y, hy, _⟩ := mem_normalizeFreq ((rankResults_perm _ _ _).mem_iff.mp hr)
          obtain ⟨z, hz, e⟩ := List.mem_filterMap.mp hy
          obtain ⟨w, hw'⟩ := candidate_ids h1 z hz
          have hle := hmf z hz w hw'
          refine ⟨z, hz, w, hw', ?_⟩
          rw [h0] at hle ⊢
          refine (le_antisymm hle ?_).symm
          split
          · rw [← x.f64.zero]
            exact x.f64.mono _ _ (Nat.cast_nonneg _)
          · exact zero_le_one
        · exact h0
      · intro f hf
        obtain ⟨y, hy, item, hitem, e⟩ := (hmem f).mpr hf
        rw [e]
        exact hmf y hy item hitem

/-- The words of lexicons are looked up. -/
theorem lexicons_indexed {x : LoadExt} {ss : List Source} (hlex : ∀ s ∈ ss, ∃ f, s = .lexicon f) :
    ∀ {i : Nat} {as : List (List (List Char × Option Nat × VocabParams))}, AddsAll x i ss as →
      ∀ a ∈ as.flatten, a.2.2.vocabType.indexed = true := by
  induction ss with
  | nil => intro i as h; cases h; simp
  | cons s ss ih =>
    intro i as h a ha
    obtain ⟨f, rfl⟩ := hlex s List.mem_cons_self
    cases h with
    | cons h1 h2 =>
      rw [List.flatten_cons, List.mem_append] at ha
      rcases ha with ha | ha
      · cases h1 with
        | lexicon _ _ =>
          obtain ⟨e, _, rfl⟩ := List.mem_map.mp ha
          rfl
      · exact ih (fun s hs => hlex s (List.mem_cons_of_mem _ hs)) h2 a ha

/-- With at least one word from a lexicon, frequencies are used. -/
theorem resources_haveFreq {x : LoadExt} {rs : List Resource} {m m' : Vm} {i : Nat}
    {as : List (List (List Char × Option Nat × VocabParams))}
    (hlex : ∀ r ∈ rs, ∃ f, r = .lexicon f) (h : m.readResources x rs = .ok m')
    (has : AddsAll x i (rs.map sourceOf) as) (hm : m.haveFreq = true ∨ as.flatten ≠ []) :
    m'.haveFreq = true := by
  induction rs generalizing m i as with
  | nil =>
    cases h
    cases has
    exact hm.resolve_right (by simp)
  | cons r rs ih =>
    obtain ⟨m1, k1, k2⟩ := bind_ok.mp h
    obtain ⟨f, rfl⟩ := hlex r List.mem_cons_self
    obtain ⟨ls, k4, k3⟩ := bind_ok.mp k1
    cases has with
    | @cons _ _ _ a as' h1 h2 =>
    refine ih (fun r hr => hlex r (List.mem_cons_of_mem _ hr)) k2 h2 ?_
    obtain ⟨es, m2, e1, e2, rfl⟩ := (read_vocabulary _ _ _ _ _).mp k3
    show (m.haveFreq || (true && true && !es.isEmpty)) = true ∨ _
    rcases hm with hm | hm
    · left; rw [hm]; rfl
    · cases h1 with
      | @lexicon _ lines es' g1 g2 =>
      have : ls = lines := by
        unfold LoadExt.open at k4
        rw [g1] at k4
        exact (Except.ok.inj k4).symm
      subst this
      have : es = es' := by
        clear hm h2 e2 k3 k1 k2 h ih
        generalize nonEmpty ls = ns at e1 g2
        induction e1 generalizing es' with
        | nil => cases g2; rfl
        | cons a1 _ ih =>
          cases g2 with
          | cons a2 a3 => rw [vocabLine_unique a1 a2, ih a3]
      subst this
      cases es with
      | nil => right; simpa using hm
      | cons e es => left; simp

/-- The indexed entries are the words of the lexicons, with their frequencies. -/
theorem words_of_entries {x : LoadExt} {args : LoadArgs} {o : Orders} {L : Loaded}
    (h : x.load args o = .ok L) (hcount : (sourcesOf args).length ≤ 256)
    (hlex : ∀ s ∈ sourcesOf args, ∃ f, s = .lexicon f)
    {as : List (List (List Char × Option Nat × VocabParams))} (has : AddsAll x 0 (sourcesOf args) as) :
    (∀ (id : Nat) v, L.vm.decoder[id]? = some v → v.vocabtype.check .INDEXED = true →
      ¬ Reserved v.text ∧ WordFreq as v.text v.frequency ∧ L.vm.haveFreq = true) ∧
    ∀ t n, ¬ Reserved t → WordFreq as t n → ∃ (id : Nat) (v : VocabValue),
      L.vm.decoder[id]? = some v ∧ v.text = t ∧ v.frequency = n ∧ v.vocabtype.check .INDEXED = true := by
  obtain ⟨lines, ops, as', hal, hal', hne, hrun, _⟩ := loaded_history h
  have hinv : Inv L.vm := (inv_run (inv_new _) hrun).1
  have hres := reserved_never_indexed _ _ _ hrun
  have hfreq : as.flatten ≠ [] → L.vm.haveFreq = true := by
    intro hwords
    have hlm : args.lm = [] := by
      cases hlm : args.lm with
      | nil => rfl
      | cons f fs =>
        obtain ⟨g, hg⟩ := hlex (.lm f) (by unfold sourcesOf; rw [hlm]; simp)
        cases hg
    have has' : AddsAll x 0 (args.resources.map sourceOf) as := by
      have := has
      unfold sourcesOf at this
      rw [hlm, List.map_nil, List.append_nil] at this
      exact this
    unfold LoadExt.load at h
    obtain ⟨m0, h0, h⟩ := bind_ok.mp h
    obtain ⟨m1, h1, h⟩ := bind_ok.mp h
    obtain ⟨m2, h2, h⟩ := bind_ok.mp h
    obtain ⟨cs, h3, h⟩ := bind_ok.mp h
    obtain ⟨book, h4, h⟩ := bind_ok.mp h
    obtain ⟨m3, h5, h⟩ := bind_ok.mp h
    cases pure_ok.mp h
    rw [hlm] at h2
    cases h2
    have := resources_haveFreq (fun r hr => by
      obtain ⟨f, hf⟩ := hlex (sourceOf r) (List.mem_append_left _ (List.mem_map_of_mem hr))
      cases r with
      | lexicon f => exact ⟨f, rfl⟩
      | variantList f => cases hf
      | errorList f => cases hf) h1 has' (.inr hwords)
    rw [(build_cases h5).1]
    exact this
  have freq_iff : ∀ t b bs, addsOf t as.flatten = b :: bs → ∀ n,
      Combined .max (frequencies (b :: bs)) n ↔ WordFreq as t n := by
    intro t b bs hb n
    have : ∀ k, k ∈ frequencies (b :: bs) ↔ ∃ a ∈ as.flatten, a.1 = t ∧ a.2.1.getD 1 = k := by
      intro k
      unfold frequencies
      rw [← hb, List.mem_map]
      constructor
      · rintro ⟨a, ha, e⟩
        exact ⟨_, mem_addsOf.mp ha, rfl, e⟩
      · rintro ⟨⟨t', a⟩, ha, rfl, e⟩
        exact ⟨a, mem_addsOf.mpr ha, e⟩
    unfold WordFreq
    simp only [Combined, this]
    rfl
  constructor
  · intro id v hv hi
    have hid : L.vm.encoder.get? v.text = some id :=
      (hinv.bij _ _).mpr (by unfold textAt; rw [hv]; rfl)
    have hnr : ¬ Reserved v.text := by
      intro hR
      rw [check_indexed'] at hi
      obtain ⟨k, node, hk, hnode⟩ := (built_of_run hrun).complete _ v hv hi
      have hmem := (((built_of_run hrun).node k node hnode).2.2.1 id).mpr ⟨v, hv, hi, hk⟩
      obtain ⟨n0, n1, n2⟩ := hres.2.2.2 k node hnode
      rcases hR with e | e | e
      · rw [e, hres.1] at hid
        exact n0 (Option.some.inj hid ▸ hmem)
      · rw [e, hres.2.1] at hid
        exact n1 (Option.some.inj hid ▸ hmem)
      · rw [e, hres.2.2.1] at hid
        exact n2 (Option.some.inj hid ▸ hmem)
    refine ⟨hnr, ?_⟩
    cases hadds : addsOf v.text as.flatten with
    | nil =>
      rw [(loaded_entry h hcount has v.text hnr).1 hadds] at hid
      cases hid
    | cons b bs =>
      obtain ⟨id', v', ⟨e1, e2, _⟩, hc, _⟩ := (loaded_entry h hcount has v.text hnr).2 b bs hadds
      rw [hid] at e1
      cases e1
      rw [hv] at e2
      cases e2
      refine ⟨(freq_iff _ b bs hadds _).mp hc, hfreq fun e => ?_⟩
      rw [e] at hadds
      cases hadds
  · intro t n hnr hn
    obtain ⟨a, haf, rfl, _⟩ := hn.1
    cases hadds : addsOf a.1 as.flatten with
    | nil =>
      have : a.2 ∈ addsOf a.1 as.flatten := mem_addsOf.mpr haf
      rw [hadds] at this
      cases this
    | cons b bs =>
      obtain ⟨id, v, ⟨_, hv, ht⟩, hc, _, _, hi, _⟩ := (loaded_entry h hcount has a.1 hnr).2 b bs hadds
      have hb : (a.1, b) ∈ as.flatten := mem_addsOf.mp (by rw [hadds]; simp)
      rw [lexicons_indexed hlex has _ hb] at hi
      exact ⟨id, v, hv, ht, ((freq_iff _ b bs hadds _).mp hc).unique hn, by rw [check_indexed']; exact hi⟩

theorem firstOnes_map {α β : Type} (n : Nat) {score sim : α → Rat}
    {score' sim' : β → Rat} {f : α → β} {l : List α} (h : ∀ a ∈ l, score' (f a) = score a)
    (h' : ∀ a ∈ l, sim' (f a) = sim a) :
    firstOnes n score' sim' (l.map f) = (firstOnes n score sim l).map f := by
  have hm : ((l.map f).map fun a => (score' a, sim' a)) = l.map fun a => (score a, sim a) := by
    rw [List.map_map]
    exact List.map_congr_left fun a ha => by simp only [Function.comp, h a ha, h' a ha]
  unfold firstOnes
  rw [hm, ← List.map_take, ← apply_ite (List.map f)]

theorem firstOnes_sublist {α : Type} (n : Nat) (score sim : α → Rat) (l : List α) :
    (firstOnes n score sim l).Sublist l := by
  unfold firstOnes
  split
  · exact .refl _
  · exact List.take_sublist _ _

theorem closeOnes_map {α β : Type} (r : Rounding) (cutoff : Rat) {score : α → Rat}
    {score' : β → Rat} {f : α → β} {l : List α} (h : ∀ a ∈ l, score' (f a) = score a) :
    closeOnes r cutoff score' (l.map f) = (closeOnes r cutoff score l).map f := by
  unfold closeOnes
  split
  · rfl
  · cases l with
    | nil => rfl
    | cons a k =>
      simp only [List.map_cons, List.filter_map]
      rw [h a List.mem_cons_self]
      congr 2
      refine List.filter_congr fun b hb => ?_
      simp only [Function.comp]
      rw [h b (List.mem_cons_of_mem _ hb)]

theorem closeOnes_sublist {α : Type} (r : Rounding) (cutoff : Rat) (score : α → Rat)
    (l : List α) : (closeOnes r cutoff score l).Sublist l := by
  unfold closeOnes
  split
  · exact .refl _
  · cases l with
    | nil => exact .refl _
    | cons a k => exact List.filter_sublist.cons_cons a

theorem shown_map {α β : Type} (r : Rounding) (n : Nat) (cutoff : Rat) {score sim : α → Rat}
    {score' sim' : β → Rat} {f : α → β} {l : List α} (h : ∀ a ∈ l, score' (f a) = score a)
    (h' : ∀ a ∈ l, sim' (f a) = sim a) :
    shown r n cutoff score' sim' (l.map f) = (shown r n cutoff score sim l).map f := by
  unfold shown
  rw [firstOnes_map n h h', closeOnes_map r cutoff fun a ha => h a ((firstOnes_sublist _ _ _ _).subset ha)]

theorem shown_sublist {α : Type} (r : Rounding) (n : Nat) (cutoff : Rat) (score sim : α → Rat)
    (l : List α) : (shown r n cutoff score sim l).Sublist l :=
  (closeOnes_sublist _ _ _ _).trans (firstOnes_sublist _ _ _ _)

/-- **C90**, for the library: with lexicons only and without confusables, a query gives what is shown of the ranking of the words of the lexicons
that are similar to the text, with their scores. -/
theorem similar_words_found {x : LoadExt} {args : LoadArgs} {o : Orders} {L : Loaded}
    (h : x.load args o = .ok L) (hcount : (sourcesOf args).length ≤ 256)
    (hlex : ∀ s ∈ sourcesOf args, ∃ f, s = .lexicon f)
    {as : List (List (List Char × Option Nat × VocabParams))} (has : AddsAll x 0 (sourcesOf args) as)
    (hlen : L.vm.alphabet.length ≤ 166) (hshort : ∀ v ∈ L.vm.decoder, v.text.length < 65536)
    (y : TextExt) (cfg : Config) (p : Params)
    (hw : cfg.weights.sum y.f64 ≠ 0) (hconf : cfg.confusables = [])
    (hstop : p.stopCriterion = .exhaustive) (hfw : 0 ≤ p.freqWeight)
    (ha : Fits p.maxAnagramDistance) (he : Fits p.maxEditDistance)
    (input : List Char) (hin : input ≠ []) (hs : ShortEnough y L.vm.alphabet p input) :
    ∃ top hits res, Ranked y L.vm.alphabet as cfg.weights p input top hits ∧
      L.vm.findVariants y.toExt cfg p input = .ok res ∧
      List.Forall₂ (fun r u => (∃ v, L.vm.decoder[r.vocabId]? = some v ∧ v.text = u.word) ∧
          r.distScore = u.score ∧ r.score y.f64 p.freqWeight = u.overall y.f64 p.freqWeight top) res
        (shown y.f64 p.maxMatches p.cutoffThreshold (Hit.overall y.f64 p.freqWeight top)
          Hit.score hits) := by
  have hlinks : NoLinks L.vm := noLinks_load h fun r hr => by
    obtain ⟨f, hf⟩ := hlex (sourceOf r) (List.mem_append_left _ (List.mem_map_of_mem hr))
    cases r with
    | lexicon f => exact ⟨f, rfl⟩
    | variantList f => cases hf
    | errorList f => cases hf
  obtain ⟨lines, ops, as', hal, hal', hne, hrun, _⟩ := loaded_history h
  obtain ⟨mf, ranked, h1, h2, h3, h4, h5, h6⟩ := similar_entries_found L.vm.alphabet hne hlen ops o L.vm
    hrun hlinks hshort y cfg p hw hconf hstop hfw ha he input hin hs
  have hinv : Inv L.vm := (inv_run (inv_new _) hrun).1
  obtain ⟨w1, w2⟩ := words_of_entries h hcount hlex has
  have hv : ∀ r ∈ ranked, ∃ v, L.vm.decoder[r.vocabId]? = some v ∧ v.vocabtype.check .INDEXED = true ∧
      Similar y L.vm.alphabet cfg.weights p input v.text r.distScore := fun r hr =>
    (h4 _ _).mp ⟨r, hr, rfl, rfl⟩
  obtain ⟨hit, hhit⟩ : ∃ hit : VariantResult → Hit, ∀ r v, L.vm.decoder[r.vocabId]? = some v →
      hit r = ⟨v.text, r.distScore, v.frequency⟩ :=
    ⟨fun r => match L.vm.decoder[r.vocabId]? with
      | some v => ⟨v.text, r.distScore, v.frequency⟩
      | none => ⟨[], 0, 0⟩, fun r v h => by simp only [h]⟩
  -- the greatest frequency
  obtain ⟨top, htop1, htop2⟩ : ∃ top : Nat, (ranked ≠ [] → IsGreatest {n | ∃ t s, ¬ Reserved t ∧
      Near y L.vm.alphabet cfg.weights p input t s ∧ WordFreq as t n} top) ∧
      (ranked ≠ [] → y.f64.rnd top = mf) := by
    by_cases hr : ranked = []
    · exact ⟨0, fun h => absurd hr h, fun h => absurd hr h⟩
    obtain ⟨⟨v, s, g1, g2, g3, g4⟩, g5⟩ := h6 hr
    obtain ⟨id, hid⟩ := List.mem_iff_getElem?.mp g1
    obtain ⟨i1, i2, i3⟩ := w1 id v hid g2
    have hnonempty : {n | ∃ t s, ¬ Reserved t ∧
      Near y L.vm.alphabet cfg.weights p input t s ∧ WordFreq as t n}.Nonempty :=
      ⟨v.frequency, v.text, s, i1, g3, i2⟩
    have hbdd : BddAbove {n | ∃ t s, ¬ Reserved t ∧
        Near y L.vm.alphabet cfg.weights p input t s ∧ WordFreq as t n} := by
      refine (Set.Finite.subset (List.finite_toSet (L.vm.decoder.map VocabValue.frequency)) ?_).bddAbove
      rintro n ⟨t, s, j1, _, j3⟩
      obtain ⟨id, v, k1, _, k3, _⟩ := w2 t n j1 j3
      exact List.mem_map.mpr ⟨v, List.mem_of_getElem? k1, k3⟩
    have hmem := Nat.sSup_mem hnonempty hbdd
    refine ⟨_, fun _ => ⟨hmem, fun n hn => le_csSup hbdd hn⟩, fun _ => le_antisymm ?_ ?_⟩
    · obtain ⟨t, s', j1, j2, j3⟩ := hmem
      obtain ⟨id', v', k1, k2, k3, k4⟩ := w2 t _ j1 j3
      refine g5 ⟨v', s', List.mem_of_getElem? k1, k4, k2 ▸ j2, ?_⟩
      rw [if_pos i3, k3]
    · rw [g4, if_pos i3]
      exact y.f64.mono _ _ (Nat.cast_le.mpr (le_csSup hbdd ⟨v.text, s, i1, g3, i2⟩))
  have hrel : ∀ r ∈ ranked, r.freqScore = (hit r).relFreq y.f64 top := by
    intro r hr
    obtain ⟨v, hv, hi, _⟩ := hv r hr
    rw [h5 r hr v hv, hhit r v hv, if_pos (w1 _ v hv hi).2.2, Hit.relFreq,
      htop2 (List.ne_nil_of_mem hr)]
  have hdist : ∀ r ∈ ranked, r.distScore = (hit r).score := by
    intro r hr
    obtain ⟨v, hv, _⟩ := hv r hr
    rw [hhit r v hv]
  have hscore : ∀ r ∈ ranked, (hit r).overall y.f64 p.freqWeight top = r.score y.f64 p.freqWeight := by
    intro r hr
    unfold Hit.overall VariantResult.score
    rw [← hdist r hr, ← hrel r hr]
  refine ⟨top, ranked.map hit, _, ⟨?_, ?_, ?_, ?_⟩, h1, ?_⟩
  · rw [List.map_map, List.nodup_iff_pairwise_ne, List.pairwise_map]
    rw [List.nodup_iff_pairwise_ne, List.pairwise_map] at h2
    refine h2.imp_of_mem fun {a b} ha hb hab e => hab ?_
    obtain ⟨va, hva, _⟩ := hv a ha
    obtain ⟨vb, hvb, _⟩ := hv b hb
    simp only [Function.comp] at e
    rw [hhit a va hva, hhit b vb hvb] at e
    have e1 := (hinv.bij va.text a.vocabId).mpr (by unfold textAt; rw [hva]; rfl)
    have e2 := (hinv.bij vb.text b.vocabId).mpr (by unfold textAt; rw [hvb]; rfl)
    simp only at e
    rw [e, e2] at e1
    exact (Option.some.inj e1).symm
  · rintro ⟨t, s, n⟩
    rw [List.mem_map]
    constructor
    · rintro ⟨r, hr, e⟩
      obtain ⟨v, hv, hi, hsim⟩ := hv r hr
      rw [hhit r v hv] at e
      cases e
      obtain ⟨i1, i2, _⟩ := w1 _ v hv hi
      exact ⟨i1, hsim, i2⟩
    · rintro ⟨j1, j2, j3⟩
      obtain ⟨id, v, k1, k2, k3, k4⟩ := w2 t n j1 j3
      obtain ⟨r, hr, rfl, e⟩ := (h4 id s).mpr ⟨v, k1, k4, by rw [k2]; exact j2⟩
      exact ⟨r, hr, by rw [hhit r v k1, k2, k3, e]⟩
  · intro hne
    exact htop1 fun e => hne (by rw [e]; rfl)
  · rw [List.pairwise_map]
    refine h3.imp_of_mem fun {a b} ha hb hab => ?_
    rw [rankLe_iff] at hab
    unfold Hit.NotWorse
    rcases hfw.eq_or_lt with h0 | h0
    · rw [if_pos h0.symm, ← hdist a ha, ← hdist b hb, ← hrel a ha, ← hrel b hb]
      rw [if_neg (by rw [← h0]; exact lt_irrefl 0)] at hab
      exact hab
    · rw [if_neg h0.ne', hscore a ha, hscore b hb]
      rw [if_pos h0] at hab
      exact hab
  · rw [shown_map y.f64 _ _ hscore fun a ha => (hdist a ha).symm, List.forall₂_map_right_iff, List.forall₂_same]
    intro r hr
    have hr := (shown_sublist _ _ _ _ _ _).subset hr
    obtain ⟨v, hv, _⟩ := hv r hr
    exact ⟨⟨v, hv, by rw [hhit r v hv]⟩, hdist r hr, (hscore r hr).symm⟩

/-! ## What is printed -/

theorem lexmatch_names {f : Nat → Bool} {t : List Char} : ∀ (names : List (List Char))
    (as : List (List (List Char × Option Nat × VocabParams))) (k : Nat), names.length = as.length →
    ∀ has : List Char × List (List Char × Option Nat × VocabParams) → Bool,
    (∀ n, has n = true ↔ ∃ a ∈ n.2, a.1 = t) →
    (∀ i a, as[i]? = some a → (f (k + i) = true ↔ ∃ y ∈ a, y.1 = t)) →
    ((names.zipIdx k).filter fun n => f n.2).map Prod.fst = ((names.zip as).filter has).map Prod.fst := by
  intro names
  induction names with
  | nil => intro as k _ has _ _; simp
  | cons n names ih =>
    intro as k hl has hhas hf
    cases as with
    | nil => cases hl
    | cons a as =>
      have h0 : f k = has (n, a) := by
        rw [Bool.eq_iff_iff, hhas]
        exact hf 0 a rfl
      have ih := ih as (k + 1) (by simpa using hl) has hhas fun i b hb => by
        rw [show k + 1 + i = k + (i + 1) by omega]
        exact hf (i + 1) b hb
      rw [List.zipIdx_cons, List.zip_cons_cons, List.filter_cons, List.filter_cons]
      simp only [h0]
      split
      · rw [List.map_cons, List.map_cons, ih]
      · exact ih

theorem addsAll_length {x : LoadExt} {i : Nat} {ss : List Source}
    {as : List (List (List Char × Option Nat × VocabParams))} (h : AddsAll x i ss as) :
    as.length = ss.length := by
  induction h with
  | nil => rfl
  | cons _ _ ih => simp [ih]

theorem forall₂_both {α β : Type} {P Q : α → β → Prop} {l : List α} (h : ∀ a ∈ l, ∃ b, P a b ∧ Q a b) :
    ∃ bs, List.Forall₂ P l bs ∧ List.Forall₂ Q l bs := by
  induction l with
  | nil => exact ⟨[], .nil, .nil⟩
  | cons a l ih =>
    obtain ⟨b, h1, h2⟩ := h a List.mem_cons_self
    obtain ⟨bs, h3, h4⟩ := ih fun a ha => h a (List.mem_cons_of_mem _ ha)
    exact ⟨b :: bs, .cons h1 h3, .cons h2 h4⟩

/-- The lexicons a word is in, as the bits of its entry say. -/
theorem lexicons_of_word {x : LoadExt} {args : LoadArgs} {o : Orders} {L : Loaded}
    (h : x.load args o = .ok L) (hcount : (sourcesOf args).length ≤ 32)
    {as : List (List (List Char × Option Nat × VocabParams))} (has : AddsAll x 0 (sourcesOf args) as)
    {id : Nat} {v : VocabValue} (hv : L.vm.decoder[id]? = some v) (hr : ¬ Reserved v.text)
    {f : List Char × List (List Char × Option Nat × VocabParams) → Bool}
    (hf : ∀ n, f n = true ↔ ∃ a ∈ n.2, a.1 = v.text) :
    (L.vm.lexicons.zipIdx.filter fun n => v.lexindex.testBit n.2).map Prod.fst =
      ((L.vm.lexicons.zip as).filter f).map Prod.fst := by
  obtain ⟨_, _, _, _, _, _, hrun, _, _, _, _, hnames⟩ := loaded_history h
  have hinv : Inv L.vm := (inv_run (inv_new _) hrun).1
  have hl := addsAll_length has
  refine lexmatch_names _ _ 0 (by rw [hnames, List.length_map, hl]) f hf fun i a hi => ?_
  have hi32 : i < 32 := by
    have := (List.getElem?_eq_some_iff.mp hi).1
    omega
  obtain ⟨hno, hyes⟩ := loaded_entry h (by omega) has v.text hr
  have hid : L.vm.encoder.get? v.text = some id := (hinv.bij _ _).mpr (by unfold textAt; rw [hv]; rfl)
  cases hadds : addsOf v.text as.flatten with
  | nil => rw [hno hadds] at hid; cases hid
  | cons b bs =>
    obtain ⟨id', v', ⟨e1, e2, _⟩, _, hbits, _⟩ := hyes b bs hadds
    rw [hid] at e1
    cases e1
    rw [hv] at e2
    cases e2
    obtain ⟨r, hr1, hr2⟩ := hbits i hi32
    rw [VocabValue.inLexicon, if_neg (by omega)] at hr1
    have : v.lexindex.testBit i = r := by
      rw [← Except.ok.inj hr1, ← lexiconsOf_ok.bit_test]
      rfl
    rw [Nat.zero_add, this, hr2, hi]
    simp

theorem fits_of_text {f : List Char → Option EFloat} {v : List Char} {t : DistanceThreshold}
    (h : ThresholdText f v (parsedAs t)) : Fits t := by
  cases t with
  | ratio q => trivial
  | ratioWithLimit q l => cases h with | limit _ h => exact h.choose_spec.2.2.2.2
  | absolute l => cases h with | absolute h => exact h.choose_spec.2.2.2.2

/-- The lexicons that are given. -/
abbrev lexiconNames (c : CommandLine) : List (List Char) :=
  c.given.filterMap fun g => if g.1 = .lexicon then some g.2 else none

/-- What is loaded with lexicons only. -/
theorem lexicons_only {x : ToolExt} (hmarks : MarksOk x.load.isSpace) {c : CommandLine}
    (hplain : ∀ o ∈ [OptName.variants, .errors, .lm], ¬ Given c o)
    {as : List (List (List Char × Option Nat × VocabParams))} {w : Weights} {p : TextParams}
    (hfiles : UsableFiles x c as) (hnum : UsableNumbers x c w p) :
    ∃ args L, Asked x c L w p ∧ Names c args ∧ Loadable x.load args as ∧
      x.load.load args x.orders = .ok L ∧
      sourcesOf args = (lexiconNames c).map .lexicon ∧ (∀ s ∈ sourcesOf args, ∃ f, s = .lexicon f) ∧
      L.vm.alphabet.length ≤ 166 ∧ L.vm.lexicons.length ≤ 32 ∧
      ∀ v ∈ L.vm.decoder, v.text.length < 65536 := by
  obtain ⟨args, L, hn, hload, hL, hLF, ha6, hlex32, _, _, hshort⟩ := usable_loads hmarks hfiles
  have asked : Asked x c L w p := ⟨hLF, hnum.weights, hnum.params, hnum.cutoff, hnum.debug⟩
  -- the resources
  have hres : args.resources = (c.given.filterMap fun g => if g.1 = .lexicon then some g.2 else none).map
      .lexicon := by
    rw [hn.resources]
    have : ∀ l : List (OptName × List Char), (∀ g ∈ l, g ∈ c.given) → l.filterMap resourceOf =
        (l.filterMap fun g => if g.1 = .lexicon then some g.2 else none).map .lexicon := by
      intro l
      induction l with
      | nil => intro _; rfl
      | cons g l ih =>
        intro hg
        have ih := ih fun g' hg' => hg g' (List.mem_cons_of_mem _ hg')
        obtain ⟨o, v⟩ := g
        have hgo := hg (o, v) List.mem_cons_self
        have h1 := hplain .variants (by simp)
        have h2 := hplain .errors (by simp)
        by_cases e1 : o = .variants
        · exact absurd ⟨v, e1 ▸ hgo⟩ h1
        by_cases e2 : o = .errors
        · exact absurd ⟨v, e2 ▸ hgo⟩ h2
        have : resourceOf (o, v) =
            (if (o, v).1 = .lexicon then some (o, v).2 else none).map .lexicon := by
          cases o <;> first | rfl | exact absurd rfl e1 | exact absurd rfl e2
        rw [List.filterMap_cons, List.filterMap_cons, this]
        split <;> simp_all
    exact this _ fun _ h => h
  have hlm : args.lm = [] := by
    rw [hn.lm, List.filterMap_eq_nil_iff]
    intro g hg
    rw [if_neg]
    intro e
    exact hplain .lm (by simp) ⟨g.2, e ▸ hg⟩
  have hsrc : sourcesOf args =
      (c.given.filterMap fun g => if g.1 = .lexicon then some g.2 else none).map .lexicon := by
    unfold sourcesOf
    rw [hres, hlm, List.map_map]
    simp [sourceOf, Function.comp_def]
  have hlex : ∀ s ∈ sourcesOf args, ∃ f, s = .lexicon f := by
    rw [hsrc]
    intro s hs
    obtain ⟨f, _, rfl⟩ := List.mem_map.mp hs
    exact ⟨f, rfl⟩
  exact ⟨args, L, asked, hn, hload, hL, hsrc, hlex, ha6, hlex32, hshort⟩

theorem forall₂_mem_right {α β : Type} {R : α → β → Prop} {l : List α} {l' : List β}
    (h : List.Forall₂ R l l') : List.Forall₂ (fun a b => R a b ∧ b ∈ l') l l' := by
  induction h with
  | nil => exact .nil
  | cons h _ ih =>
    exact .cons ⟨h, List.mem_cons_self⟩ (ih.imp fun _ _ h => ⟨h.1, List.mem_cons_of_mem _ h.2⟩)

/-- What is loaded with lexicons only, and which words are found with it. -/
theorem lexicons_listed {x : ToolExt} (hmarks : MarksOk x.load.isSpace) (hb : x.load.isSpace '\\' = false)
    {c : CommandLine} (hc : Accepted c)
    (hplain : ∀ o ∈ [OptName.variants, .errors, .confusables, .lm, .stopExact], ¬ Given c o)
    {as : List (List (List Char × Option Nat × VocabParams))} {w : Weights} {p : TextParams}
    (hfiles : UsableFiles x c as) (hnum : UsableNumbers x c w p)
    (hfw : 0 ≤ p.variant.freqWeight)
    {afile : List Char} {alines : List (Option (List Char))} {alphabet : Alphabet}
    (ha : (.alphabet, afile) ∈ c.given) (hal : x.load.file afile = some alines)
    (hae : List.Forall₂ (AlphabetLine x.load.isSpace) (nonEmpty alines) alphabet) :
    ∃ args L, Asked x c L w p ∧ x.load.load args x.orders = .ok L ∧
      args.contextrules = c.given.filterMap (fun g => if g.1 = .contextrules then some g.2 else none) ∧
      (sourcesOf args).length ≤ 32 ∧ (∀ s ∈ sourcesOf args, ∃ f, s = .lexicon f) ∧
      AddsAll x.load 0 (sourcesOf args) as ∧
      L.confusables = [] ∧ NoLinks L.vm ∧ Inv L.vm ∧
      ∀ l, l ≠ [] → ShortEnough x.text alphabet p.variant l → ∃ vs top hits,
        L.vm.findVariants x.text.toExt (x.config c L w).toConfig p.variant l = .ok vs ∧
        Ranked x.text alphabet as w p.variant l top hits ∧
        List.Forall₂ (fun v u => v.distScore = u.score ∧
            v.score x.text.f64 p.variant.freqWeight = u.overall x.text.f64 p.variant.freqWeight top ∧
            ∃ col, VariantColumns x c L p v col ∧ HitColumn x c (lexiconNames c) as p.variant top u col)
          vs (shown x.text.f64 p.variant.maxMatches p.variant.cutoffThreshold
            (Hit.overall x.text.f64 p.variant.freqWeight top) Hit.score hits) := by
  obtain ⟨args, L, asked, hn, hload, hL, hsrc, hlex, ha6, hlex32, hshort⟩ := lexicons_only hmarks
    (fun o ho => hplain o (by simp only [List.mem_cons, List.not_mem_nil, or_false] at ho ⊢; tauto))
    hfiles hnum
  have hconf : L.confusables = [] := by
    have h0 : args.confusables = [] := by
      rw [hn.confusables, List.filterMap_eq_nil_iff]
      intro g hg
      rw [if_neg]
      intro e
      exact hplain .confusables (by simp) ⟨g.2, e ▸ hg⟩
    unfold LoadExt.load at hL
    obtain ⟨_, _, h⟩ := bind_ok.mp hL
    obtain ⟨_, _, h⟩ := bind_ok.mp h
    obtain ⟨_, _, h⟩ := bind_ok.mp h
    obtain ⟨cs, h3, h⟩ := bind_ok.mp h
    obtain ⟨_, _, h⟩ := bind_ok.mp h
    obtain ⟨_, _, h⟩ := bind_ok.mp h
    cases pure_ok.mp h
    rw [h0] at h3
    cases h3
    rfl
  have hsz := hload.sources
  obtain ⟨lines, _, _, hl1, hl2, _, hrun, _, _, _, _, hnames⟩ := loaded_history hL
  have hinv : Inv L.vm := (inv_run (inv_new _) hrun).1
  have halpha : L.vm.alphabet = alphabet := by
    have := hc.2 .alphabet (by decide) _ _ ha hn.alphabet
    rw [← this, hal] at hl1
    cases hl1
    obtain ⟨es, _, e2, e3⟩ := read_alphabet_entries hb [] alines
    rw [hl2, e2, List.nil_append, e3 alphabet hae]
  subst halpha
  obtain ⟨q, hq, _, hqn⟩ := hnum.params
  have hstop : p.variant.stopCriterion = .exhaustive := by
    rw [hqn.stop]
    cases e : q.stopCriterion with
    | exhaustive => rfl
    | stopAtExactMatch => exact absurd (hq.stop.mp e) (hplain .stopExact (by simp))
  have hfa : Fits p.variant.maxAnagramDistance := by
    obtain ⟨v, _, hv⟩ := hq.anagram
    rw [hqn.anagram] at hv
    exact fits_of_text hv
  have hfe : Fits p.variant.maxEditDistance := by
    obtain ⟨v, _, hv⟩ := hq.edit
    rw [hqn.edit] at hv
    exact fits_of_text hv
  have hlinks : NoLinks L.vm := noLinks_load hL fun r hr => by
    obtain ⟨f, hf⟩ := hlex (sourceOf r) (List.mem_append_left _ (List.mem_map_of_mem hr))
    cases r with
    | lexicon f => exact ⟨f, rfl⟩
    | variantList f => cases hf
    | errorList f => cases hf
  refine ⟨args, L, asked, hL, hn.rules, hsz, hlex, hload.words, hconf, hlinks, hinv, ?_⟩
  intro l hne hsh
  obtain ⟨top, hits, res, h1, h2, h3⟩ := similar_words_found hL (by omega) hlex hload.words ha6 hshort
    x.text (x.config c L w).toConfig p.variant hnum.nonzero hconf hstop hfw hfa hfe l hne hsh
  have hnr : ∀ u ∈ shown x.text.f64 p.variant.maxMatches p.variant.cutoffThreshold
      (Hit.overall x.text.f64 p.variant.freqWeight top) Hit.score hits, ¬ Reserved u.word := fun u hu =>
    ((h1.mem u).mp ((shown_sublist _ _ _ _ _ _).subset hu)).1
  have hnames' : L.vm.lexicons = c.given.filterMap fun g => if g.1 = .lexicon then some g.2 else none := by
    rw [hnames, hsrc, List.map_map]
    exact List.map_id _
  refine ⟨res, top, hits, h2, h1, ?_⟩
  unfold lexiconNames
  rw [← hnames']
  refine (forall₂_mem_right h3).imp ?_
  rintro r u ⟨⟨⟨v, hv, ht⟩, hd, hsc⟩, hu⟩
  refine ⟨hd, hsc, ?_⟩
  by_cases hg : Given c .outputLexmatch
  · have hr : ¬ Reserved v.text := ht ▸ hnr u hu
    classical
    have hhas : ∀ n : List Char × List (List Char × Option Nat × VocabParams),
        decide (∃ a ∈ n.2, a.1 = v.text) = true ↔ ∃ a ∈ n.2, a.1 = v.text := fun n =>
      decide_eq_true_iff
    refine ⟨_, ⟨v, hv, _, .inr ⟨hg, hlex32, rfl⟩, rfl⟩, _,
      .inr ⟨hg, fun n => decide (∃ a ∈ n.2, a.1 = v.text), ?_, rfl⟩, ?_⟩
    · rw [← ht]; exact hhas
    · rw [← ht, hsc, lexicons_of_word hL hsz hload.words hv hr hhas]
  · exact ⟨_, ⟨v, hv, _, .inl ⟨hg, rfl⟩, rfl⟩, _, .inl ⟨hg, rfl⟩, by rw [← ht, hsc]⟩

/-- What is loaded with lexicons only, and what is printed for what is found with it. -/
theorem lexicons_loaded {x : ToolExt} (hmarks : MarksOk x.load.isSpace) (hb : x.load.isSpace '\\' = false)
    {c : CommandLine} (hc : Accepted c)
    (hplain : ∀ o ∈ [OptName.variants, .errors, .confusables, .lm, .stopExact], ¬ Given c o)
    {as : List (List (List Char × Option Nat × VocabParams))} {w : Weights} {p : TextParams}
    (hfiles : UsableFiles x c as) (hnum : UsableNumbers x c w p)
    (hfw : 0 ≤ p.variant.freqWeight)
    {afile : List Char} {alines : List (Option (List Char))} {alphabet : Alphabet}
    (ha : (.alphabet, afile) ∈ c.given) (hal : x.load.file afile = some alines)
    (hae : List.Forall₂ (AlphabetLine x.load.isSpace) (nonEmpty alines) alphabet) :
    ∃ args L, Asked x c L w p ∧ x.load.load args x.orders = .ok L ∧
      args.contextrules = c.given.filterMap (fun g => if g.1 = .contextrules then some g.2 else none) ∧
      (sourcesOf args).length ≤ 32 ∧ (∀ s ∈ sourcesOf args, ∃ f, s = .lexicon f) ∧
      AddsAll x.load 0 (sourcesOf args) as ∧
      ∀ l, l ≠ [] → ShortEnough x.text alphabet p.variant l → ∃ vs cols,
        L.vm.findVariants x.text.toExt (x.config c L w).toConfig p.variant l = .ok vs ∧
        List.Forall₂ (VariantColumns x c L p) vs cols ∧
        SimilarColumns x c alphabet (lexiconNames c) as w p.variant l cols := by
  obtain ⟨args, L, h1, h2, h3, h4, h5, h6, _, _, _, h7⟩ :=
    lexicons_listed hmarks hb hc hplain hfiles hnum hfw ha hal hae
  refine ⟨args, L, h1, h2, h3, h4, h5, h6, fun l hne hsh => ?_⟩
  obtain ⟨vs, top, hits, g1, g2, g3⟩ := h7 l hne hsh
  obtain ⟨cols, e1, e2⟩ : ∃ cols, List.Forall₂ (VariantColumns x c L p) vs cols ∧
      List.Forall₂ (HitColumn x c (lexiconNames c) as p.variant top) (shown x.text.f64 p.variant.maxMatches
        p.variant.cutoffThreshold (Hit.overall x.text.f64 p.variant.freqWeight top) Hit.score hits) cols := by
    generalize shown x.text.f64 p.variant.maxMatches p.variant.cutoffThreshold
      (Hit.overall x.text.f64 p.variant.freqWeight top) Hit.score hits = us at g3
    clear g1 g2
    induction g3 with
    | nil => exact ⟨[], .nil, .nil⟩
    | cons h _ ih =>
      obtain ⟨cols, i1, i2⟩ := ih
      obtain ⟨_, _, col, c1, c2⟩ := h
      exact ⟨col :: cols, .cons c1 i1, .cons c2 i2⟩
  exact ⟨vs, cols, g1, e1, top, hits, g2, e2⟩

/-- **C90**: with lexicons only (no variant lists, error lists and confusables), and without `--json` and
stop criterion, a query prints for each line of the input the line and what is shown of the ranking of the
words of the lexicons that are similar to it, with their scores.  The lines must not be empty, nor too long. -/
theorem query_prints_similar {x : ToolExt} (hf : ∀ s, ';' ∈ s → x.parseF32 s = none)
    (hpos : StrictMono x.pos) (hmarks : MarksOk x.load.isSpace) (hb : x.load.isSpace '\\' = false)
    {c : CommandLine} (hc : Accepted c) (hsub : c.sub = .query) (hj : ¬ Given c .json)
    (hplain : ∀ o ∈ [OptName.variants, .errors, .confusables, .stopExact], ¬ Given c o)
    {as : List (List (List Char × Option Nat × VocabParams))} {w : Weights} {p : TextParams}
    (hfiles : UsableFiles x c as) (hnum : UsableNumbers x c w p)
    (hfw : 0 ≤ p.variant.freqWeight)
    {afile : List Char} {alines : List (Option (List Char))} {alphabet : Alphabet}
    (ha : (.alphabet, afile) ∈ c.given) (hal : x.load.file afile = some alines)
    (hae : List.Forall₂ (AlphabetLine x.load.isSpace) (nonEmpty alines) alphabet)
    {files : List (List Char)}
    {inputs : List (List (Option (List Char)))} (hin : InputsOf x files inputs)
    (hread : p.singleThread = false → ∀ lines ∈ inputs, none ∉ lines)
    (hlines : ∀ l ∈ inputs.flatMap readable, l ≠ [] ∧ ShortEnough x.text alphabet p.variant l) :
    ∃ rows, List.Forall₂ (SimilarRow x c alphabet
        (c.given.filterMap fun g => if g.1 = .lexicon then some g.2 else none) as w p.variant)
        (inputs.flatMap readable) rows ∧
      x.main c files = .ok (.output rows.flatten []) := by
  obtain ⟨args, L, asked, _, _, _, _, _, find⟩ := lexicons_loaded hmarks hb hc (fun o ho => by
    by_cases e : o = .lm
    · rintro ⟨v, hv⟩
      have := hc.1 _ hv
      rw [hsub, e] at this
      exact absurd (show OptName.lm ∈ optionsOf .query from this) (by decide)
    · refine hplain o ?_
      simp only [List.mem_cons, List.not_mem_nil, or_false] at ho ⊢
      tauto) hfiles hnum hfw ha hal hae
  have row : ∀ l ∈ inputs.flatMap readable, ∃ row,
      (∃ vs, L.vm.findVariants x.text.toExt (x.config c L w).toConfig p.variant l = .ok vs ∧
        QueryRow x c L p l vs row) ∧
      SimilarRow x c alphabet (lexiconNames c) as w p.variant l row := by
    intro l hl
    obtain ⟨hne, hsh⟩ := hlines l hl
    obtain ⟨vs, cols, h1, h2, h3⟩ := find l hne hsh
    exact ⟨_, ⟨vs, h1, cols, h2, rfl⟩, cols, h3, rfl⟩
  obtain ⟨rows, h1, h2⟩ := forall₂_both row
  exact ⟨rows, h2, (query_run hf hpos hc hsub hj files _ _).mpr
    ⟨rfl, L, w, p, _, inputs, asked, settings_iff.mpr rfl, hin, hread, rows, h1, rfl⟩⟩

/-! ### Examples -/

/-- `query --alphabet a --lexicon l --output-lexmatch --max-matches 1 --cutoff-threshold 0.0` -/
def exQueryS : CommandLine :=
  { sub := .query, debug := none
    given := [(.alphabet, ['a']), (.lexicon, ['l']), (.outputLexmatch, []), (.maxMatches, ['1']),
      (.cutoffThreshold, "0.0".toList)] }

def exAddedS : List (List (List Char × Option Nat × VocabParams)) :=
  [[("ab".toList, some 3, {}), ("b".toList, some 1, {})]]

theorem exUsableS : UsableFiles exToolR exQueryS exAddedS := by
  have vocab : ∀ {l t f : List Char} {n : Nat}, splitChar '\t' l = [t, f] →
      parseUnsigned (2 ^ 32 - 1) f = some n → VocabLine {} l (t, n) := by
    intro l t f n h1 h2
    exact ⟨[t, f], (fieldsOf_iff _ _).mpr h1, rfl,
      .inr ⟨1, rfl, .inr ⟨f, rfl, (parseUnsigned_iff _ _ _).mp h2⟩⟩⟩
  refine ⟨⟨⟨['a'], [(['l'], 3)], [], [], [], [], []⟩, by constructor <;> decide, ?_⟩, by decide⟩
  refine ⟨exLoadable.alphabet, ?_, by decide, by decide, by decide, fun f hf => (by cases hf),
    fun f hf => (by cases hf)⟩
  exact .cons (Adds.lexicon (x := exLoadR) (f := ['l']) (es := [("ab".toList, 3), (['b'], 1)]) rfl
    (.cons (vocab (f := ['3']) (by decide) (by decide)) (.cons (vocab (f := ['1']) (by decide) (by decide))
      .nil))) .nil

theorem exNumbersS : UsableNumbers exToolR exQueryS ⟨1 / 2, 1 / 8, 1 / 8, 1 / 8, 1 / 8⟩
    (exNumbers exQueryS) :=
  exUsableNumbers (accepted_of (by decide) (by decide)) rfl (by decide +kernel) rfl
    (exSome exTextParams (by decide +kernel)) (.inl (by decide +kernel))

theorem exShortS {l : List Char} (h : l.length ≤ 4) :
    ShortEnough exText [["a".toList, "A".toList], ["b".toList]] (exNumbers exQueryS).variant l := by
  obtain ⟨qs, hqs⟩ := encodes_exists (alphabet := [["a".toList, "A".toList], ["b".toList]])
    (by unfold NoEmpty; decide) 3 l
  have hlen := encodes_length hqs
  have hf : (exNumbers exQueryS).variant.maxAnagramDistance = .absolute 3 := rfl
  refine ⟨qs, _, hqs, (allowed_iff ?_).mpr rfl, ?_⟩
  · rw [hf]
    show 3 ≤ 255
    decide
  · have : effectiveDistance exText.f32 qs.length (.absolute 3) ≤ 3 :=
      (effective_absolute exText.f32 qs.length 3 (by decide)).1.1
    rw [hf]
    omega

/-- What the library finds for `ab`: two words, of which one is shown. -/
example : ∃ L top hits res, exLoadR.load ⟨['a'], [(['l'], 3)], [], [], [], [], []⟩ exOrders = .ok L ∧
    Ranked exText L.vm.alphabet exAddedS exConfig.weights (exNumbers exQueryS).variant "ab".toList top hits ∧
    L.vm.findVariants exText.toExt exConfig (exNumbers exQueryS).variant "ab".toList = .ok res ∧
    List.Forall₂ (fun r u => (∃ v, L.vm.decoder[r.vocabId]? = some v ∧ v.text = u.word) ∧
        r.distScore = u.score ∧ r.score exText.f64 0 = u.overall exText.f64 0 top) res
      (shown exText.f64 1 0 (Hit.overall exText.f64 0 top) Hit.score hits) := by
  have hadds : AddsAll exLoadR 0 (sourcesOf ⟨['a'], [(['l'], 3)], [], [], [], [], []⟩) exAddedS := by
    obtain ⟨_, hn, hl⟩ := exUsableS.files
    have h1 := hn.resources
    have h2 := hn.lm
    have := hl.words
    unfold sourcesOf at this
    rw [h1, h2] at this
    exact this
  obtain ⟨top, hits, res, h1, h2, h3⟩ := similar_words_found (x := exLoadR)
    (args := ⟨['a'], [(['l'], 3)], [], [], [], [], []⟩) (o := exOrders) rfl (by decide)
    (by
      intro s hs
      have hs : s ∈ [Source.lexicon ['l']] := hs
      exact ⟨['l'], List.mem_singleton.mp hs⟩)
    hadds (by decide) (by decide) exText exConfig (exNumbers exQueryS).variant (by decide +kernel) rfl rfl
    (by decide +kernel) (show 3 ≤ 255 by decide)
    (show 2 ≤ 255 by decide) "ab".toList (by decide) (exShortS (by decide))
  exact ⟨_, top, hits, res, rfl, h1, h2, h3⟩

/-- A query for `ab`, `ab b` and `bb`. -/
example : ∃ rows, List.Forall₂ (SimilarRow exToolR exQueryS [["a".toList, "A".toList], ["b".toList]] [['l']]
      exAddedS ⟨1 / 2, 1 / 8, 1 / 8, 1 / 8, 1 / 8⟩ (exNumbers exQueryS).variant)
      ["ab".toList, "ab b".toList, "bb".toList] rows ∧
    exToolR.main exQueryS [['q'], ['-']] = .ok (.output rows.flatten []) := by
  obtain ⟨entries, e1, e2, _⟩ := read_alphabet_entries (isSpace := exToolR.load.isSpace) rfl []
    [some "a\tA".toList, some ['b']]
  have he : entries = [["a".toList, "A".toList], ["b".toList]] := by
    rw [List.nil_append] at e2
    rw [← e2]
    decide
  rw [he] at e1
  refine query_prints_similar (x := exToolR) ex_noSemicolon ex_pos ex_marks rfl
    (accepted_of (by decide) (by decide)) rfl (not_given (by decide)) ?_ exUsableS exNumbersS
    (by decide +kernel) (afile := ['a']) (by decide) rfl e1
    (inputs := [[some "ab".toList], exToolR.stdin]) (inputsOf_iff.mp (by decide)) ?_ ?_
  · intro o ho
    exact not_given (by revert o; decide)
  · intro _ lines hl
    simp only [List.mem_cons, List.not_mem_nil, or_false] at hl
    rcases hl with rfl | rfl <;> decide
  · intro l hl
    have e : [[some "ab".toList], exToolR.stdin].flatMap readable =
        ["ab".toList, "ab b".toList, "bb".toList] := by decide
    rw [e] at hl
    simp only [List.mem_cons, List.not_mem_nil, or_false] at hl
    rcases hl with rfl | rfl | rfl
    · exact ⟨by decide, exShortS (by decide)⟩
    · exact ⟨by decide, exShortS (by decide)⟩
    · exact ⟨by decide, exShortS (by decide)⟩

example : exToolR.main exQueryS [['q'], ['-']] = .ok (.output
    "ab\tab\t1\t\t\"l\"\nab b\tab\t0.5\t\t\"l\"\nbb\tb\t0.5\t\t\"l\"\n".toList []) := by
  decide +kernel

end Verif.Props
