import Verif.Lemmas.Links
import Verif.Props.Score

/-!
# Properties of ranking, pruning and expansion (C22, C30 – C37, C39)
-/
namespace Verif.Props

open Verif.Spec Verif.Model Verif.Lemmas

/-! ## C30 -/

/-- What the comparison says: with a positive frequency weight the score decides, otherwise first
the similarity and then the frequency. -/
theorem rank_cmp_meaning (r : Rounding) (fw : Rat) (a b : VariantResult) :
    (0 < fw → (a.rankCmp r fw b = .lt ↔ b.score r fw < a.score r fw) ∧
      (a.rankCmp r fw b = .eq ↔ a.score r fw = b.score r fw)) ∧
    (fw ≤ 0 → (a.rankCmp r fw b = .lt ↔
        b.distScore < a.distScore ∨ b.distScore = a.distScore ∧ b.freqScore < a.freqScore) ∧
      (a.rankCmp r fw b = .eq ↔ a.distScore = b.distScore ∧ a.freqScore = b.freqScore)) := by
  constructor
  · intro h
    unfold VariantResult.rankCmp
    rw [if_pos h]
    rcases lt_trichotomy (b.score r fw) (a.score r fw) with h1 | h1 | h1
    · simp [h1, h1.ne']
    · simp [h1]
    · simp [h1, h1.not_gt, h1.ne]
  · intro h
    unfold VariantResult.rankCmp
    rw [if_neg (not_lt.mpr h)]
    rcases lt_trichotomy b.distScore a.distScore with h1 | h1 | h1
    · simp [h1, h1.ne']
    · rcases lt_trichotomy b.freqScore a.freqScore with h2 | h2 | h2
      · simp [h1, h2, h2.ne']
      · simp [h1, h2]
      · simp [h1, h2, h2.not_gt, h2.ne]
    · simp [h1, h1.not_gt, h1.ne, h1.ne']

example : (⟨3, 1/2, 1, none⟩ : VariantResult).rankCmp .exact 0 ⟨4, 1/2, 1/3, none⟩ = .lt ∧
    (⟨3, 1/2, 1, none⟩ : VariantResult).rankCmp .exact 1 ⟨4, 1, 1/3, none⟩ = .lt := by decide +kernel

/-- **C30**: the comparison is a total preorder. -/
theorem rank_cmp_total_preorder (r : Rounding) (fw : Rat) (a b c : VariantResult) :
    a.rankCmp r fw a = .eq ∧ b.rankCmp r fw a = (a.rankCmp r fw b).swap ∧
    (a.rankCmp r fw b ≠ .gt → b.rankCmp r fw c ≠ .gt → a.rankCmp r fw c ≠ .gt) := by
  refine ⟨?_, ?_, ?_⟩
  · unfold VariantResult.rankCmp
    split <;> simp
  · unfold VariantResult.rankCmp
    split
    · rcases lt_trichotomy (b.score r fw) (a.score r fw) with h1 | h1 | h1
      · simp [h1, h1.not_gt]
      · simp [h1]
      · simp [h1, h1.not_gt]
    · rcases lt_trichotomy b.distScore a.distScore with h1 | h1 | h1
      · simp [h1, h1.not_gt]
      · rcases lt_trichotomy b.freqScore a.freqScore with h2 | h2 | h2
        · simp [h1, h2, h2.not_gt]
        · simp [h1, h2]
        · simp [h1, h2, h2.not_gt]
      · simp [h1, h1.not_gt]
  · intro h1 h2
    have := rankLe_trans r fw a b c (by simpa [rankLe] using h1) (by simpa [rankLe] using h2)
    simpa [rankLe] using this

example : (⟨3, 1/2, 1, none⟩ : VariantResult).rankCmp .exact 0 ⟨4, 1/2, 1/3, none⟩ ≠ .gt ∧
    (⟨4, 1/2, 1/3, none⟩ : VariantResult).rankCmp .exact 0 ⟨5, 1/3, 1, none⟩ ≠ .gt := by
  decide +kernel

/-- **C30**: ranking gives a permutation in which scores never increase; without frequency weight
ties are ordered by frequency; and results that compare equal keep their order. -/
theorem rank_results_ranked (r : Rounding) (fw : Rat) (hfw : 0 ≤ fw) (l : List VariantResult) :
    (rankResults r fw l).Perm l ∧
    (rankResults r fw l).Pairwise (fun a b => b.score r fw ≤ a.score r fw) ∧
    (fw = 0 → (rankResults r fw l).Pairwise
      fun a b => a.distScore = b.distScore → b.freqScore ≤ a.freqScore) ∧
    ∀ a b, [a, b].Sublist l → a.rankCmp r fw b = .eq → [a, b].Sublist (rankResults r fw l) := by
  refine ⟨rankResults_perm r fw l, ?_, ?_, ?_⟩
  · exact (rankResults_sorted r fw l).imp fun h => rankLe_score r hfw h
  · rintro rfl
    refine (rankResults_sorted r 0 l).imp fun {a b} h e => ?_
    rw [rankLe_iff, if_neg (lt_irrefl _)] at h
    rcases h with h | h
    · exact absurd e h.ne'
    · exact h.2
  · intro a b hab e
    exact rankResults_stable r fw l (by simp [rankLe, e]) hab

example : rankResults .exact 0 [⟨3, 1/2, 1/3, none⟩, ⟨4, 1/2, 1, none⟩, ⟨5, 1, 0, none⟩,
    ⟨6, 1/2, 1, none⟩] =
    [⟨5, 1, 0, none⟩, ⟨4, 1/2, 1, none⟩, ⟨6, 1/2, 1, none⟩, ⟨3, 1/2, 1/3, none⟩] := by decide +kernel

/-- Two stable sorts by the comparison agree: a list in which nothing is ranked after something
worse, and in which the results that compare equal to any given one occur as in `l`, is the ranking
of `l`.  So it does not matter which stable sort the model uses. -/
theorem rank_results_unique (r : Rounding) (fw : Rat) (l l' : List VariantResult)
    (hsorted : l'.Pairwise fun a b => a.rankCmp r fw b ≠ .gt)
    (hstable : ∀ x : VariantResult, l'.filter (fun y => x.rankCmp r fw y = .eq) =
      l.filter (fun y => x.rankCmp r fw y = .eq)) : l' = rankResults r fw l := by
  have hs := rankResults_sorted r fw l
  have hst : ∀ x : VariantResult, (rankResults r fw l).filter (fun y => x.rankCmp r fw y = .eq) =
      l.filter (fun y => x.rankCmp r fw y = .eq) := by
    intro x
    have hp : ((rankResults r fw l).filter (fun y => x.rankCmp r fw y = .eq)).Perm
        (l.filter (fun y => x.rankCmp r fw y = .eq)) := (rankResults_perm r fw l).filter _
    refine (List.Sublist.eq_of_length ?_ hp.length_eq.symm).symm
    -- the filtered list is a sorted sublist of `l`
    have hsub : (l.filter (fun y => x.rankCmp r fw y = .eq)).Sublist (rankResults r fw l) := by
      refine List.sublist_insertionSort (r := fun a b => rankLe r fw a b = true) ?_
        List.filter_sublist
      rw [List.pairwise_filter]
      refine List.pairwise_of_forall fun a b ha hb => ?_
      simp only [decide_eq_true_eq] at ha hb
      refine rankLe_trans r fw a x b ?_ (by simp [rankLe, hb])
      have := (rank_cmp_total_preorder r fw x a a).2.1
      rw [ha] at this
      simp [rankLe, this]
    have := hsub.filter (fun y => x.rankCmp r fw y = .eq)
    rwa [List.filter_filter, show (fun a => decide (x.rankCmp r fw a = .eq) &&
      decide (x.rankCmp r fw a = .eq)) = (fun y => decide (x.rankCmp r fw y = .eq)) from by
        funext a; simp] at this
  have hst' : ∀ x : VariantResult, l'.filter (fun y => x.rankCmp r fw y = .eq) =
      (rankResults r fw l).filter (fun y => x.rankCmp r fw y = .eq) :=
    fun x => (hstable x).trans (hst x).symm
  clear hst hstable
  replace hs : (rankResults r fw l).Pairwise fun a b => a.rankCmp r fw b ≠ .gt :=
    hs.imp fun h => by simpa [rankLe] using h
  generalize rankResults r fw l = k at *
  clear l
  have hrefl : ∀ x : VariantResult, x.rankCmp r fw x = .eq :=
    fun x => (rank_cmp_total_preorder r fw x x x).1
  have hswap : ∀ x y : VariantResult, y.rankCmp r fw x = (x.rankCmp r fw y).swap :=
    fun x y => (rank_cmp_total_preorder r fw x y y).2.1
  have hmem : ∀ x, x ∈ l' ↔ x ∈ k := by
    intro x
    have h1 : x ∈ l' ↔ x ∈ l'.filter (fun y => x.rankCmp r fw y = .eq) := by
      simp [List.mem_filter, hrefl]
    have h2 : x ∈ k ↔ x ∈ k.filter (fun y => x.rankCmp r fw y = .eq) := by
      simp [List.mem_filter, hrefl]
    rw [h1, h2, hst']
  induction l' generalizing k with
  | nil =>
    cases k with
    | nil => rfl
    | cons b k => exact absurd ((hmem b).mpr List.mem_cons_self) (by simp)
  | cons a l' ih =>
    cases k with
    | nil => exact absurd ((hmem a).mp List.mem_cons_self) (by simp)
    | cons b k =>
      have hab : a.rankCmp r fw b ≠ .gt := by
        rcases List.mem_cons.mp ((hmem b).mpr List.mem_cons_self) with e | h
        · rw [e, hrefl]; simp
        · exact List.rel_of_pairwise_cons hsorted h
      have hba : b.rankCmp r fw a ≠ .gt := by
        rcases List.mem_cons.mp ((hmem a).mp List.mem_cons_self) with e | h
        · rw [e, hrefl]; simp
        · exact List.rel_of_pairwise_cons hs h
      have he : a.rankCmp r fw b = .eq := by
        rw [hswap a b] at hba
        cases h : a.rankCmp r fw b with
        | lt => rw [h] at hba; exact absurd rfl hba
        | eq => rfl
        | gt => exact absurd h hab
      have hf := hst' a
      simp only [List.filter_cons, hrefl, he, decide_true, if_true, List.cons.injEq] at hf
      obtain ⟨rfl, _⟩ := hf
      congr 1
      have hst2 : ∀ x : VariantResult, l'.filter (fun y => x.rankCmp r fw y = .eq) =
          k.filter (fun y => x.rankCmp r fw y = .eq) := by
        intro x
        have := hst' x
        simp only [List.filter_cons] at this
        split at this
        · exact (List.cons.inj this).2
        · exact this
      refine ih hsorted.of_cons k hst2 hs.of_cons ?_
      intro x
      have h1 : x ∈ l' ↔ x ∈ l'.filter (fun y => x.rankCmp r fw y = .eq) := by
        simp [List.mem_filter, hrefl]
      have h2 : x ∈ k ↔ x ∈ k.filter (fun y => x.rankCmp r fw y = .eq) := by
        simp [List.mem_filter, hrefl]
      rw [h1, h2, hst2]

example : (∀ x : VariantResult, ([⟨5, 1, 0, none⟩, ⟨3, 1/2, 1, none⟩] : List VariantResult).filter
      (fun y => x.rankCmp .exact 0 y = .eq) =
    ([⟨3, 1/2, 1, none⟩, ⟨5, 1, 0, none⟩] : List VariantResult).filter
      (fun y => x.rankCmp .exact 0 y = .eq)) := by
  intro x
  have h : ¬ (x.rankCmp .exact 0 ⟨3, 1/2, 1, none⟩ = .eq ∧ x.rankCmp .exact 0 ⟨5, 1, 0, none⟩ = .eq) := by
    rintro ⟨h1, h2⟩
    have h1 := (((rank_cmp_meaning .exact 0 x _).2 le_rfl).2.mp h1).1
    have h2 := (((rank_cmp_meaning .exact 0 x _).2 le_rfl).2.mp h2).1
    rw [h1] at h2
    exact absurd h2 (by decide +kernel)
  simp only [List.filter_cons, List.filter_nil, decide_eq_true_eq]
  split <;> split <;> simp_all

/-- With a negative frequency weight, which the API accepts, the order is not that of the scores. -/
theorem negative_weight_misranks : ∃ l : List VariantResult,
    ¬ (rankResults .exact (-1/2) l).Pairwise
      (fun a b => b.score .exact (-1/2) ≤ a.score .exact (-1/2)) :=
  ⟨[⟨3, 1, 1, none⟩, ⟨4, 9/10, 0, none⟩], by decide +kernel⟩

/-! ## C31, C34 -/

theorem gather_ids {m : Vm} {isLower : Char → Bool} {w : Weights} {qs : List Nat}
    {query : List Char} {cap : Nat} {near : List Nat} {l : List (Nat × Distance)}
    (h : m.gatherInstances isLower w qs query cap near = .ok l) :
    ∀ y ∈ l, ∃ v, m.decoder[y.1]? = some v := by
  have hnode : ∀ (ids : List Nat) (l : List (Nat × Distance)),
      m.gatherNode isLower w qs query cap ids = .ok l → ∀ y ∈ l, ∃ v, m.decoder[y.1]? = some v := by
    intro ids
    induction ids with
    | nil => intro l h; cases h; simp
    | cons id ids ih =>
      intro l h
      simp only [Vm.gatherNode] at h
      split at h
      · cases h
      · next v hv =>
        rw [bind_ok] at h
        obtain ⟨od, _, h⟩ := h
        cases od with
        | none => exact ih l h
        | some ld =>
          simp only [bind_ok, pure_ok] at h
          obtain ⟨x1, e1, x2, e2, x3, e3, sc, _, l', hl', rfl⟩ := h
          intro y hy
          rcases List.mem_cons.mp hy with rfl | hy
          · exact ⟨v, hv⟩
          · exact ih l' hl' y hy
  induction near generalizing l with
  | nil => cases h; simp
  | cons k near ih =>
    simp only [Vm.gatherInstances] at h
    split at h
    · cases h
    · simp only [bind_ok, pure_ok] at h
      obtain ⟨l1, h1, l2, h2, rfl⟩ := h
      intro y hy
      rcases List.mem_append.mp hy with hy | hy
      · exact hnode _ l1 h1 y hy
      · exact ih h2 y hy

theorem candidate_ids {m : Vm} {x : Ext} {w : Weights} {p : Params} {input : List Char}
    {qs : List Nat} {l : List (Nat × Distance)}
    (h : m.findCandidates x w p input = .ok (qs, l)) : ∀ y ∈ l, ∃ v, m.decoder[y.1]? = some v := by
  simp only [Vm.findCandidates, bind_ok, pure_ok, Prod.mk.injEq] at h
  obtain ⟨ns, _, hash, _, near, _, l', h1, rfl, rfl⟩ := h
  exact gather_ids h1

theorem scored_map {m : Vm} (r : Rounding) (w : Weights) (len : Nat) (threshold : Rat)
    {l : List (Nat × Distance)} (h : ∀ y ∈ l, ∃ v, m.decoder[y.1]? = some v) :
    (l.filterMap (scored m r w len threshold)).map (fun y => (y.vocabId, y.distScore)) =
      (l.filter fun y => threshold ≤ similarity r w len y.2).map
        fun y => (y.1, similarity r w len y.2) := by
  induction l with
  | nil => rfl
  | cons y l ih =>
    obtain ⟨v, hv⟩ := h y List.mem_cons_self
    have ih := ih fun z hz => h z (List.mem_cons_of_mem _ hz)
    simp only [List.filterMap_cons, List.filter_cons, scored, hv]
    by_cases ht : threshold ≤ similarity r w len y.2
    · simp only [ge_iff_le, ht, if_true, decide_true, List.map_cons, ih]
    · simp only [ge_iff_le, ht, if_false, decide_false, Bool.false_eq_true, ih]

theorem normalizeFreq_map (r : Rounding) (mf : Rat) (l : List VariantResult) :
    (normalizeFreq r mf l).map (fun y => (y.vocabId, y.distScore)) =
      l.map fun y => (y.vocabId, y.distScore) := by
  unfold normalizeFreq
  split
  · rw [List.map_map]; rfl
  · rfl

/-- **C31** and **C34** for a model without links and confusables: there is a ranking, best first, of
exactly the candidates whose similarity reaches the threshold, each with its similarity as score;
the results are an initial part of it, which is not empty unless the ranking is. -/
theorem results_are_best_candidates (m : Vm) (x : Ext) (cfg : Config) (p : Params)
    (input : List Char) (res : List VariantResult) (hlinks : NoLinks m)
    (hw : cfg.weights.sum x.f64 ≠ 0) (hconf : cfg.confusables = [])
    (hidx : m.index.isEmpty = false) (h : m.findVariants x cfg p input = .ok res) :
    ∃ qs l ranked, m.findCandidates x cfg.weights p input = .ok (qs, l) ∧
      (ranked.map fun y => (y.vocabId, y.distScore)).Perm
        ((l.filter fun y => p.scoreThreshold ≤ similarity x.f64 cfg.weights qs.length y.2).map
          fun y => (y.1, similarity x.f64 cfg.weights qs.length y.2)) ∧
      ranked.Pairwise (fun a b => a.rankCmp x.f64 p.freqWeight b ≠ .gt) ∧
      res <+: ranked ∧ res.head? = ranked.head? := by
  unfold Vm.findVariants at h
  rw [hidx, if_neg (by simp), bind_ok] at h
  obtain ⟨⟨qs, l⟩, h1, h2⟩ := h
  obtain ⟨hlen, mf, cands, _, _, h5, h6⟩ := scoreAndRank_ok hw h2
  rw [noLinks_hasLinks hlinks] at h5 h6
  simp only [Bool.false_eq_true, if_false] at h5 h6
  obtain ⟨hp1, hp2⟩ := prune_prefix (m := m) (r := x.f64) (cfg := cfg) (p := p) (input := input)
    (.inl hconf) (rankResults x.f64 p.freqWeight (normalizeFreq x.f64 mf cands))
  rw [← h6] at hp1 hp2
  refine ⟨qs, l, _, h1, ?_, ?_, hp1, hp2⟩
  · refine ((rankResults_perm _ _ _).map _).trans ?_
    rw [normalizeFreq_map, h5]
    simp only [scoredList, hconf, List.isEmpty_nil, Bool.not_true, Bool.false_and,
      Bool.false_eq_true, if_false]
    rw [scored_map x.f64 cfg.weights qs.length p.scoreThreshold (candidate_ids h1)]
  · exact (rankResults_sorted _ _ _).imp fun h => by simpa [rankLe] using h

example : NoLinks plain ∧ plain.index.isEmpty = false ∧
    plain.findCandidates exExt .default exParams ['a', 'b'] =
      .ok ([0, 1], [(4, ⟨1, 1, 0, 1, true⟩), (3, ⟨0, 2, 2, 2, true⟩), (6, ⟨1, 1, 0, 0, true⟩),
        (5, ⟨1, 2, 1, 2, true⟩)]) ∧
    plain.findVariants exExt exConfig exParams ['a', 'b'] =
      .ok [⟨3, 1, 1, none⟩, ⟨5, 11/16, 1, none⟩] := by decide +kernel

/-- **C31**: without links and confusables no result scores below the threshold, and each has the
similarity of its candidate. -/
theorem results_above_threshold (m : Vm) (x : Ext) (cfg : Config) (p : Params)
    (input : List Char) (res : List VariantResult) (hlinks : NoLinks m)
    (hw : cfg.weights.sum x.f64 ≠ 0) (hconf : cfg.confusables = [])
    (h : m.findVariants x cfg p input = .ok res) :
    ∀ y ∈ res, p.scoreThreshold ≤ y.distScore ∧ ∃ qs l d,
      m.findCandidates x cfg.weights p input = .ok (qs, l) ∧ (y.vocabId, d) ∈ l ∧
      y.distScore = similarity x.f64 cfg.weights qs.length d := by
  intro y hy
  have hidx : m.index.isEmpty = false := by
    cases hi : m.index.isEmpty with
    | false => rfl
    | true =>
      unfold Vm.findVariants at h
      rw [hi, if_pos rfl] at h
      cases h
      cases hy
  obtain ⟨qs, l, ranked, h1, h2, _, h4, _⟩ := results_are_best_candidates m x cfg p input res hlinks hw
    hconf hidx h
  have := h2.mem_iff.mp (List.mem_map.mpr ⟨y, h4.subset hy, rfl⟩)
  obtain ⟨c, hc, he⟩ := List.mem_map.mp this
  obtain ⟨hc1, hc2⟩ := List.mem_filter.mp hc
  simp only [decide_eq_true_eq] at hc2
  simp only [Prod.mk.injEq] at he
  refine ⟨he.2 ▸ hc2, qs, l, c.2, h1, ?_, he.2.symm⟩
  rw [← he.1]; exact hc1

/-- the candidates `b` (1/2) and `ba` (7/16) are below 3/5 -/
example : plain.findVariants exExt exConfig
      { exParams with scoreThreshold := 3/5, cutoffThreshold := 0 } ['a', 'b'] =
      .ok [⟨3, 1, 1, none⟩, ⟨5, 11/16, 1, none⟩] ∧
    plain.findVariants exExt exConfig { exParams with cutoffThreshold := 0 } ['a', 'b'] =
      .ok [⟨3, 1, 1, none⟩, ⟨5, 11/16, 1, none⟩, ⟨4, 1/2, 1, none⟩, ⟨6, 7/16, 1, none⟩] := by
  decide +kernel

/-- **C34**: in general, without late rescoring: the results are a sublist of a ranking of what
expansion gives, with the same first element. -/
theorem results_are_best_expanded (m : Vm) (x : Ext) (cfg : Config) (p : Params)
    (input : List Char) (res : List VariantResult)
    (hw : cfg.weights.sum x.f64 ≠ 0)
    (hconf : cfg.confusables = [] ∨ cfg.confusablesBeforePruning = true)
    (qs : List Nat) (l : List (Nat × Distance)) (hidx : m.index.isEmpty = false)
    (hl : m.findCandidates x cfg.weights p input = .ok (qs, l))
    (hex : ∃ y ∈ l, ∃ v, m.decoder[y.1]? = some v ∧ v.variants ≠ none)
    (h : m.findVariants x cfg p input = .ok res) :
    ∃ expanded ranked,
      m.expandVariants x.f64 (scoredList m x.f64 cfg p input qs.length l) = .ok expanded ∧
      (ranked.map fun y => (y.vocabId, y.distScore, y.via)).Perm
        (expanded.map fun y => (y.vocabId, y.distScore, y.via)) ∧
      ranked.Pairwise (fun a b => a.rankCmp x.f64 p.freqWeight b ≠ .gt) ∧
      res.Sublist ranked ∧ res.head? = ranked.head? := by
  unfold Vm.findVariants at h
  rw [hidx, if_neg (by simp), hl] at h
  obtain ⟨hlen, mf, cands, _, _, h5, h6⟩ := scoreAndRank_ok hw h
  have hlinks : hasLinks m l = true := by
    obtain ⟨y, hy, v, hv, hn⟩ := hex
    refine List.any_eq_true.mpr ⟨y, hy, ?_⟩
    rw [hv]
    exact Option.isSome_iff_ne_none.mpr hn
  rw [hlinks] at h5 h6
  simp only [if_true] at h5 h6
  obtain ⟨hp1, hp2⟩ := prune_prefix (m := m) (r := x.f64) (cfg := cfg) (p := p) (input := input)
    hconf (dedupIds (rankResults x.f64 p.freqWeight (normalizeFreq x.f64 mf cands)))
  rw [← h6] at hp1 hp2
  refine ⟨cands, rankResults x.f64 p.freqWeight (normalizeFreq x.f64 mf cands), h5, ?_, ?_,
    hp1.sublist.trans (dedupIds_sublist _), ?_⟩
  · refine ((rankResults_perm _ _ _).map _).trans ?_
    unfold normalizeFreq
    split
    · rw [List.map_map]; exact .refl _
    · exact .refl _
  · exact (rankResults_sorted _ _ _).imp fun h => by simpa [rankLe] using h
  · rw [hp2]
    cases rankResults x.f64 p.freqWeight (normalizeFreq x.f64 mf cands) with
    | nil => rfl
    | cons a k => obtain ⟨k', hk⟩ := dedupIds_cons a k; rw [hk]; rfl

example : (∃ l, linked.findCandidates exExt .default exParams ['b', 'a'] = .ok ([1, 0], l) ∧
    ∃ y ∈ l, ∃ v, linked.decoder[y.1]? = some v ∧ v.variants ≠ none) ∧
    linked.findVariants exExt exConfig exParams ['b', 'a'] = .ok [⟨3, 9/10, 1, some 4⟩] :=
  ⟨⟨[(3, ⟨1, 1, 0, 0, true⟩), (4, ⟨0, 2, 2, 2, true⟩), (5, ⟨2, 1, 0, 0, true⟩),
    (6, ⟨1, 2, 1, 2, true⟩)], by decide +kernel, (3, ⟨1, 1, 0, 0, true⟩), by simp, _, rfl,
    by decide +kernel⟩, by decide +kernel⟩

/-- a vocabulary with a transparent entry that is no variant, and one with a link -/
def dropOps : List Op :=
  [.add ['a', 'b'] (some 3) { vocabType := VocabType.INDEXED.union .TRANSPARENT },
   .add ['b', 'a'] (some 3) {}, .addVariant 4 ['a', 'i', 'j'] (1/2) (some 5) {}, .build exOrders]

/-- the model after `dropOps` -/
def dropped : Vm := ((Vm.new exAlphabet).run dropOps).toOption.getD (Vm.new [])

/-- The results can be empty although a candidate passes the threshold (with similarity 1, even): it
is transparent, has no references, and another candidate, itself below the threshold, has one. -/
theorem transparent_match_dropped : (Vm.new exAlphabet).run dropOps = .ok dropped ∧
    (∃ l, dropped.findCandidates exExt .default { exParams with scoreThreshold := 4/5 } ['a', 'b'] =
      .ok ([0, 1], l) ∧ (3, ⟨0, 2, 2, 2, true⟩) ∈ l) ∧
    similarity .exact .default 2 ⟨0, 2, 2, 2, true⟩ = 1 ∧
    dropped.findVariants exExt exConfig { exParams with scoreThreshold := 4/5 } ['a', 'b'] =
      .ok [] :=
  ⟨rfl, ⟨[(3, ⟨0, 2, 2, 2, true⟩), (4, ⟨1, 1, 0, 0, true⟩), (5, ⟨1, 1, 1, 0, true⟩)],
    by decide +kernel, by simp⟩, by decide +kernel, by decide +kernel⟩

/-- **C34**, what holds: if a candidate passes the threshold and it is not a transparent entry, the
results are not empty (also with late rescoring). -/
theorem results_nonempty_partial (m : Vm) (x : Ext) (cfg : Config) (p : Params)
    (input : List Char) (res : List VariantResult) (hw : cfg.weights.sum x.f64 ≠ 0)
    (hidx : m.index.isEmpty = false) (qs : List Nat) (l : List (Nat × Distance))
    (hl : m.findCandidates x cfg.weights p input = .ok (qs, l)) (y : Nat × Distance) (hy : y ∈ l)
    (v : VocabValue) (hv : m.decoder[y.1]? = some v)
    (ht : v.vocabtype.check .TRANSPARENT = false)
    (hthr : p.scoreThreshold ≤ similarity x.f64 cfg.weights qs.length y.2)
    (h : m.findVariants x cfg p input = .ok res) : res ≠ [] := by
  unfold Vm.findVariants at h
  rw [hidx, if_neg (by simp), hl] at h
  obtain ⟨hlen, mf, cands, _, _, h5, h6⟩ := scoreAndRank_ok hw h
  -- the candidate is scored
  have hscored : ∃ c ∈ scoredList m x.f64 cfg p input qs.length l, c.vocabId = y.1 := by
    have h0 : (⟨y.1, similarity x.f64 cfg.weights qs.length y.2,
        if m.haveFreq then x.f64.rnd v.frequency else 1, none⟩ : VariantResult) ∈
        l.filterMap (scored m x.f64 cfg.weights qs.length p.scoreThreshold) := by
      refine List.mem_filterMap.mpr ⟨y, hy, ?_⟩
      simp only [scored, hv, ge_iff_le, hthr, if_true]
    unfold scoredList
    simp only
    split
    · exact ⟨_, List.mem_map.mpr ⟨_, h0, rfl⟩, rfl⟩
    · exact ⟨_, h0, rfl⟩
  obtain ⟨c, hc, hcid⟩ := hscored
  have hcands : cands ≠ [] := by
    split at h5
    · exact List.ne_nil_of_mem ((expandVariants_spec h5 c).mpr ⟨c, hc, v, by rw [hcid]; exact hv,
        .inl ⟨rfl, ht⟩⟩)
    · rw [h5]; exact List.ne_nil_of_mem hc
  have hnorm : normalizeFreq x.f64 mf cands ≠ [] := by
    intro e
    have := congrArg List.length (normalizeFreq_map x.f64 mf cands)
    rw [e] at this
    simp only [List.map_nil, List.length_nil, List.length_map] at this
    exact hcands (List.length_eq_zero_iff.mp this.symm)
  have hrank : rankResults x.f64 p.freqWeight (normalizeFreq x.f64 mf cands) ≠ [] := by
    intro e
    have := (rankResults_perm x.f64 p.freqWeight (normalizeFreq x.f64 mf cands)).length_eq
    rw [e] at this
    exact hnorm (List.length_eq_zero_iff.mp this.symm)
  obtain ⟨a, k, hak⟩ := List.exists_cons_of_ne_nil hrank
  have hfull : ∃ a k, (if hasLinks m l then dedupIds (rankResults x.f64 p.freqWeight
      (normalizeFreq x.f64 mf cands)) else rankResults x.f64 p.freqWeight
      (normalizeFreq x.f64 mf cands)) = a :: k := by
    rw [hak]
    split
    · obtain ⟨k', h⟩ := dedupIds_cons a k
      exact ⟨a, k', h⟩
    · exact ⟨a, k, rfl⟩
  obtain ⟨a, k, hak⟩ := hfull
  rw [h6, hak]
  unfold Vm.prune
  simp only
  obtain ⟨k1, h1⟩ := crop_nonempty x.f64 p.freqWeight p.maxMatches a k
  rw [h1]
  have hlate : ∃ b k2, (if !cfg.confusables.isEmpty && !cfg.confusablesBeforePruning then
      rankResults x.f64 p.freqWeight (m.rescore x.f64 cfg input (a :: k1)) else a :: k1) =
      b :: k2 := by
    split
    · refine List.exists_cons_of_ne_nil fun e => ?_
      have := (rankResults_perm x.f64 p.freqWeight (m.rescore x.f64 cfg input (a :: k1))).length_eq
      rw [e] at this
      simp [Vm.rescore] at this
    · exact ⟨a, k1, rfl⟩
  obtain ⟨b, k2, h2⟩ := hlate
  rw [h2]
  obtain ⟨k3, h3⟩ := applyCutoff_nonempty x.f64 p.freqWeight p.cutoffThreshold b k2
  rw [h3]
  simp

example : linked.index.isEmpty = false ∧ (linked.decoder[3]?.map fun v =>
    v.vocabtype.check .TRANSPARENT) = some false ∧
    exParams.scoreThreshold ≤ similarity .exact .default 2 ⟨1, 1, 0, 0, true⟩ := by decide +kernel

/-! ## C32 -/

/-- three entries that match `a` equally well -/
def tieOps : List Op :=
  [.add ['a', 'b'] (some 3) {}, .add ['a', 'i', 'j'] (some 5) {}, .add ['a', 'c'] (some 7) {},
   .build exOrders]

/-- the model after `tieOps` -/
def tied : Vm := ((Vm.new exAlphabet).run tieOps).toOption.getD (Vm.new [])

/-- With `max_matches = 1` two results can be returned (if the first ones tie). -/
theorem max_matches_one_returns_two : (Vm.new exAlphabet).run tieOps = .ok tied ∧
    tied.findVariants exExt exConfig { exParams with maxMatches := 1 } ['a'] =
      .ok [⟨3, 3/8, 1, none⟩, ⟨4, 3/8, 1, none⟩] := ⟨rfl, by decide +kernel⟩

/-- With a frequency weight there can be more results than `max_matches`: the scan that looks for the
tie compares similarities with a weighted score. -/
theorem max_matches_exceeded_with_frequency :
    tied.findVariants exExt exConfig { exParams with maxMatches := 2, freqWeight := 1 } ['a'] =
      .ok [⟨3, 3/8, 1, none⟩, ⟨4, 3/8, 1, none⟩, ⟨5, 3/8, 1, none⟩] := by decide +kernel

theorem cutoffScan_keep {cropped : Rat} {i early : Nat} {l : List VariantResult} (h : 0 < early) :
    (cutoffScan cropped i early l).1 = early := by
  induction l generalizing i with
  | nil => rfl
  | cons x xs ih =>
    have e : (if x.distScore = cropped ∧ early = 0 then i else early) = early := by
      rw [if_neg (by omega)]
    simp only [cutoffScan, e]
    split
    · rfl
    · exact ih

theorem cutoffScan_early {cropped : Rat} {l : List VariantResult} :
    ∀ {i j : Nat} {x : VariantResult}, l[j]? = some x → x.distScore = cropped → 1 ≤ i + j →
      (∀ k y, k ≤ j → l[k]? = some y → cropped ≤ y.distScore) →
      1 ≤ (cutoffScan cropped i 0 l).1 ∧ (cutoffScan cropped i 0 l).1 ≤ i + j := by
  induction l with
  | nil => intro i j x h; simp at h
  | cons a l ih =>
    intro i j x hx he hij hle
    have ha : ¬ a.distScore < cropped := not_lt.mpr (hle 0 a (Nat.zero_le _) rfl)
    simp only [cutoffScan, ha, if_false, and_true]
    cases j with
    | zero =>
      simp only [List.getElem?_cons_zero, Option.some.injEq] at hx
      subst hx
      rw [if_pos he, cutoffScan_keep (by omega)]
      omega
    | succ j =>
      by_cases h0 : a.distScore = cropped
      · rw [if_pos h0]
        by_cases hi : i = 0
        · subst hi
          have := ih (i := 0 + 1) (j := j) hx he (by omega) fun k y hk hy =>
            hle (k + 1) y (by omega) hy
          omega
        · rw [cutoffScan_keep (by omega)]; omega
      · rw [if_neg h0]
        have := ih (i := i + 1) (j := j) hx he (by omega) fun k y hk hy =>
          hle (k + 1) y (by omega) hy
        omega

theorem crop_length (r : Rounding) {n : Nat} (hn : 1 ≤ n) {l : List VariantResult}
    (hs : l.Pairwise fun a b => b.distScore ≤ a.distScore) : (crop r 0 n l).length ≤ max 2 n := by
  unfold crop
  rw [if_pos (show n > 0 from hn)]
  split
  · next last cropped h1 h2 =>
    have e : ∀ z : VariantResult, z.score r 0 = z.distScore := fun z => by
      rw [VariantResult.score, if_pos rfl]
    split
    · rw [List.length_take]; omega
    · next hlt =>
      rw [e, e] at hlt
      have hget := List.pairwise_iff_getElem.mp hs
      obtain ⟨hb1, g1⟩ := List.getElem?_eq_some_iff.mp h1
      obtain ⟨hb2, g2⟩ := List.getElem?_eq_some_iff.mp h2
      have heq : last.distScore = cropped.distScore := by
        have := hget (n - 1) n hb1 hb2 (by omega)
        rw [g1, g2] at this
        exact le_antisymm (not_lt.mp hlt) this
      have hle : ∀ k y, k ≤ n → l[k]? = some y → cropped.distScore ≤ y.distScore := by
        intro k y hk hy
        obtain ⟨hb, g⟩ := List.getElem?_eq_some_iff.mp hy
        rcases Nat.lt_or_ge k n with h | h
        · have := hget k n hb hb2 h
          rwa [g, g2] at this
        · have : k = n := by omega
          subst this
          rw [g] at g2
          rw [g2]
      have hearly : 1 ≤ (cutoffScan (cropped.score r 0) 0 0 l).1 ∧
          (cutoffScan (cropped.score r 0) 0 0 l).1 ≤ max 1 (n - 1) := by
        rw [e]
        rcases Nat.lt_or_ge n 2 with h | h
        · have := cutoffScan_early (i := 0) h2 rfl (by omega) (fun k y hk => hle k y hk)
          omega
        · have := cutoffScan_early (i := 0) h1 heq (by omega) (fun k y hk => hle k y (by omega))
          omega
      generalize cutoffScan (cropped.score r 0) 0 0 l = el at hearly
      obtain ⟨early, late⟩ := el
      simp only at hearly ⊢
      rw [if_pos (by omega), List.length_take]
      omega
  · next hno =>
    cases h2 : l[n]? with
    | none =>
      have := List.getElem?_eq_none_iff.mp h2
      omega
    | some c =>
      obtain ⟨hb2, _⟩ := List.getElem?_eq_some_iff.mp h2
      exact absurd h2 (hno _ _ (List.getElem?_eq_getElem (by omega)))

/-- **C32**, what holds: without frequency weight at most `max_matches` results are returned, or two
if that is 1.  (Missing: with a frequency weight, and with `max_matches = 1`, the claim is false, see
the two theorems above.) -/
theorem max_matches_partial (m : Vm) (x : Ext) (cfg : Config) (p : Params) (input : List Char)
    (res : List VariantResult) (hw : cfg.weights.sum x.f64 ≠ 0) (hfw : p.freqWeight = 0)
    (hn : 1 ≤ p.maxMatches) (h : m.findVariants x cfg p input = .ok res) :
    res.length ≤ max 2 p.maxMatches := by
  by_cases hres : res = []
  · subst hres; simp
  · obtain ⟨qs, l, h1, h2⟩ := findVariants_ok hres h
    obtain ⟨hlen, mf, cands, _, _, _, h6⟩ := scoreAndRank_ok hw h2
    rw [h6]
    have hsorted : (if hasLinks m l then dedupIds (rankResults x.f64 p.freqWeight
        (normalizeFreq x.f64 mf cands)) else rankResults x.f64 p.freqWeight
        (normalizeFreq x.f64 mf cands)).Pairwise fun a b => b.distScore ≤ a.distScore := by
      have hs := rankResults_sorted x.f64 p.freqWeight (normalizeFreq x.f64 mf cands)
      have hs' : (rankResults x.f64 p.freqWeight (normalizeFreq x.f64 mf cands)).Pairwise
          fun a b => b.distScore ≤ a.distScore := hs.imp fun h => by
        have := rankLe_score x.f64 hfw.ge h
        simpa only [VariantResult.score, if_pos hfw] using this
      split
      · exact hs'.sublist (dedupIds_sublist _)
      · exact hs'
    generalize (if hasLinks m l then dedupIds (rankResults x.f64 p.freqWeight
        (normalizeFreq x.f64 mf cands)) else rankResults x.f64 p.freqWeight
        (normalizeFreq x.f64 mf cands)) = ranked at hsorted
    have hcrop := crop_length x.f64 hn hsorted
    unfold Vm.prune
    simp only
    refine (applyCutoff_prefix _ _ _ _).length_le.trans ?_
    rw [hfw]
    split
    · rw [(rankResults_perm _ _ _).length_eq, Vm.rescore, List.length_map]; exact hcrop
    · exact hcrop

example : tied.findVariants exExt exConfig { exParams with maxMatches := 2 } ['a'] =
    .ok [⟨3, 3/8, 1, none⟩, ⟨4, 3/8, 1, none⟩] := by decide +kernel

/-- **C32**: `max_matches = 0` removes nothing. -/
theorem max_matches_zero (r : Rounding) (fw : Rat) (l : List VariantResult) : crop r fw 0 l = l := rfl

/-! ## C33 -/

/-- **C33**: on a list in order of score, a cutoff `c ≥ 1` keeps the first result and exactly the
others that score more than the best divided by `c`. -/
theorem cutoff_exact (r : Rounding) (fw c : Rat) (hc : 1 ≤ c) (a : VariantResult)
    (l : List VariantResult) (hs : (a :: l).Pairwise fun a b => b.score r fw ≤ a.score r fw) :
    applyCutoff r fw c (a :: l) = a :: l.filter fun y => r.rnd (a.score r fw / c) < y.score r fw :=
  applyCutoff_spec r hc a l hs

example : applyCutoff .exact 0 2 [⟨3, 1, 1, none⟩, ⟨4, 3/4, 1, none⟩, ⟨5, 1/2, 1, none⟩] =
    [⟨3, 1, 1, none⟩, ⟨4, 3/4, 1, none⟩] := by decide +kernel

/-- **C33**: a cutoff below 1 removes nothing. -/
theorem cutoff_off (r : Rounding) (fw c : Rat) (hc : c < 1) (l : List VariantResult) :
    applyCutoff r fw c l = l := by
  unfold applyCutoff
  rw [if_neg (not_le.mpr hc)]

example : applyCutoff .exact 0 (1/2) [⟨3, 1, 1, none⟩, ⟨5, 1/8, 1, none⟩] =
    [⟨3, 1, 1, none⟩, ⟨5, 1/8, 1, none⟩] := by decide +kernel

/-- **C33**, for the results of a search: all but the first score more than the best divided by `c`,
and scores never increase. -/
theorem results_close_to_best (m : Vm) (x : Ext) (cfg : Config) (p : Params) (input : List Char)
    (res : List VariantResult) (hw : cfg.weights.sum x.f64 ≠ 0) (hfw : 0 ≤ p.freqWeight)
    (h : m.findVariants x cfg p input = .ok res) :
    res.Pairwise (fun a b => b.score x.f64 p.freqWeight ≤ a.score x.f64 p.freqWeight) ∧
    (1 ≤ p.cutoffThreshold → ∀ best rest, res = best :: rest → ∀ y ∈ rest,
      x.f64.rnd (best.score x.f64 p.freqWeight / p.cutoffThreshold) <
        y.score x.f64 p.freqWeight) := by
  by_cases hres : res = []
  · subst hres; simp
  · obtain ⟨qs, l, h1, h2⟩ := findVariants_ok hres h
    obtain ⟨hlen, mf, cands, _, _, _, h6⟩ := scoreAndRank_ok hw h2
    have hsorted : (if hasLinks m l then dedupIds (rankResults x.f64 p.freqWeight
        (normalizeFreq x.f64 mf cands)) else rankResults x.f64 p.freqWeight
        (normalizeFreq x.f64 mf cands)).Pairwise
        fun a b => b.score x.f64 p.freqWeight ≤ a.score x.f64 p.freqWeight := by
      have hs := (rankResults_sorted x.f64 p.freqWeight (normalizeFreq x.f64 mf cands)).imp
        fun h => rankLe_score x.f64 hfw h
      split
      · exact hs.sublist (dedupIds_sublist _)
      · exact hs
    generalize (if hasLinks m l then dedupIds (rankResults x.f64 p.freqWeight
        (normalizeFreq x.f64 mf cands)) else rankResults x.f64 p.freqWeight
        (normalizeFreq x.f64 mf cands)) = ranked at hsorted h6
    unfold Vm.prune at h6
    simp only at h6
    have hlate : (if !cfg.confusables.isEmpty && !cfg.confusablesBeforePruning then
        rankResults x.f64 p.freqWeight (m.rescore x.f64 cfg input
          (crop x.f64 p.freqWeight p.maxMatches ranked))
        else crop x.f64 p.freqWeight p.maxMatches ranked).Pairwise
        fun a b => b.score x.f64 p.freqWeight ≤ a.score x.f64 p.freqWeight := by
      split
      · exact (rankResults_sorted _ _ _).imp fun h => rankLe_score x.f64 hfw h
      · exact hsorted.sublist (crop_prefix _ _ _ _).sublist
    generalize (if !cfg.confusables.isEmpty && !cfg.confusablesBeforePruning then
        rankResults x.f64 p.freqWeight (m.rescore x.f64 cfg input
          (crop x.f64 p.freqWeight p.maxMatches ranked))
        else crop x.f64 p.freqWeight p.maxMatches ranked) = late at hlate h6
    refine ⟨?_, ?_⟩
    · rw [h6]; exact hlate.sublist (applyCutoff_prefix _ _ _ _).sublist
    · intro hc best rest hr y hy
      rw [hr] at h6
      cases late with
      | nil =>
        unfold applyCutoff at h6
        rw [if_pos hc] at h6
        cases h6
      | cons a l' =>
        rw [cutoff_exact x.f64 p.freqWeight _ hc a l' hlate] at h6
        cases h6
        exact of_decide_eq_true (List.mem_filter.mp hy).2

example : exParams.cutoffThreshold = 2 ∧ plain.findVariants exExt exConfig exParams ['a', 'b'] =
    .ok [⟨3, 1, 1, none⟩, ⟨5, 11/16, 1, none⟩] := by decide +kernel

/-! ## C35 -/

/-- **C35**: the frequency scores of the results lie between 0 and 1. -/
theorem frequency_scores_between (m : Vm) (x : Ext) (cfg : Config) (p : Params) (input : List Char)
    (res : List VariantResult) (hw : cfg.weights.sum x.f64 ≠ 0)
    (h : m.findVariants x cfg p input = .ok res) :
    ∀ y ∈ res, 0 ≤ y.freqScore ∧ y.freqScore ≤ 1 := by
  intro y hy
  obtain ⟨qs, l, h1, h2⟩ := findVariants_ok (List.ne_nil_of_mem hy) h
  obtain ⟨hlen, mf, cands, hmf, h4, h5, h6⟩ := scoreAndRank_ok hw h2
  have hfreq : ∀ n : Nat, 0 ≤ x.f64.rnd (n : Rat) := fun n => rnd_nonneg _ (Nat.cast_nonneg n)
  have hscored : ∀ z ∈ scoredList m x.f64 cfg p input qs.length l, 0 ≤ z.freqScore := by
    intro z hz
    obtain ⟨_, _, item, _, _, e, _⟩ := mem_scoredList hz
    rw [e]
    split
    · exact hfreq _
    · exact zero_le_one
  have hcands : ∀ z ∈ cands, 0 ≤ z.freqScore := by
    split at h5
    · intro z hz
      obtain ⟨c, hc, item, _, hh⟩ := (expandVariants_spec h5 z).mp hz
      rcases hh with ⟨rfl, _⟩ | ⟨t, s, tg, _, _, rfl⟩
      · exact hscored z hc
      · exact le_min (hfreq _) (hscored c hc)
    · rw [h5]; exact hscored
  rw [h6] at hy
  obtain ⟨z, hz, _, e, _⟩ := mem_prune hy
  obtain ⟨u, hu, _, _, _, e'⟩ := mem_normalizeFreq (mem_ranked hz)
  rw [e, e']
  split
  · next hpos =>
    refine ⟨rnd_nonneg _ (div_nonneg (hcands u hu) hmf), rnd_le_one _ ?_⟩
    rw [div_le_one hpos]
    exact h4 u hu
  · next hpos =>
    have : mf = 0 := le_antisymm (not_lt.mp hpos) hmf
    exact ⟨hcands u hu, (h4 u hu).trans (this ▸ zero_le_one)⟩

example : ({ plain with haveFreq := true }).findVariants exExt' exConfig exParams ['a', 'a', 'b'] =
    .ok [⟨5, 1, 1, none⟩, ⟨3, 681/1024, 219/512, none⟩] := by decide +kernel

/-- **C35**: without links, the order of the frequency scores is that of the frequencies of the
entries. -/
theorem frequency_scores_ordered (m : Vm) (x : Ext) (cfg : Config) (p : Params) (input : List Char)
    (res : List VariantResult) (hlinks : NoLinks m) (hw : cfg.weights.sum x.f64 ≠ 0)
    (h : m.findVariants x cfg p input = .ok res) :
    ∀ y ∈ res, ∀ y' ∈ res, ∀ v v', m.decoder[y.vocabId]? = some v →
      m.decoder[y'.vocabId]? = some v' → v.frequency ≤ v'.frequency → y.freqScore ≤ y'.freqScore := by
  intro y hy y' hy' v v' hv hv' hle
  obtain ⟨qs, l, h1, h2⟩ := findVariants_ok (List.ne_nil_of_mem hy) h
  obtain ⟨hlen, mf, cands, hmf, h4, h5, h6⟩ := scoreAndRank_ok hw h2
  rw [noLinks_hasLinks hlinks] at h5 h6
  simp only [Bool.false_eq_true, if_false] at h5 h6
  have key : ∀ z ∈ res, ∀ w, m.decoder[z.vocabId]? = some w →
      z.freqScore = if mf > 0 then
        x.f64.rnd ((if m.haveFreq then x.f64.rnd w.frequency else 1) / mf)
      else (if m.haveFreq then x.f64.rnd w.frequency else 1) := by
    intro z hz w hw
    rw [h6] at hz
    obtain ⟨u, hu, e1, e2, _⟩ := mem_prune hz
    obtain ⟨c, hc, e1', _, _, e2'⟩ := mem_normalizeFreq ((rankResults_perm _ _ _).mem_iff.mp hu)
    rw [h5] at hc
    obtain ⟨_, _, item, hitem, e1'', e2'', _⟩ := mem_scoredList hc
    rw [← e1'', ← e1', ← e1, hw] at hitem
    cases hitem
    rw [e2, e2', e2'']
  rw [key y hy v hv, key y' hy' v' hv']
  have hm : (if m.haveFreq then x.f64.rnd (v.frequency : Rat) else 1) ≤
      (if m.haveFreq then x.f64.rnd (v'.frequency : Rat) else 1) := by
    split
    · exact x.f64.mono _ _ (Nat.cast_le.mpr hle)
    · exact le_rfl
  split
  · exact x.f64.mono _ _ (div_le_div_of_nonneg_right hm hmf)
  · exact hm

example : NoLinks { plain with haveFreq := true } ∧
    ({ plain with haveFreq := true }).findVariants exExt exConfig
      { exParams with cutoffThreshold := 0 } ['a', 'a', 'b'] =
    .ok [⟨5, 1, 1, none⟩, ⟨3, 2/3, 3/7, none⟩, ⟨4, 3/8, 5/7, none⟩, ⟨6, 1/3, 1/7, none⟩] := by
  decide +kernel

/-! ## C36 -/

/-- With links, an entry can be returned more than once: duplicates are removed only if they are
adjacent. -/
theorem duplicate_results : linked.findVariants exExt exConfig exParams ['b', 'b', 'a'] =
    .ok [⟨3, 3/5, 1, some 4⟩, ⟨5, 1/2, 1, some 6⟩, ⟨3, 1/3, 1, none⟩, ⟨5, 1/3, 1, none⟩] := by
  decide +kernel

/-- **C36**, what holds: without links no entry is returned twice.  (With links, duplicates that are
not adjacent stay, see above.) -/
theorem no_duplicate_results_partial (alphabet : Alphabet) (hne : NoEmpty alphabet)
    (hlen : alphabet.length ≤ 166) (ops : List Op) (o : Orders) (m : Vm)
    (h : (Vm.new alphabet).run (ops ++ [.build o]) = .ok m)
    (hlinks : (ops ++ [Op.build o]).flatMap opLinks = [])
    (hshort : ∀ v ∈ m.decoder, v.text.length < 65536) (x : Ext) (cfg : Config) (p : Params)
    (hw : cfg.weights.sum x.f64 ≠ 0) (input : List Char) (hin : input.length ≤ 65280)
    (res : List VariantResult) (hres : m.findVariants x cfg p input = .ok res) :
    (res.map VariantResult.vocabId).Nodup := by
  by_cases h0 : res = []
  · subst h0; simp
  obtain ⟨qs, l, h1, h2⟩ := findVariants_ok h0 hres
  obtain ⟨hlen0, mf, cands, hmf, h4, h5, h6⟩ := scoreAndRank_ok hw h2
  have hin0 : input ≠ [] := by
    rintro rfl
    simp only [Vm.findCandidates, normalizeToAlphabet, normalizeLoop, bind_ok, pure_ok,
      Prod.mk.injEq] at h1
    obtain ⟨ns, e1, _, _, _, _, _, _, rfl, _⟩ := h1
    cases e1
    exact hlen0 rfl
  obtain ⟨qs', hqs'⟩ := encodes_exists hne (alphabet.length + 1) input
  have hl := encodes_length hqs'
  obtain ⟨l', h1', hnd, _, _⟩ := candidates_total alphabet hne hlen ops o m h hshort x cfg.weights p
    input hin0 qs' hqs' (by omega)
  rw [h1] at h1'
  cases h1'
  rw [noLinks_hasLinks (noLinks_of_run h hlinks)] at h5 h6
  simp only [Bool.false_eq_true, if_false] at h5 h6
  have hbase : ((l.filterMap (scored m x.f64 cfg.weights qs.length p.scoreThreshold)).map
      VariantResult.vocabId).Nodup := by
    have := scored_map (m := m) x.f64 cfg.weights qs.length p.scoreThreshold (candidate_ids h1)
    have e := congrArg (List.map Prod.fst) this
    rw [List.map_map, List.map_map] at e
    have e' : (l.filterMap (scored m x.f64 cfg.weights qs.length p.scoreThreshold)).map
        VariantResult.vocabId = (l.filter fun y => p.scoreThreshold ≤
          similarity x.f64 cfg.weights qs.length y.2).map Prod.fst := e
    rw [e']
    exact hnd.sublist (List.filter_sublist.map _)
  have hscored : ((scoredList m x.f64 cfg p input qs.length l).map VariantResult.vocabId).Nodup := by
    unfold scoredList
    simp only
    split
    · unfold Vm.rescore
      rw [List.map_map]
      exact hbase
    · exact hbase
  have hranked : ((rankResults x.f64 p.freqWeight (normalizeFreq x.f64 mf cands)).map
      VariantResult.vocabId).Nodup := by
    refine ((rankResults_perm _ _ _).map _).nodup_iff.mpr ?_
    have e := congrArg (List.map Prod.fst) (normalizeFreq_map x.f64 mf cands)
    rw [List.map_map, List.map_map] at e
    have e' : (normalizeFreq x.f64 mf cands).map VariantResult.vocabId =
      cands.map VariantResult.vocabId := e
    rw [e', h5]
    exact hscored
  rw [h6]
  unfold Vm.prune
  simp only
  refine List.Nodup.sublist ((applyCutoff_prefix _ _ _ _).sublist.map _) ?_
  have hc := hranked.sublist ((crop_prefix x.f64 p.freqWeight p.maxMatches _).sublist.map _)
  split
  · refine ((rankResults_perm _ _ _).map _).nodup_iff.mpr ?_
    unfold Vm.rescore
    rw [List.map_map]
    exact hc
  · exact hc

example : plainOps = plainOps.dropLast ++ [.build exOrders] ∧ plainOps.flatMap opLinks = [] ∧
    plain.findVariants exExt exConfig exParams ['a', 'b'] =
      .ok [⟨3, 1, 1, none⟩, ⟨5, 11/16, 1, none⟩] := ⟨rfl, rfl, by decide +kernel⟩

/-! ## C37 -/

/-- **C37**: what expansion returns: the results that are not transparent, unchanged, and for every
reference of a result the reference, with the product of the scores, the smaller frequency, and the
intermediary. -/
theorem expansion_exact (m : Vm) (r : Rounding) (l l' : List VariantResult)
    (h : m.expandVariants r l = .ok l') (y : VariantResult) :
    y ∈ l' ↔ ∃ x ∈ l, ∃ item, m.decoder[x.vocabId]? = some item ∧
      ((y = x ∧ item.vocabtype.check .TRANSPARENT = false) ∨
       ∃ t s target, VariantReference.variantOf t s ∈ item.variants.getD [] ∧
         m.decoder[t]? = some target ∧
         y = ⟨t, r.rnd (x.distScore * s), min (r.rnd target.frequency) x.freqScore,
           some x.vocabId⟩) := expandVariants_spec h y

example : linked.expandVariants .exact [⟨4, 1/2, 2, none⟩, ⟨5, 1, 5, none⟩, ⟨3, 1, 1, none⟩] =
    .ok [⟨3, 9/20, 2, some 4⟩, ⟨3, 1/2, 3, some 5⟩, ⟨5, 1, 5, none⟩, ⟨3, 1, 1, none⟩] := by
  decide +kernel

/-- **C37**: if some candidate has links, no transparent entry is returned except as the reference
of another result. -/
theorem transparent_only_as_reference_partial (m : Vm) (x : Ext) (cfg : Config) (p : Params)
    (input : List Char) (res : List VariantResult) (hw : cfg.weights.sum x.f64 ≠ 0)
    (qs : List Nat) (l : List (Nat × Distance))
    (hl : m.findCandidates x cfg.weights p input = .ok (qs, l))
    (hex : ∃ y ∈ l, ∃ v, m.decoder[y.1]? = some v ∧ v.variants ≠ none)
    (h : m.findVariants x cfg p input = .ok res) :
    ∀ y ∈ res, ∀ v, m.decoder[y.vocabId]? = some v → v.vocabtype.check .TRANSPARENT = true →
      ∃ z, y.via = some z := by
  intro y hy v hv ht
  obtain ⟨qs', l', h1, h2⟩ := findVariants_ok (List.ne_nil_of_mem hy) h
  rw [hl] at h1
  cases h1
  obtain ⟨hlen, mf, cands, _, _, h5, h6⟩ := scoreAndRank_ok hw h2
  have hlinks : hasLinks m l = true := by
    obtain ⟨y, hy, v, hv, hn⟩ := hex
    refine List.any_eq_true.mpr ⟨y, hy, ?_⟩
    rw [hv]
    exact Option.isSome_iff_ne_none.mpr hn
  rw [hlinks, if_pos rfl] at h5
  rw [h6] at hy
  obtain ⟨z, hz, e1, _, e3⟩ := mem_prune hy
  obtain ⟨u, hu, e1', _, e3', _⟩ := mem_normalizeFreq (mem_ranked hz)
  obtain ⟨c, hc, item, hitem, hh⟩ := (expandVariants_spec h5 u).mp hu
  rcases hh with ⟨rfl, hnt⟩ | ⟨t, s, tg, _, _, rfl⟩
  · rw [← e1', ← e1, hv] at hitem
    cases hitem
    rw [ht] at hnt
    cases hnt
  · exact ⟨_, e3.trans e3'⟩

/-- `ba` (entry 4, transparent) matches exactly, but only its reference `ab` is returned -/
example : (linked.decoder[4]?.map fun v => (v.text, v.vocabtype.check .TRANSPARENT)) =
      some (['b', 'a'], true) ∧
    linked.findVariants exExt exConfig exParams ['b', 'a'] = .ok [⟨3, 9/10, 1, some 4⟩] := by
  decide +kernel

/-- Without any links among the candidates a transparent entry is returned like any other. -/
theorem transparent_returned_without_links :
    (Vm.new exAlphabet).run [.add ['a', 'b'] none
      { vocabType := VocabType.INDEXED.union .TRANSPARENT }, .build exOrders] =
      .ok (((Vm.new exAlphabet).run [.add ['a', 'b'] none
        { vocabType := VocabType.INDEXED.union .TRANSPARENT },
        .build exOrders]).toOption.getD (Vm.new [])) ∧
    (((Vm.new exAlphabet).run [.add ['a', 'b'] none
        { vocabType := VocabType.INDEXED.union .TRANSPARENT },
        .build exOrders]).toOption.getD (Vm.new [])).findVariants exExt exConfig exParams ['a', 'b'] =
      .ok [⟨3, 1, 1, none⟩] := ⟨rfl, by decide +kernel⟩

/-! ## C39 -/

/-- **C39**: on a model that was built last, whose references are entries, with weights of non-zero
sum, a search for a non-empty text of at most 65280 characters returns normally. -/
theorem find_variants_total (alphabet : Alphabet) (hne : NoEmpty alphabet)
    (hlen : alphabet.length ≤ 166) (ops : List Op) (o : Orders) (m : Vm)
    (h : (Vm.new alphabet).run (ops ++ [.build o]) = .ok m)
    (hrefs : ∀ y ∈ (ops ++ [Op.build o]).flatMap opLinks, y.1 < m.decoder.length)
    (hshort : ∀ v ∈ m.decoder, v.text.length < 65536) (x : Ext) (cfg : Config) (p : Params)
    (hw : cfg.weights.sum x.f64 ≠ 0) (input : List Char) (hin0 : input ≠ [])
    (hin : input.length ≤ 65280) : ∃ res, m.findVariants x cfg p input = .ok res := by
  obtain ⟨qs, hqs⟩ := encodes_exists hne (alphabet.length + 1) input
  have hl := encodes_length hqs
  obtain ⟨l, h1, _, _, _⟩ := candidates_total alphabet hne hlen ops o m h hshort x cfg.weights p
    input hin0 qs hqs (by omega)
  unfold Vm.findVariants
  split
  · exact ⟨_, rfl⟩
  · rw [h1]
    refine scoreAndRank_total hw ?_ (expandVariants_total ?_ (refsExist_of_run h hrefs))
    · intro e
      have := List.length_eq_zero_iff.mp e
      subst this
      exact hin0 (encodes_nil_text hqs)
    · intro y hy
      obtain ⟨c, _, item, hitem, e, _⟩ := mem_scoredList hy
      rw [e]
      exact (List.getElem?_eq_some_iff.mp hitem).1

example : linkOps = linkOps.dropLast ++ [.build exOrders] ∧
    linkOps.flatMap opLinks = [(3, 9/10), (3, 1/2), (5, 1/2)] ∧ linked.decoder.length = 7 ∧
    Weights.default.sum exExt.f64 ≠ 0 := ⟨rfl, rfl, rfl, by decide +kernel⟩

/-- On the empty input a search panics if there is anything in the index. -/
theorem empty_input_panics (m : Vm) (x : Ext) (cfg : Config) (p : Params)
    (h : m.index.isEmpty = false) : ∃ e, m.findVariants x cfg p [] = .error e := by
  cases hr : m.findVariants x cfg p [] with
  | error e => exact ⟨e, rfl⟩
  | ok res =>
    unfold Vm.findVariants at hr
    rw [h, if_neg (by simp), bind_ok] at hr
    obtain ⟨⟨qs, l⟩, h1, h2⟩ := hr
    simp only [Vm.findCandidates, normalizeToAlphabet, normalizeLoop, bind_ok, pure_ok,
      Prod.mk.injEq] at h1
    obtain ⟨ns, e1, _, _, _, _, _, _, rfl, _⟩ := h1
    cases e1
    cases h2

example : plain.index.isEmpty = false := rfl

/-- Before `build` a search returns nothing. -/
theorem unbuilt_returns_nothing (alphabet : Alphabet) (ops : List Op) (m : Vm)
    (h : (Vm.new alphabet).run ops = .ok m)
    (hnb : ∀ op ∈ ops, (∃ t f p, op = .add t f p) ∨ (∃ r t s f p, op = .addVariant r t s f p) ∨
      ∃ r v s, op = .addVariantById r v s) (x : Ext) (cfg : Config) (p : Params)
    (input : List Char) : m.findVariants x cfg p input = .ok [] := by
  have key : ∀ (ops : List Op) (m0 m : Vm), m0.index = [] → m0.run ops = .ok m →
      (∀ op ∈ ops, (∃ t f p, op = .add t f p) ∨ (∃ r t s f p, op = .addVariant r t s f p) ∨
        ∃ r v s, op = .addVariantById r v s) → m.index = [] := by
    intro ops
    induction ops with
    | nil => intro m0 m h0 h _; cases h; exact h0
    | cons op ops ih =>
      intro m0 m h0 h hops
      simp only [Vm.run, bind_ok] at h
      obtain ⟨m1, h1, h2⟩ := h
      have hadd : ∀ {t f q id} {m2 : Vm}, m0.addToVocabulary t f q = .ok (m2, id) →
          m2.index = [] := by
        intro t f q id m2 h
        rcases add_cases h with ⟨item, freq, he, hd, _, _, rfl⟩ | ⟨norm, he, rfl, _, hn, hsz, rfl⟩
        · exact h0
        · exact h0
      have hid : ∀ (m2 : Vm) r v s, m2.index = [] → (m2.addVariantById r v s).1.index = [] := by
        intro m2 r v s h
        rw [(addVariantById_core m2 r v s).1]
        exact h
      refine ih m1 m ?_ h2 fun o ho => hops o (List.mem_cons_of_mem _ ho)
      rcases hops op List.mem_cons_self with ⟨t, f, q, rfl⟩ | ⟨r, t, s, f, q, rfl⟩ | ⟨r, v, s, rfl⟩
      · simp only [Vm.step, bind_ok, pure_ok] at h1
        obtain ⟨⟨m2, id⟩, h1, rfl⟩ := h1
        exact hadd h1
      · simp only [Vm.step, Vm.addVariant, bind_ok, pure_ok] at h1
        obtain ⟨⟨m2, b⟩, ⟨⟨m3, id⟩, h1, h3⟩, rfl⟩ := h1
        have := hid m3 r id s (hadd h1)
        rw [h3] at this
        exact this
      · simp only [Vm.step, Except.ok.injEq] at h1
        subst h1
        exact hid m0 r v s h0
  unfold Vm.findVariants
  rw [key ops _ m rfl h hnb]
  rfl

example : (Vm.new exAlphabet).run plainOps.dropLast = .ok
    (((Vm.new exAlphabet).run plainOps.dropLast).toOption.getD (Vm.new [])) := rfl

/-- A reference to an entry that does not exist, which `add_variant_by_id` accepts, makes a search
panic. -/
theorem dangling_reference_panics :
    (((Vm.new exAlphabet).run [.add ['a', 'b'] none {}, .addVariantById 9 3 (1/2),
      .build exOrders]).toOption.map fun m => m.findVariants exExt exConfig exParams ['a', 'b']) =
      some (.error .expect) := by decide +kernel

/-! ## C22 -/

/-- **C22**: the results of a search do not depend on the iteration order of the map of lookups. -/
theorem find_variants_order_independent (m : Vm) (x : Ext) (lo : LookupOrder) (cfg : Config)
    (p : Params) (input : List Char) :
    m.findVariants x cfg p input = m.findVariants { x with lookups := lo } cfg p input := by
  unfold Vm.findVariants
  rw [candidates_order_independent m x lo cfg.weights p input]

example : plain.findVariants { exExt with lookups := exLookups' } exConfig exParams ['a', 'b'] =
    .ok [⟨3, 1, 1, none⟩, ⟨5, 11/16, 1, none⟩] := by decide +kernel

end Verif.Props
