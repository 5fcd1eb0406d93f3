import Verif.Props.Rank
import Verif.Spec.Shown
import Mathlib.Data.List.TakeWhile

/-!
# Exact forms of the properties of pruning and expansion (C32, C34, C36)
-/
namespace Verif.Props
open Verif.Model Verif.Spec Verif.Lemmas

/-! ## C32 -/

theorem cutoffScan_exact {s : Rat} {l : List VariantResult} :
    ∀ {i : Nat}, 1 ≤ i → (l.Pairwise fun a b => b.distScore ≤ a.distScore) →
      (∃ y ∈ l, y.distScore = s) →
      (cutoffScan s i 0 l).1 = i + l.countP (fun y => s < y.distScore) := by
  induction l with
  | nil => rintro i _ _ ⟨y, hy, _⟩; cases hy
  | cons a l ih =>
    intro i hi hs hex
    have hle := (List.pairwise_cons.mp hs).1
    rcases lt_trichotomy a.distScore s with h | h | h
    · obtain ⟨y, hy, e⟩ := hex
      rcases List.mem_cons.mp hy with rfl | hy
      · exact absurd e h.ne
      · exact absurd (hle y hy) (by rw [e]; exact not_le.mpr h)
    · have hn : ¬ a.distScore < s := h.not_lt
      simp only [cutoffScan, h, true_and, if_true, lt_irrefl, if_false]
      rw [cutoffScan_keep (by omega), List.countP_eq_zero.mpr]
      · rfl
      · intro y hy
        simp only [decide_eq_true_eq, not_lt]
        rcases List.mem_cons.mp hy with rfl | hy
        · exact h.le
        · exact (hle y hy).trans h.le
    · simp only [cutoffScan, h.ne', false_and, if_false, h.not_gt]
      rw [ih (by omega) hs.of_cons, List.countP_cons, if_pos (by simpa using h)]
      · omega
      · obtain ⟨y, hy, e⟩ := hex
        rcases List.mem_cons.mp hy with rfl | hy
        · exact absurd e h.ne'
        · exact ⟨y, hy, e⟩

theorem countP_sorted {s : Rat} {l : List Rat} (hs : l.Pairwise fun a b => b ≤ a) :
    ∀ i t, l[i]? = some t → (s < t ↔ i < l.countP (fun t => s < t)) := by
  induction l with
  | nil => intro i t h; simp at h
  | cons a l ih =>
    intro i t ht
    have hle := (List.pairwise_cons.mp hs).1
    cases i with
    | zero =>
      simp only [List.getElem?_cons_zero, Option.some.injEq] at ht
      subst ht
      constructor
      · intro h; rw [List.countP_cons, if_pos (by simpa using h)]; omega
      · intro h
        obtain ⟨y, hy, hh⟩ := List.countP_pos_iff.mp h
        simp only [decide_eq_true_eq] at hh
        rcases List.mem_cons.mp hy with rfl | hy
        · exact hh
        · exact lt_of_lt_of_le hh (hle y hy)
    | succ i =>
      simp only [List.getElem?_cons_succ] at ht
      have := ih hs.of_cons i t ht
      rw [this, List.countP_cons]
      split
      · omega
      · next h =>
        simp only [decide_eq_true_eq, not_lt] at h
        have h0 : l.countP (fun t => s < t) = 0 := List.countP_eq_zero.mpr fun y hy => by
          simp only [decide_eq_true_eq, not_lt]
          exact (hle y hy).trans h
        omega

/-- **C32**, exactly: without frequency weight and for results in order of their scores, cropping
keeps the first ones, as many as `keptCount` says. -/
theorem max_matches_exact (r : Rounding) (n : Nat) (hn : 1 ≤ n) (l : List VariantResult)
    (hs : l.Pairwise fun a b => b.distScore ≤ a.distScore) :
    crop r 0 n l = l.take (keptCount n (l.map VariantResult.distScore)) := by
  have e : ∀ z : VariantResult, z.score r 0 = z.distScore := fun z => by
    rw [VariantResult.score, if_pos rfl]
  have hs' : (l.map VariantResult.distScore).Pairwise fun a b => b ≤ a :=
    List.pairwise_map.mpr hs
  unfold crop keptCount
  rw [if_pos (show n > 0 from hn), List.getElem?_map]
  cases h2 : l[n]? with
  | none =>
    simp only [Option.map_none, List.length_map]
    rw [List.take_length]
    cases l[n - 1]? <;> rfl
  | some cropped =>
    obtain ⟨hb2, g2⟩ := List.getElem?_eq_some_iff.mp h2
    have h1 : l[n - 1]? = some l[n - 1] := List.getElem?_eq_getElem (by omega)
    rw [h1]
    simp only [Option.map_some, e]
    have hl := countP_sorted (s := cropped.distScore) hs' (n - 1) l[n - 1].distScore
      (by rw [List.getElem?_map, h1]; rfl)
    have hc := countP_sorted (s := cropped.distScore) hs' n cropped.distScore
      (by rw [List.getElem?_map, h2]; rfl)
    simp only [lt_irrefl, false_iff, not_lt] at hc
    by_cases hlt : cropped.distScore < l[n - 1].distScore
    · rw [if_pos hlt, if_pos]
      have := hl.mp hlt
      omega
    · rw [if_neg hlt]
      have hk : (l.map VariantResult.distScore).countP (fun t => cropped.distScore < t) < n := by
        by_contra hk
        exact hlt (hl.mpr (by omega))
      have hne : (l.map VariantResult.distScore).countP (fun t => cropped.distScore < t) ≠ n := by
        omega
      rw [if_neg hne]
      have hscan : (cutoffScan cropped.distScore 0 0 l).1 =
          max 1 ((l.map VariantResult.distScore).countP (fun t => cropped.distScore < t)) := by
        clear hl hc hlt h1
        cases l with
        | nil => simp at h2
        | cons a l =>
          have hle := (List.pairwise_cons.mp hs).1
          have hmem : cropped ∈ l := by
            obtain ⟨n', rfl⟩ : ∃ n', n = n' + 1 := ⟨n - 1, by omega⟩
            rw [List.getElem?_cons_succ] at h2
            exact List.mem_of_getElem? h2
          have hge := hle cropped hmem
          have hx := cutoffScan_exact (s := cropped.distScore) (i := 1) le_rfl hs.of_cons
            ⟨cropped, hmem, rfl⟩
          rw [List.countP_map, List.countP_cons]
          simp only [cutoffScan, and_true, ite_self, hge.not_gt, if_false, Nat.zero_add]
          rw [hx]
          simp only [Function.comp_def, decide_eq_true_eq]
          by_cases h : cropped.distScore < a.distScore
          · rw [if_pos h]; omega
          · rw [if_neg h]
            have h0 : l.countP (fun y => cropped.distScore < y.distScore) = 0 :=
              List.countP_eq_zero.mpr fun y hy => by
                simp only [decide_eq_true_eq, not_lt]
                exact (hle y hy).trans (not_lt.mp h)
            omega
      generalize cutoffScan cropped.distScore 0 0 l = el at hscan
      obtain ⟨early, late⟩ := el
      simp only at hscan ⊢
      rw [if_pos (by omega), hscan]
      congr 1
      omega

theorem cutoffScan_pair {s : Rat} {l : List VariantResult} :
    ∀ {i : Nat}, 1 ≤ i → ∃ e k, cutoffScan s i 0 l = (e, k) ∧
      ((∀ y ∈ l, s < y.distScore) ∧ e = 0 ∧ k = 0 ∨
        ¬ (∀ y ∈ l, s < y.distScore) ∧
          (if e > 0 then e else k) = i + (l.takeWhile fun y => s < y.distScore).length) := by
  induction l with
  | nil => intro i _; exact ⟨0, 0, rfl, .inl ⟨by simp, rfl, rfl⟩⟩
  | cons a l ih =>
    intro i hi
    rcases lt_trichotomy a.distScore s with h | h | h
    · refine ⟨0, i, ?_, .inr ⟨?_, ?_⟩⟩
      · simp only [cutoffScan, h.ne, false_and, if_false, h, if_true]
      · intro hh
        exact absurd (hh a List.mem_cons_self) h.not_gt
      · rw [List.takeWhile_cons_of_neg (by simpa using h.le)]
        simp
    · have hk := cutoffScan_keep (cropped := s) (i := i + 1) (l := l) (show 0 < i by omega)
      refine ⟨(cutoffScan s (i + 1) i l).1, (cutoffScan s (i + 1) i l).2, ?_, .inr ⟨?_, ?_⟩⟩
      · simp only [cutoffScan, h, true_and, if_true, lt_irrefl, if_false]
      · intro hh
        exact absurd (hh a List.mem_cons_self) h.not_gt
      · rw [hk, if_pos (by omega), List.takeWhile_cons_of_neg (by simp [h])]
        rfl
    · obtain ⟨e, k, h1, h2⟩ := ih (i := i + 1) (by omega)
      refine ⟨e, k, ?_, ?_⟩
      · simp only [cutoffScan, h.ne', false_and, if_false, h.not_gt]
        exact h1
      · rw [List.takeWhile_cons_of_pos (by simpa using h)]
        rcases h2 with ⟨g1, g2, g3⟩ | ⟨g1, g2⟩
        · refine .inl ⟨?_, g2, g3⟩
          intro y hy
          rcases List.mem_cons.mp hy with rfl | hy
          · exact h
          · exact g1 y hy
        · refine .inr ⟨fun hh => g1 fun y hy => hh y (List.mem_cons_of_mem _ hy), ?_⟩
          rw [g2, List.length_cons]
          omega

/-- **C32**, exactly: cropping keeps the first ones, as many as `keptWith` says. -/
theorem max_matches_weighted (r : Rounding) (fw : Rat) (n : Nat) (hn : 1 ≤ n) (l : List VariantResult) :
    crop r fw n l = l.take (keptWith n (l.map fun z => (z.score r fw, z.distScore))) := by
  unfold crop keptWith
  rw [if_pos (show n > 0 from hn), List.getElem?_map, List.getElem?_map]
  have hlen : (l.map fun z => (z.score r fw, z.distScore)).length = l.length := List.length_map _
  cases h1 : l[n - 1]? with
  | none => simp only [Option.map_none, hlen, List.take_length]
  | some last =>
    cases h2 : l[n]? with
    | none => simp only [Option.map_none, Option.map_some, hlen, List.take_length]
    | some next =>
      cases l with
      | nil => simp at h1
      | cons a l =>
        simp only [Option.map_some, List.map_cons]
        split
        · rfl
        · by_cases ha : a.distScore < next.score r fw
          · rw [if_pos ha]
            have e : cutoffScan (next.score r fw) 0 0 (a :: l) = (0, 0) := by
              simp only [cutoffScan, ha, and_true, ite_self, if_true]
            rw [e]
            simp
          · rw [if_neg ha]
            have e : cutoffScan (next.score r fw) 0 0 (a :: l) = cutoffScan (next.score r fw) 1 0 l := by
              simp only [cutoffScan, ha, and_true, ite_self, if_false]
            obtain ⟨k, j, h3, h4⟩ := cutoffScan_pair (s := next.score r fw) (l := l) (i := 1) le_rfl
            rw [e, h3, List.takeWhile_map, List.length_map]
            simp only [Function.comp_def]
            rcases h4 with ⟨g1, rfl, rfl⟩ | ⟨g1, g2⟩
            · simp only [gt_iff_lt, lt_irrefl, if_false]
              rw [List.takeWhile_eq_self_iff.mpr (by simpa using g1), List.take_of_length_le]
              rw [List.length_cons]
              omega
            · by_cases hk : k > 0
              · rw [if_pos hk] at g2 ⊢
                rw [g2]
                congr 1
                omega
              · rw [if_neg hk] at g2 ⊢
                rw [if_pos (show j > 0 by omega), g2]
                congr 1
                omega

/-- with frequency weight 1 and `max_matches = 1`, two results with the same score: if the one with the
lower similarity is first, all three are kept, otherwise two -/
example : crop .exact 1 1 [⟨3, 1/2, 1, none⟩, ⟨4, 1, 1/2, none⟩, ⟨5, 1/2, 1/2, none⟩] =
      [⟨3, 1/2, 1, none⟩, ⟨4, 1, 1/2, none⟩, ⟨5, 1/2, 1/2, none⟩] ∧
    crop .exact 1 1 [⟨4, 1, 1/2, none⟩, ⟨3, 1/2, 1, none⟩, ⟨5, 1/2, 1/2, none⟩] =
      [⟨4, 1, 1/2, none⟩, ⟨3, 1/2, 1, none⟩] ∧
    keptWith 1 [(3/4, 1/2), (3/4, 1), (1/2, 1/2)] = 3 ∧ keptWith 1 [(3/4, 1), (3/4, 1/2), (1/2, 1/2)] = 2 := by
  decide +kernel

/-- five results, of which the second to fourth tie: with `max_matches = 3` only two are left, with 1
one, with 4 four -/
example : (([⟨3, 1, 1, none⟩, ⟨4, 1/2, 1, none⟩, ⟨5, 1/2, 1, none⟩, ⟨6, 1/2, 1, none⟩,
      ⟨7, 1/3, 1, none⟩] : List VariantResult).Pairwise fun a b => b.distScore ≤ a.distScore) ∧
    (crop .exact 0 3 [⟨3, 1, 1, none⟩, ⟨4, 1/2, 1, none⟩, ⟨5, 1/2, 1, none⟩, ⟨6, 1/2, 1, none⟩,
      ⟨7, 1/3, 1, none⟩]).length = 2 ∧
    keptCount 3 [1, 1/2, 1/2, 1/2, 1/3] = 2 ∧ keptCount 1 [1, 1/2, 1/2, 1/2, 1/3] = 1 ∧
    keptCount 4 [1, 1/2, 1/2, 1/2, 1/3] = 4 := by decide +kernel

/-- **C32** for queries: without frequency weight, links, confusables and cutoff, the number of
results is that of `keptCount` for the similarities of the candidates that reach the threshold, best
first. -/
theorem number_of_results (m : Vm) (x : Ext) (cfg : Config) (p : Params)
    (input : List Char) (res : List VariantResult) (hlinks : NoLinks m)
    (hw : cfg.weights.sum x.f64 ≠ 0) (hconf : cfg.confusables = [])
    (hfw : p.freqWeight = 0) (hn : 1 ≤ p.maxMatches) (hcut : p.cutoffThreshold < 1)
    (hidx : m.index.isEmpty = false) (qs : List Nat) (l : List (Nat × Distance))
    (hl : m.findCandidates x cfg.weights p input = .ok (qs, l))
    (scores : List Rat) (hsorted : scores.Pairwise fun a b => b ≤ a)
    (hperm : scores.Perm ((l.map fun y => similarity x.f64 cfg.weights qs.length y.2).filter
      fun s => p.scoreThreshold ≤ s))
    (h : m.findVariants x cfg p input = .ok res) :
    res.map VariantResult.distScore = scores.take (keptCount p.maxMatches scores) := by
  unfold Vm.findVariants at h
  rw [hidx, if_neg (by simp), hl] at h
  obtain ⟨hlen, mf, cands, _, _, h5, h6⟩ := scoreAndRank_ok hw h
  rw [noLinks_hasLinks hlinks] at h5 h6
  simp only [Bool.false_eq_true, if_false] at h5 h6
  set ranked := rankResults x.f64 p.freqWeight (normalizeFreq x.f64 mf cands) with hr
  have hs : ranked.Pairwise fun a b => b.distScore ≤ a.distScore :=
    (rankResults_sorted x.f64 p.freqWeight (normalizeFreq x.f64 mf cands)).imp fun h => by
      have := rankLe_score x.f64 hfw.ge h
      simpa only [VariantResult.score, if_pos hfw] using this
  have hsc : ranked.map VariantResult.distScore = scores := by
    refine List.Perm.eq_of_pairwise (le := fun a b : Rat => b ≤ a)
      (fun a b _ _ h1 h2 => le_antisymm h2 h1) (List.pairwise_map.mpr hs) hsorted ?_
    refine (((rankResults_perm _ _ _).map _).trans ?_).trans hperm.symm
    have e := congrArg (List.map Prod.snd) (normalizeFreq_map x.f64 mf cands)
    rw [List.map_map, List.map_map] at e
    have e' : (normalizeFreq x.f64 mf cands).map VariantResult.distScore =
      cands.map VariantResult.distScore := e
    rw [e', h5]
    simp only [scoredList, hconf, List.isEmpty_nil, Bool.not_true, Bool.false_and,
      Bool.false_eq_true, if_false]
    have e2 := congrArg (List.map Prod.snd) (scored_map (m := m) x.f64 cfg.weights qs.length
      p.scoreThreshold (candidate_ids hl))
    rw [List.map_map, List.map_map] at e2
    have e3 : (l.filterMap (scored m x.f64 cfg.weights qs.length p.scoreThreshold)).map
      VariantResult.distScore = (l.filter fun y => p.scoreThreshold ≤
          similarity x.f64 cfg.weights qs.length y.2).map
        fun y => similarity x.f64 cfg.weights qs.length y.2 := e2
    rw [e3, List.filter_map]
    exact .refl _
  rw [h6]
  unfold Vm.prune
  simp only [hconf, List.isEmpty_nil, Bool.not_true, Bool.false_and, Bool.false_eq_true, if_false]
  rw [cutoff_off _ _ _ hcut, hfw, max_matches_exact x.f64 _ hn _ hs, List.map_take, hsc]

example : NoLinks tied ∧ tied.index.isEmpty = false ∧
    tied.findVariants exExt exConfig { exParams with maxMatches := 1, cutoffThreshold := 0 } ['a'] =
      .ok [⟨3, 3/8, 1, none⟩, ⟨4, 3/8, 1, none⟩] ∧
    keptCount 1 [3/8, 3/8, 3/8] = 2 := by decide +kernel

/-! ## C34 -/

theorem prune_eq_nil {m : Vm} {r : Rounding} {cfg : Config} {p : Params} {input : List Char}
    {l : List VariantResult} : m.prune r cfg p input l = [] ↔ l = [] := by
  have hrank : ∀ k : List VariantResult, rankResults r p.freqWeight k = [] ↔ k = [] := by
    intro k
    rw [← List.length_eq_zero_iff, ← List.length_eq_zero_iff (l := k),
      (rankResults_perm r p.freqWeight k).length_eq]
  cases l with
  | nil =>
    simp only [iff_true]
    refine List.eq_nil_of_length_eq_zero (Nat.le_zero.mp ?_)
    unfold Vm.prune
    simp only
    refine (applyCutoff_prefix _ _ _ _).length_le.trans ?_
    have hc := (crop_prefix r p.freqWeight p.maxMatches ([] : List VariantResult)).length_le
    split
    · rw [(rankResults_perm _ _ _).length_eq, Vm.rescore, List.length_map]; exact hc
    · exact hc
  | cons a k =>
    simp only [reduceCtorEq, iff_false]
    unfold Vm.prune
    simp only
    obtain ⟨k1, h1⟩ := crop_nonempty r p.freqWeight p.maxMatches a k
    rw [h1]
    have hlate : ∃ b k2, (if !cfg.confusables.isEmpty && !cfg.confusablesBeforePruning then
        rankResults r p.freqWeight (m.rescore r cfg input (a :: k1)) else a :: k1) = b :: k2 := by
      split
      · refine List.exists_cons_of_ne_nil fun e => ?_
        have := (hrank _).mp e
        simp [Vm.rescore] at this
      · exact ⟨a, k1, rfl⟩
    obtain ⟨b, k2, h2⟩ := hlate
    rw [h2]
    obtain ⟨k3, h3⟩ := applyCutoff_nonempty r p.freqWeight p.cutoffThreshold b k2
    rw [h3]
    simp

theorem mem_scored_ids {m : Vm} {r : Rounding} {cfg : Config} {p : Params} {input : List Char}
    {len : Nat} {l : List (Nat × Distance)} {y : Nat × Distance} (hy : y ∈ l) {v : VocabValue}
    (hv : m.decoder[y.1]? = some v) (ht : p.scoreThreshold ≤ similarity r cfg.weights len y.2) :
    ∃ c ∈ scoredList m r cfg p input len l, c.vocabId = y.1 := by
  have h0 : (⟨y.1, similarity r cfg.weights len y.2,
      if m.haveFreq then r.rnd v.frequency else 1, none⟩ : VariantResult) ∈
      l.filterMap (scored m r cfg.weights len p.scoreThreshold) := by
    refine List.mem_filterMap.mpr ⟨y, hy, ?_⟩
    simp only [scored, hv, ge_iff_le, ht, if_true]
  unfold scoredList
  simp only
  split
  · exact ⟨_, List.mem_map.mpr ⟨_, h0, rfl⟩, rfl⟩
  · exact ⟨_, h0, rfl⟩

theorem scored_passes {m : Vm} {r : Rounding} {cfg : Config} {p : Params} {input : List Char}
    {len : Nat} {l : List (Nat × Distance)} {c : VariantResult}
    (h : c ∈ scoredList m r cfg p input len l) : ∃ y ∈ l, c.vocabId = y.1 ∧
      p.scoreThreshold ≤ similarity r cfg.weights len y.2 ∧ ∃ v, m.decoder[y.1]? = some v := by
  have key : ∀ c ∈ l.filterMap (scored m r cfg.weights len p.scoreThreshold), ∃ y ∈ l,
      c.vocabId = y.1 ∧ p.scoreThreshold ≤ similarity r cfg.weights len y.2 ∧
      ∃ v, m.decoder[y.1]? = some v := by
    intro c hc
    obtain ⟨y, hy, he⟩ := List.mem_filterMap.mp hc
    unfold scored at he
    split at he
    · cases he
    · next item hitem =>
      split at he
      · next ht =>
        cases he
        exact ⟨y, hy, rfl, ht, item, hitem⟩
      · cases he
  unfold scoredList at h
  simp only at h
  split at h
  · obtain ⟨c', hc', rfl⟩ := List.mem_map.mp h
    exact key c' hc'
  · exact key c h

theorem expandRefs_targets {m : Vm} {r : Rounding} {x : VariantResult}
    {refs : List VariantReference} {l : List VariantResult} (h : m.expandRefs r x refs = .ok l) :
    ∀ t s, VariantReference.variantOf t s ∈ refs → ∃ item, m.decoder[t]? = some item := by
  induction refs generalizing l with
  | nil => intro t s h; cases h
  | cons a refs ih =>
    intro t s hm
    cases a with
    | referenceFor i q =>
      rcases List.mem_cons.mp hm with h' | h'
      · cases h'
      · exact ih h t s h'
    | variantOf i q =>
      simp only [Vm.expandRefs] at h
      split at h
      · cases h
      · next tg htg =>
        obtain ⟨rest, h1, _⟩ := bind_ok.mp h
        rcases List.mem_cons.mp hm with h' | h'
        · cases h'
          exact ⟨tg, htg⟩
        · exact ih h1 t s h'

theorem expandVariants_targets {m : Vm} {r : Rounding} {l l' : List VariantResult}
    (h : m.expandVariants r l = .ok l') : ∀ c ∈ l, ∀ v, m.decoder[c.vocabId]? = some v →
      ∀ t s, VariantReference.variantOf t s ∈ v.variants.getD [] →
        ∃ item, m.decoder[t]? = some item := by
  induction l generalizing l' with
  | nil => intro c h; cases h
  | cons a l ih =>
    intro c hc v hv
    simp only [Vm.expandVariants] at h
    split at h
    · cases h
    · next item hitem =>
      simp only [bind_ok, pure_ok] at h
      obtain ⟨refs, h1, rest, h2, _⟩ := h
      rcases List.mem_cons.mp hc with rfl | hc
      · rw [hv] at hitem
        cases hitem
        exact expandRefs_targets h1
      · exact ih h2 c hc v hv

/-- **C34**, exactly: there are results iff some candidate reaches the threshold and, unless no
candidate has links, is not transparent or is a variant of some entry. -/
theorem results_nonempty_iff (m : Vm) (x : Ext) (cfg : Config) (p : Params)
    (input : List Char) (res : List VariantResult) (hw : cfg.weights.sum x.f64 ≠ 0)
    (hidx : m.index.isEmpty = false) (qs : List Nat) (l : List (Nat × Distance))
    (hl : m.findCandidates x cfg.weights p input = .ok (qs, l))
    (h : m.findVariants x cfg p input = .ok res) :
    res ≠ [] ↔ ∃ y ∈ l, p.scoreThreshold ≤ similarity x.f64 cfg.weights qs.length y.2 ∧
      ∃ v, m.decoder[y.1]? = some v ∧
        ((∀ z ∈ l, ∀ w, m.decoder[z.1]? = some w → w.variants = none) ∨
          v.vocabtype.check .TRANSPARENT = false ∨
          ∃ t s, VariantReference.variantOf t s ∈ v.variants.getD []) := by
  unfold Vm.findVariants at h
  rw [hidx, if_neg (by simp), hl] at h
  obtain ⟨hlen, mf, cands, _, _, h5, h6⟩ := scoreAndRank_ok hw h
  have h7 : res = [] ↔ cands = [] := by
    rw [h6, prune_eq_nil]
    have hr : rankResults x.f64 p.freqWeight (normalizeFreq x.f64 mf cands) = [] ↔ cands = [] := by
      rw [← List.length_eq_zero_iff, ← List.length_eq_zero_iff (l := cands),
        (rankResults_perm _ _ _).length_eq]
      have := congrArg List.length (normalizeFreq_map x.f64 mf cands)
      simp only [List.length_map] at this
      rw [this]
    rw [← hr]
    split
    · cases rankResults x.f64 p.freqWeight (normalizeFreq x.f64 mf cands) with
      | nil => simp [dedupIds]
      | cons a k => obtain ⟨k', hk⟩ := dedupIds_cons a k; simp [hk]
    · exact Iff.rfl
  rw [ne_eq, h7]
  have hlinks : hasLinks m l = true ↔
      ¬ ∀ z ∈ l, ∀ w, m.decoder[z.1]? = some w → w.variants = none := by
    unfold hasLinks
    rw [List.any_eq_true]
    push Not
    constructor
    · rintro ⟨z, hz, hh⟩
      cases hd : m.decoder[z.1]? with
      | none => simp [hd] at hh
      | some w => exact ⟨z, hz, w, hd, by simpa [hd, Option.isSome_iff_ne_none] using hh⟩
    · rintro ⟨z, hz, w, hd, hh⟩
      exact ⟨z, hz, by rw [hd]; exact Option.isSome_iff_ne_none.mpr hh⟩
  by_cases hk : hasLinks m l = true
  · rw [if_pos hk] at h5
    have hno := hlinks.mp hk
    constructor
    · intro hne
      obtain ⟨c, hc⟩ := List.exists_mem_of_ne_nil _ hne
      obtain ⟨b, hb, item, hitem, hh⟩ := (expandVariants_spec h5 c).mp hc
      obtain ⟨d, hd, e1, hthr, _⟩ := scored_passes hb
      rw [e1] at hitem
      refine ⟨d, hd, hthr, item, hitem, .inr ?_⟩
      rcases hh with ⟨_, ht⟩ | ⟨t, s, _, ht, _⟩
      · exact .inl ht
      · exact .inr ⟨t, s, ht⟩
    · rintro ⟨y, hy, hthr, v, hv, hcase⟩
      obtain ⟨c, hc, hcid⟩ := mem_scored_ids (input := input) hy hv hthr
      rcases hcase with h1 | h1 | ⟨t, s, h1⟩
      · exact absurd h1 hno
      · exact List.ne_nil_of_mem ((expandVariants_spec h5 c).mpr ⟨c, hc, v, by rw [hcid]; exact hv,
          .inl ⟨rfl, h1⟩⟩)
      · rw [← hcid] at hv
        obtain ⟨tg, htg⟩ := expandVariants_targets h5 c hc v hv t s h1
        exact List.ne_nil_of_mem ((expandVariants_spec h5 _).mpr ⟨c, hc, v, hv,
          .inr ⟨t, s, tg, h1, htg, rfl⟩⟩)
  · rw [if_neg hk] at h5
    have hno := not_not.mp (mt hlinks.mpr hk)
    constructor
    · intro hne
      obtain ⟨c, hc⟩ := List.exists_mem_of_ne_nil _ hne
      rw [h5] at hc
      obtain ⟨d, hd, e1, hthr, v, hv⟩ := scored_passes hc
      exact ⟨d, hd, hthr, v, hv, .inl hno⟩
    · rintro ⟨y, hy, hthr, v, hv, _⟩
      obtain ⟨c, hc, hcid⟩ := mem_scored_ids (input := input) hy hv hthr
      rw [h5]
      exact List.ne_nil_of_mem hc

/-- `ba` is transparent but a variant, so there is a result; in `dropped` there is none -/
example : linked.findVariants exExt exConfig { exParams with scoreThreshold := 4/5 } ['b', 'a'] =
      .ok [⟨3, 9/10, 1, some 4⟩] ∧
    (linked.decoder[4]?.map fun v => (v.text, v.vocabtype.check .TRANSPARENT, v.variants)) =
      some (['b', 'a'], true, some [.variantOf 3 (9/10)]) ∧
    dropped.findVariants exExt exConfig { exParams with scoreThreshold := 4/5 } ['a', 'b'] =
      .ok [] := by decide +kernel

/-! ## C36 -/

/-- **C36**, with links and without late rescoring: neighbouring results are of different entries. -/
theorem neighbouring_results_differ (m : Vm) (x : Ext) (cfg : Config) (p : Params)
    (input : List Char) (res : List VariantResult) (hw : cfg.weights.sum x.f64 ≠ 0)
    (hconf : cfg.confusables = [] ∨ cfg.confusablesBeforePruning = true)
    (qs : List Nat) (l : List (Nat × Distance))
    (hl : m.findCandidates x cfg.weights p input = .ok (qs, l))
    (hex : ∃ y ∈ l, ∃ v, m.decoder[y.1]? = some v ∧ v.variants ≠ none)
    (h : m.findVariants x cfg p input = .ok res) :
    res.IsChain fun a b => a.vocabId ≠ b.vocabId := by
  by_cases h0 : res = []
  · subst h0; simp
  obtain ⟨qs', l', h1, h2⟩ := findVariants_ok h0 h
  rw [hl] at h1
  cases h1
  obtain ⟨hlen, mf, cands, _, _, h5, h6⟩ := scoreAndRank_ok hw h2
  have hlinks : hasLinks m l = true := by
    obtain ⟨y, hy, v, hv, hn⟩ := hex
    refine List.any_eq_true.mpr ⟨y, hy, ?_⟩
    rw [hv]
    exact Option.isSome_iff_ne_none.mpr hn
  rw [hlinks, if_pos rfl] at h6
  obtain ⟨hp1, _⟩ := prune_prefix (m := m) (r := x.f64) (cfg := cfg) (p := p) (input := input)
    hconf (dedupIds (rankResults x.f64 p.freqWeight (normalizeFreq x.f64 mf cands)))
  rw [← h6] at hp1
  have hd : ∀ k : List VariantResult, (dedupIds k).IsChain fun a b => a.vocabId ≠ b.vocabId := by
    intro k
    induction k with
    | nil => simp [dedupIds]
    | cons a k ih =>
      unfold dedupIds
      split
      · simp
      · next b k' hk =>
        rw [hk] at ih
        split
        · next e =>
          cases k' with
          | nil => simp
          | cons c k'' =>
            have := List.isChain_cons_cons.mp ih
            exact List.isChain_cons_cons.mpr ⟨by rw [e]; exact this.1, this.2⟩
        · next e => exact List.isChain_cons_cons.mpr ⟨e, ih⟩
  obtain ⟨t, ht⟩ := hp1
  have := hd (rankResults x.f64 p.freqWeight (normalizeFreq x.f64 mf cands))
  rw [← ht] at this
  exact this.left_of_append

example : linked.findVariants exExt exConfig exParams ['b', 'b', 'a'] =
    .ok [⟨3, 3/5, 1, some 4⟩, ⟨5, 1/2, 1, some 6⟩, ⟨3, 1/3, 1, none⟩, ⟨5, 1/3, 1, none⟩] := by
  decide +kernel

/-- No entry is recorded twice as a variant of the same entry. -/
def LinksDistinct (m : Vm) : Prop :=
  ∀ v ∈ m.decoder, ((v.variants.getD []).filterMap fun
    | .variantOf t _ => some t
    | .referenceFor _ _ => none).Nodup

/-- the entry of a result, and the one through which it was found -/
def route (y : VariantResult) : Nat × Option Nat := (y.vocabId, y.via)

theorem expandRefs_route {m : Vm} {r : Rounding} {x : VariantResult}
    {refs : List VariantReference} {l : List VariantResult} (h : m.expandRefs r x refs = .ok l) :
    l.map route = (refs.filterMap fun
      | .variantOf t _ => some t
      | .referenceFor _ _ => none).map fun t => (t, some x.vocabId) := by
  induction refs generalizing l with
  | nil => cases h; rfl
  | cons a refs ih =>
    cases a with
    | referenceFor i q => exact ih h
    | variantOf i q =>
      simp only [Vm.expandRefs] at h
      split at h
      · cases h
      · next tg htg =>
        simp only [bind_ok, pure_ok] at h
        obtain ⟨rest, h1, rfl⟩ := h
        simp only [List.map_cons, ih h1, List.filterMap_cons]
        rfl

theorem expandVariants_nodup {m : Vm} (hd : LinksDistinct m) {r : Rounding}
    {l l' : List VariantResult} (hvia : ∀ y ∈ l, y.via = none)
    (hnd : (l.map VariantResult.vocabId).Nodup) (h : m.expandVariants r l = .ok l') :
    (l'.map route).Nodup := by
  induction l generalizing l' with
  | nil => cases h; simp
  | cons a l ih =>
    simp only [Vm.expandVariants] at h
    split at h
    · cases h
    · next item hitem =>
      simp only [bind_ok, pure_ok] at h
      obtain ⟨refs, h1, rest, h2, rfl⟩ := h
      simp only [List.map_cons, List.nodup_cons] at hnd
      have hrest := ih (fun y hy => hvia y (List.mem_cons_of_mem _ hy)) hnd.2 h2
      have hspec : ∀ q ∈ rest, (q.via = none ∧ q.vocabId ≠ a.vocabId) ∨
          ∃ i, q.via = some i ∧ i ≠ a.vocabId := by
        intro q hq
        obtain ⟨c, hc, _, _, hh⟩ := (expandVariants_spec h2 q).mp hq
        have hne : c.vocabId ≠ a.vocabId := fun e => hnd.1 (e ▸ List.mem_map.mpr ⟨c, hc, rfl⟩)
        rcases hh with ⟨rfl, _⟩ | ⟨_, _, _, _, _, rfl⟩
        · exact .inl ⟨hvia q (List.mem_cons_of_mem _ hc), hne⟩
        · exact .inr ⟨_, rfl, hne⟩
      have hrefs := expandRefs_route h1
      have hrefs' : (refs.map route).Nodup := by
        rw [hrefs]
        refine (hd item (List.mem_of_getElem? hitem)).map fun t t' e => ?_
        exact (Prod.mk.inj e).1
      have hva := hvia a List.mem_cons_self
      rw [List.map_append, List.map_append, List.append_assoc]
      refine List.nodup_append.mpr ⟨hrefs', List.nodup_append.mpr ⟨?_, hrest, ?_⟩, ?_⟩
      · split <;> simp
      · intro u hu w hw e
        split at hu
        · cases hu
        · simp only [List.map_cons, List.map_nil, List.mem_singleton] at hu
          obtain ⟨q, hq, rfl⟩ := List.mem_map.mp hw
          rw [hu] at e
          obtain ⟨e1, e2⟩ := Prod.mk.inj e
          rcases hspec q hq with ⟨_, hne⟩ | ⟨i, hi, _⟩
          · exact hne e1.symm
          · rw [hva, hi] at e2
            cases e2
      · intro u hu w hw e
        rw [hrefs] at hu
        obtain ⟨t, _, rfl⟩ := List.mem_map.mp hu
        rcases List.mem_append.mp hw with hw | hw
        · split at hw
          · cases hw
          · simp only [List.map_cons, List.map_nil, List.mem_singleton] at hw
            rw [hw] at e
            have := (Prod.mk.inj e).2
            rw [hva] at this
            cases this
        · obtain ⟨q, hq, rfl⟩ := List.mem_map.mp hw
          have e2 := (Prod.mk.inj e).2
          rcases hspec q hq with ⟨hn, _⟩ | ⟨i, hi, hne⟩
          · rw [hn] at e2; cases e2
          · rw [hi] at e2
            exact hne (Option.some.inj e2).symm

/-- **C36**, with links: no entry is returned twice by the same route, that is directly or as the
reference of the same variant, if no variant is linked twice to the same entry. -/
theorem results_differ_by_route (alphabet : Alphabet) (hne : NoEmpty alphabet)
    (hlen : alphabet.length ≤ 166) (ops : List Op) (o : Orders) (m : Vm)
    (h : (Vm.new alphabet).run (ops ++ [.build o]) = .ok m) (hlinks : LinksDistinct m)
    (hshort : ∀ v ∈ m.decoder, v.text.length < 65536) (x : Ext) (cfg : Config) (p : Params)
    (hw : cfg.weights.sum x.f64 ≠ 0) (input : List Char) (hin : input.length ≤ 65280)
    (res : List VariantResult) (hres : m.findVariants x cfg p input = .ok res) :
    (res.map fun y => (y.vocabId, y.via)).Nodup := by
  change (res.map route).Nodup
  by_cases h0 : res = []
  · subst h0; simp
  obtain ⟨qs, l, h1, h2⟩ := findVariants_ok h0 hres
  obtain ⟨hlen0, mf, cands, hmf, h4, h5, h6⟩ := scoreAndRank_ok hw h2
  have hin0 : input ≠ [] := by
    rintro rfl
    simp only [Vm.findCandidates, normalizeToAlphabet, normalizeLoop, bind_ok, pure_ok,
      Prod.mk.injEq] at h1
    obtain ⟨ns, e1, _, _, _, _, _, _, rfl, _⟩ := h1
    cases e1
    exact hlen0 rfl
  obtain ⟨qs', hqs'⟩ := encodes_exists hne (alphabet.length + 1) input
  have hl := encodes_length hqs'
  obtain ⟨l', h1', hnd, _, _⟩ := candidates_total alphabet hne hlen ops o m h hshort x cfg.weights p
    input hin0 qs' hqs' (by omega)
  rw [h1] at h1'
  cases h1'
  have hbase : ((l.filterMap (scored m x.f64 cfg.weights qs.length p.scoreThreshold)).map
      VariantResult.vocabId).Nodup := by
    have := scored_map (m := m) x.f64 cfg.weights qs.length p.scoreThreshold (candidate_ids h1)
    have e := congrArg (List.map Prod.fst) this
    rw [List.map_map, List.map_map] at e
    have e' : (l.filterMap (scored m x.f64 cfg.weights qs.length p.scoreThreshold)).map
        VariantResult.vocabId = (l.filter fun y => p.scoreThreshold ≤
          similarity x.f64 cfg.weights qs.length y.2).map Prod.fst := e
    rw [e']
    exact hnd.sublist (List.filter_sublist.map _)
  have hscored : ((scoredList m x.f64 cfg p input qs.length l).map VariantResult.vocabId).Nodup := by
    unfold scoredList
    simp only
    split
    · unfold Vm.rescore
      rw [List.map_map]
      exact hbase
    · exact hbase
  have hvia : ∀ y ∈ scoredList m x.f64 cfg p input qs.length l, y.via = none := fun y hy => by
    obtain ⟨_, _, _, _, _, _, e⟩ := mem_scoredList hy
    exact e
  have hcands : (cands.map route).Nodup := by
    split at h5
    · exact expandVariants_nodup hlinks hvia hscored h5
    · rw [h5]
      refine (List.Nodup.of_map Prod.fst ?_)
      rw [List.map_map]
      exact hscored
  have hnorm : ((normalizeFreq x.f64 mf cands).map route).Nodup := by
    unfold normalizeFreq
    split
    · rw [List.map_map]; exact hcands
    · exact hcands
  have hranked : ((rankResults x.f64 p.freqWeight (normalizeFreq x.f64 mf cands)).map
      route).Nodup := ((rankResults_perm _ _ _).map _).nodup_iff.mpr hnorm
  have hded : ((if hasLinks m l then dedupIds (rankResults x.f64 p.freqWeight
      (normalizeFreq x.f64 mf cands)) else rankResults x.f64 p.freqWeight
      (normalizeFreq x.f64 mf cands)).map route).Nodup := by
    split
    · exact hranked.sublist ((dedupIds_sublist _).map _)
    · exact hranked
  rw [h6]
  unfold Vm.prune
  simp only
  refine List.Nodup.sublist ((applyCutoff_prefix _ _ _ _).sublist.map _) ?_
  have hc := hded.sublist ((crop_prefix x.f64 p.freqWeight p.maxMatches _).sublist.map _)
  split
  · refine ((rankResults_perm _ _ _).map _).nodup_iff.mpr ?_
    unfold Vm.rescore
    rw [List.map_map]
    exact hc
  · exact hc

example : LinksDistinct linked ∧
    linked.findVariants exExt exConfig exParams ['b', 'b', 'a'] =
    .ok [⟨3, 3/5, 1, some 4⟩, ⟨5, 1/2, 1, some 6⟩, ⟨3, 1/3, 1, none⟩, ⟨5, 1/3, 1, none⟩] := by
  refine ⟨?_, by decide +kernel⟩
  unfold LinksDistinct
  decide +kernel

end Verif.Props
