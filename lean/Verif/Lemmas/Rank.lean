import Verif.Lemmas.Score

/-! # Composition of scoring, expansion, ranking and pruning -/
namespace Verif.Lemmas

open Verif.Spec Verif.Model Verif.Props

/-- whether one of the candidates has references -/
def hasLinks (m : Vm) (l : List (Nat × Distance)) : Bool :=
  l.any fun y => ((m.decoder[y.1]?).bind VocabValue.variants).isSome

/-- the scored candidates above the threshold, rescored if this happens early -/
def scoredList (m : Vm) (r : Rounding) (cfg : Config) (p : Params) (input : List Char) (len : Nat)
    (l : List (Nat × Distance)) : List VariantResult :=
  let s := l.filterMap (scored m r cfg.weights len p.scoreThreshold)
  if !cfg.confusables.isEmpty && cfg.confusablesBeforePruning then m.rescore r cfg input s else s

theorem rescore_freq {m : Vm} {r : Rounding} {cfg : Config} {input : List Char}
    {l : List VariantResult} {x : VariantResult} (h : x ∈ m.rescore r cfg input l) :
    ∃ y ∈ l, x.vocabId = y.vocabId ∧ x.freqScore = y.freqScore ∧ x.via = y.via := by
  obtain ⟨y, hy, rfl⟩ := List.mem_map.mp h
  exact ⟨y, hy, rfl, rfl, rfl⟩

theorem mem_scoredList {m : Vm} {r : Rounding} {cfg : Config} {p : Params} {input : List Char}
    {len : Nat} {l : List (Nat × Distance)} {x : VariantResult}
    (h : x ∈ scoredList m r cfg p input len l) :
    ∃ y ∈ l, ∃ item, m.decoder[y.1]? = some item ∧ x.vocabId = y.1 ∧
      x.freqScore = (if m.haveFreq then r.rnd item.frequency else 1) ∧ x.via = none := by
  have key : ∀ x ∈ l.filterMap (scored m r cfg.weights len p.scoreThreshold),
      ∃ y ∈ l, ∃ item, m.decoder[y.1]? = some item ∧ x.vocabId = y.1 ∧
      x.freqScore = (if m.haveFreq then r.rnd item.frequency else 1) ∧ x.via = none := by
    intro x hx
    obtain ⟨y, hy, he⟩ := List.mem_filterMap.mp hx
    unfold scored at he
    split at he
    · cases he
    · next item hitem =>
      split at he
      · cases he
        exact ⟨y, hy, item, hitem, rfl, rfl, rfl⟩
      · cases he
  unfold scoredList at h
  simp only at h
  split at h
  · obtain ⟨z, hz, e1, e2, e3⟩ := rescore_freq h
    obtain ⟨y, hy, item, hitem, h1, h2, h3⟩ := key z hz
    exact ⟨y, hy, item, hitem, e1.trans h1, e2.trans h2, e3.trans h3⟩
  · exact key x h

theorem rankExpanded_false (m : Vm) (r : Rounding) (cfg : Config) (input : List Char) (fw : Rat)
    (s : List VariantResult) (mf : Rat) :
    m.rankExpanded r cfg input fw s mf false = .ok (rankResults r fw (normalizeFreq r mf
      (if !cfg.confusables.isEmpty && cfg.confusablesBeforePruning then m.rescore r cfg input s
        else s))) := rfl

theorem rankExpanded_true (m : Vm) (r : Rounding) (cfg : Config) (input : List Char) (fw : Rat)
    (s : List VariantResult) (mf : Rat) :
    m.rankExpanded r cfg input fw s mf true = (m.expandVariants r
      (if !cfg.confusables.isEmpty && cfg.confusablesBeforePruning then m.rescore r cfg input s
        else s)).map fun c => dedupIds (rankResults r fw (normalizeFreq r (maxFreqOf c mf) c)) := by
  unfold Vm.rankExpanded
  simp only [if_true]
  cases m.expandVariants r
      (if !cfg.confusables.isEmpty && cfg.confusablesBeforePruning then m.rescore r cfg input s
        else s) <;> rfl

theorem scoreAndRank_eq {m : Vm} {r : Rounding} {cfg : Config} (p : Params) (input : List Char)
    {len : Nat} (l : List (Nat × Distance)) (hsum : cfg.weights.sum r ≠ 0) (hlen : len ≠ 0) :
    ∃ mf, 0 ≤ mf ∧ (∀ y ∈ l, ∀ item, m.decoder[y.1]? = some item →
        (if m.haveFreq then r.rnd item.frequency else 1) ≤ mf) ∧
      m.scoreAndRank r cfg p input len l =
        (if hasLinks m l then
          (m.expandVariants r (scoredList m r cfg p input len l)).map fun c =>
            m.prune r cfg p input
              (dedupIds (rankResults r p.freqWeight (normalizeFreq r (maxFreqOf c mf) c)))
        else .ok (m.prune r cfg p input (rankResults r p.freqWeight
          (normalizeFreq r mf (scoredList m r cfg p input len l))))) := by
  obtain ⟨mf, h1, h2, h3, _⟩ := scoreLoop_spec m r cfg.weights hsum len p.scoreThreshold l [] 0 false
  refine ⟨mf, h2, h3, ?_⟩
  unfold Vm.scoreAndRank
  rw [if_neg hlen, h1, Bool.false_or, List.nil_append]
  change (m.rankExpanded r cfg input p.freqWeight
    (l.filterMap (scored m r cfg.weights len p.scoreThreshold)) mf (hasLinks m l) >>=
      fun l => pure (m.prune r cfg p input l)) = _
  cases hasLinks m l with
  | false => rfl
  | true =>
    rw [rankExpanded_true, if_pos rfl]
    change (((m.expandVariants r (scoredList m r cfg p input len l)).map _) >>= _) = _
    cases m.expandVariants r (scoredList m r cfg p input len l) <;> rfl

theorem scoreAndRank_ok {m : Vm} {r : Rounding} {cfg : Config} {p : Params} {input : List Char}
    {len : Nat} {l : List (Nat × Distance)} {res : List VariantResult}
    (hsum : cfg.weights.sum r ≠ 0)
    (h : m.scoreAndRank r cfg p input len l = .ok res) :
    len ≠ 0 ∧ ∃ mf cands, 0 ≤ mf ∧ (∀ x ∈ cands, x.freqScore ≤ mf) ∧
      (if hasLinks m l then m.expandVariants r (scoredList m r cfg p input len l) = .ok cands
        else cands = scoredList m r cfg p input len l) ∧
      res = m.prune r cfg p input
        (if hasLinks m l then dedupIds (rankResults r p.freqWeight (normalizeFreq r mf cands))
          else rankResults r p.freqWeight (normalizeFreq r mf cands)) := by
  have hlen : len ≠ 0 := by
    rintro rfl
    cases h
  refine ⟨hlen, ?_⟩
  obtain ⟨mf, h2, h3, h1⟩ := scoreAndRank_eq (m := m) p input l hsum hlen
  rw [h1] at h
  cases hx : hasLinks m l with
  | true =>
    rw [hx, if_pos rfl] at h
    simp only [if_true]
    cases hc : m.expandVariants r (scoredList m r cfg p input len l) with
    | error e => rw [hc] at h; cases h
    | ok cands =>
      rw [hc] at h
      exact ⟨maxFreqOf cands mf, cands, h2.trans (maxFreqOf_spec cands mf).1,
        (maxFreqOf_spec cands mf).2.1, rfl, (Except.ok.inj h).symm⟩
  | false =>
    rw [hx, if_neg (by simp)] at h
    simp only [Bool.false_eq_true, if_false]
    refine ⟨mf, _, h2, ?_, rfl, (Except.ok.inj h).symm⟩
    intro x hx'
    obtain ⟨y, hy, item, hitem, _, h5, _⟩ := mem_scoredList hx'
    rw [h5]
    exact h3 y hy item hitem

theorem scoreAndRank_total {m : Vm} {r : Rounding} {cfg : Config} {p : Params} {input : List Char}
    {len : Nat} {l : List (Nat × Distance)} (hsum : cfg.weights.sum r ≠ 0) (hlen : len ≠ 0)
    (hexp : ∃ cands, m.expandVariants r (scoredList m r cfg p input len l) = .ok cands) :
    ∃ res, m.scoreAndRank r cfg p input len l = .ok res := by
  obtain ⟨mf, _, _, h1⟩ := scoreAndRank_eq (m := m) p input l hsum hlen
  obtain ⟨cands, hc⟩ := hexp
  rw [h1, hc]
  split
  · exact ⟨_, rfl⟩
  · exact ⟨_, rfl⟩

/-- without late rescoring, pruning gives an initial part, and not an empty one -/
theorem prune_prefix {m : Vm} {r : Rounding} {cfg : Config} {p : Params} {input : List Char}
    (hc : cfg.confusables = [] ∨ cfg.confusablesBeforePruning = true) (l : List VariantResult) :
    m.prune r cfg p input l <+: l ∧ (m.prune r cfg p input l).head? = l.head? := by
  have hlate : (!cfg.confusables.isEmpty && !cfg.confusablesBeforePruning) = false := by
    rcases hc with h | h <;> simp [h]
  unfold Vm.prune
  simp only [hlate, Bool.false_eq_true, if_false]
  refine ⟨(applyCutoff_prefix _ _ _ _).trans (crop_prefix _ _ _ _), ?_⟩
  cases l with
  | nil =>
    have h1 : crop r p.freqWeight p.maxMatches [] = [] := List.prefix_nil.mp (crop_prefix _ _ _ _)
    rw [h1]
    have h2 : applyCutoff r p.freqWeight p.cutoffThreshold [] = [] :=
      List.prefix_nil.mp (applyCutoff_prefix _ _ _ _)
    rw [h2]
  | cons a l =>
    obtain ⟨l1, h1⟩ := crop_nonempty r p.freqWeight p.maxMatches a l
    rw [h1]
    obtain ⟨l2, h2⟩ := applyCutoff_nonempty r p.freqWeight p.cutoffThreshold a l1
    rw [h2]; rfl

/-- what pruning returns, in general: every result is one of the list, up to late rescoring -/
theorem mem_prune {m : Vm} {r : Rounding} {cfg : Config} {p : Params} {input : List Char}
    {l : List VariantResult} {x : VariantResult} (h : x ∈ m.prune r cfg p input l) :
    ∃ y ∈ l, x.vocabId = y.vocabId ∧ x.freqScore = y.freqScore ∧ x.via = y.via := by
  unfold Vm.prune at h
  simp only at h
  have h := (applyCutoff_prefix _ _ _ _).subset h
  split at h
  · have h := (rankResults_perm _ _ _).mem_iff.mp h
    obtain ⟨y, hy, e⟩ := rescore_freq h
    exact ⟨y, (crop_prefix _ _ _ _).subset hy, e⟩
  · exact ⟨x, (crop_prefix _ _ _ _).subset h, rfl, rfl, rfl⟩

theorem mem_normalizeFreq {r : Rounding} {mf : Rat} {l : List VariantResult} {x : VariantResult}
    (h : x ∈ normalizeFreq r mf l) : ∃ y ∈ l, x.vocabId = y.vocabId ∧ x.distScore = y.distScore ∧
      x.via = y.via ∧ x.freqScore = if mf > 0 then r.rnd (y.freqScore / mf) else y.freqScore := by
  unfold normalizeFreq at h
  split at h
  · obtain ⟨y, hy, rfl⟩ := List.mem_map.mp h
    next hmf => exact ⟨y, hy, rfl, rfl, rfl, by rw [if_pos hmf]⟩
  · next hmf => exact ⟨x, h, rfl, rfl, rfl, by rw [if_neg hmf]⟩

theorem mem_ranked {r : Rounding} {fw mf : Rat} {b : Bool} {l : List VariantResult}
    {x : VariantResult} (h : x ∈ (if b then dedupIds (rankResults r fw (normalizeFreq r mf l))
      else rankResults r fw (normalizeFreq r mf l))) : x ∈ normalizeFreq r mf l := by
  split at h
  · exact (rankResults_perm _ _ _).mem_iff.mp ((dedupIds_sublist _).subset h)
  · exact (rankResults_perm _ _ _).mem_iff.mp h

/-! ## Expansion -/

theorem expandRefs_spec {m : Vm} {r : Rounding} {x : VariantResult} {refs : List VariantReference}
    {l : List VariantResult} (h : m.expandRefs r x refs = .ok l) (y : VariantResult) :
    y ∈ l ↔ ∃ t s item, VariantReference.variantOf t s ∈ refs ∧ m.decoder[t]? = some item ∧
      y = ⟨t, r.rnd (x.distScore * s), min (r.rnd item.frequency) x.freqScore, some x.vocabId⟩ := by
  induction refs generalizing l with
  | nil => cases h; simp
  | cons a refs ih =>
    cases a with
    | referenceFor i s =>
      simp only [Vm.expandRefs] at h
      rw [ih h]
      simp
    | variantOf t s =>
      simp only [Vm.expandRefs] at h
      split at h
      · cases h
      · next item hitem =>
        simp only [bind_ok, pure_ok] at h
        obtain ⟨rest, h1, rfl⟩ := h
        have hmin : (if r.rnd (item.frequency : Rat) < x.freqScore then r.rnd (item.frequency : Rat)
            else x.freqScore) = min (r.rnd item.frequency) x.freqScore := by
          split
          · next h => exact (min_eq_left h.le).symm
          · next h => exact (min_eq_right (not_lt.mp h)).symm
        rw [hmin, List.mem_cons, ih h1]
        constructor
        · rintro (rfl | ⟨t', s', item', h1, h2, h3⟩)
          · exact ⟨t, s, item, List.mem_cons_self, hitem, rfl⟩
          · exact ⟨t', s', item', List.mem_cons_of_mem _ h1, h2, h3⟩
        · rintro ⟨t', s', item', h1, h2, h3⟩
          rcases List.mem_cons.mp h1 with e | h1
          · cases e
            rw [hitem] at h2; cases h2
            exact .inl h3
          · exact .inr ⟨t', s', item', h1, h2, h3⟩

theorem expandVariants_spec {m : Vm} {r : Rounding} {l l' : List VariantResult}
    (h : m.expandVariants r l = .ok l') (y : VariantResult) :
    y ∈ l' ↔ ∃ x ∈ l, ∃ item, m.decoder[x.vocabId]? = some item ∧
      ((y = x ∧ item.vocabtype.check .TRANSPARENT = false) ∨
       ∃ t s target, VariantReference.variantOf t s ∈ item.variants.getD [] ∧
         m.decoder[t]? = some target ∧
         y = ⟨t, r.rnd (x.distScore * s), min (r.rnd target.frequency) x.freqScore,
           some x.vocabId⟩) := by
  induction l generalizing l' with
  | nil => cases h; simp
  | cons x l ih =>
    simp only [Vm.expandVariants] at h
    split at h
    · cases h
    · next item hitem =>
      simp only [bind_ok, pure_ok] at h
      obtain ⟨refs, h1, rest, h2, rfl⟩ := h
      rw [List.append_assoc, List.mem_append, List.mem_append, expandRefs_spec h1, ih h2]
      constructor
      · rintro (⟨t, s, tg, a, b, c⟩ | hy | ⟨z, hz, it, hit, hh⟩)
        · exact ⟨x, List.mem_cons_self, item, hitem, .inr ⟨t, s, tg, a, b, c⟩⟩
        · split at hy
          · cases hy
          · next ht =>
            rw [List.mem_singleton] at hy
            exact ⟨x, List.mem_cons_self, item, hitem, .inl ⟨hy, by simpa using ht⟩⟩
        · exact ⟨z, List.mem_cons_of_mem _ hz, it, hit, hh⟩
      · rintro ⟨z, hz, it, hit, hh⟩
        rcases List.mem_cons.mp hz with rfl | hz
        · rw [hitem] at hit; cases hit
          rcases hh with ⟨rfl, ht⟩ | hh
          · right; left
            rw [if_neg (by simp [ht])]
            exact List.mem_singleton_self _
          · exact .inl hh
        · exact .inr (.inr ⟨z, hz, it, hit, hh⟩)

theorem expandRefs_total {m : Vm} {r : Rounding} {x : VariantResult} {refs : List VariantReference}
    (h : ∀ t s, VariantReference.variantOf t s ∈ refs → t < m.decoder.length) :
    ∃ l, m.expandRefs r x refs = .ok l := by
  induction refs with
  | nil => exact ⟨_, rfl⟩
  | cons a refs ih =>
    obtain ⟨l, hl⟩ := ih fun t s ht => h t s (List.mem_cons_of_mem _ ht)
    cases a with
    | referenceFor i s => exact ⟨l, hl⟩
    | variantOf t s =>
      have ht := h t s List.mem_cons_self
      simp only [Vm.expandRefs, List.getElem?_eq_getElem ht, hl, bind, Except.bind]
      exact ⟨_, rfl⟩

theorem expandVariants_total {m : Vm} {r : Rounding} {l : List VariantResult}
    (hl : ∀ x ∈ l, x.vocabId < m.decoder.length)
    (hrefs : ∀ v ∈ m.decoder, ∀ t s, VariantReference.variantOf t s ∈ v.variants.getD [] →
      t < m.decoder.length) : ∃ l', m.expandVariants r l = .ok l' := by
  induction l with
  | nil => exact ⟨_, rfl⟩
  | cons x l ih =>
    obtain ⟨l', h'⟩ := ih fun y hy => hl y (List.mem_cons_of_mem _ hy)
    have hx := hl x List.mem_cons_self
    obtain ⟨rl, hr⟩ := expandRefs_total (m := m) (r := r) (x := x)
      (hrefs m.decoder[x.vocabId] (List.getElem_mem hx))
    simp only [Vm.expandVariants, List.getElem?_eq_getElem hx, hr, h', bind, Except.bind]
    exact ⟨_, rfl⟩

end Verif.Lemmas
