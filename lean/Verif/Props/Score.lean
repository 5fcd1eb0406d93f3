import Verif.Lemmas.Rank
import Verif.Props.Nearest

/-!
# Properties of scoring and ranking (C28 – C36)
-/
namespace Verif.Props

open Verif.Spec Verif.Model Verif.Lemmas

/-! ## Models used in the examples -/

/-- no confusables -/
def exConfig : Config := ⟨.default, [], false, fun _ _ => []⟩

/-- a vocabulary without links -/
def plainOps : List Op :=
  [.add ['a', 'b'] (some 3) {}, .add ['b'] (some 5) {}, .add ['a', 'a', 'b'] (some 7) {},
   .add ['b', 'a'] (some 1) {}, .build exOrders]

/-- the model after `plainOps` -/
def plain : Vm := ((Vm.new exAlphabet).run plainOps).toOption.getD (Vm.new [])

theorem plain_run : (Vm.new exAlphabet).run plainOps = .ok plain := rfl

/-- a vocabulary with links: `ba` and `aab` are variants of `ab`, `bba` of `aab`; `ba` and `bba` are
transparent -/
def linkOps : List Op :=
  [.add ['a', 'b'] (some 3) {},
   .addVariant 3 ['b', 'a'] (9/10) (some 2) { vocabType := VocabType.INDEXED.union .TRANSPARENT },
   .addVariant 3 ['a', 'a', 'b'] (1/2) (some 5) {},
   .addVariant 5 ['b', 'b', 'a'] (1/2) (some 5)
     { vocabType := VocabType.INDEXED.union .TRANSPARENT },
   .build exOrders]

/-- the model after `linkOps` -/
def linked : Vm := ((Vm.new exAlphabet).run linkOps).toOption.getD (Vm.new [])

theorem linked_run : (Vm.new exAlphabet).run linkOps = .ok linked := rfl

theorem exWeights_ok : WeightsOk .exact Weights.default := by
  refine ⟨?_, ?_, ?_, ?_, ?_, ?_⟩ <;> decide +kernel

/-- rounding to multiples of 1/1024 -/
def exExt' : Ext := { exExt with f64 := .fixed 1023 }

theorem exWeights_ok' : WeightsOk exExt'.f64 Weights.default := by
  refine ⟨?_, ?_, ?_, ?_, ?_, ?_⟩ <;> decide +kernel

/-! ## From a search to its parts -/

theorem findVariants_ok {m : Vm} {x : Ext} {cfg : Config} {p : Params} {input : List Char}
    {res : List VariantResult} (hres : res ≠ []) (h : m.findVariants x cfg p input = .ok res) :
    ∃ qs l, m.findCandidates x cfg.weights p input = .ok (qs, l) ∧
      m.scoreAndRank x.f64 cfg p input qs.length l = .ok res := by
  unfold Vm.findVariants at h
  split at h
  · cases h; exact absurd rfl hres
  · simp only [bind_ok] at h
    obtain ⟨⟨qs, l⟩, h1, h2⟩ := h
    exact ⟨qs, l, h1, h2⟩

theorem noLinks_hasLinks {m : Vm} (h : NoLinks m) (l : List (Nat × Distance)) :
    hasLinks m l = false := by
  unfold hasLinks
  rw [List.any_eq_false]
  intro y _
  cases hv : m.decoder[y.1]? with
  | none => simp
  | some v => simp [h v (List.mem_of_getElem? hv)]

/-! ## C28 -/

/-- In exact arithmetic the similarity score is the weighted mean the documentation describes. -/
theorem similarity_formula (w : Weights) (len : Nat) (d : Distance) (h : d.ld ≤ len) :
    similarity .exact w len d =
      (w.ld * (1 - d.ld / len) + w.lcs * (d.lcs / len) + w.pre * (d.prefixlen / len) +
        w.suf * (d.suffixlen / len) + if d.samecase then w.case else 0) /
      (w.ld + w.lcs + w.pre + w.suf + w.case) := by
  unfold similarity
  rw [if_neg (by omega)]
  rfl

example : similarity .exact .default 4 ⟨1, 3, 2, 1, true⟩ = 11/16 := by decide +kernel

/-- **C28**: the similarity score of every candidate is between 0 and 1. -/
theorem score_between (m : Vm) (x : Ext) (w : Weights) (p : Params) (input : List Char)
    (qs : List Nat) (l : List (Nat × Distance)) (hw : WeightsOk x.f64 w)
    (h : m.findCandidates x w p input = .ok (qs, l)) (hq : qs ≠ []) :
    ∀ y ∈ l, 0 ≤ similarity x.f64 w qs.length y.2 ∧ similarity x.f64 w qs.length y.2 ≤ 1 := by
  simp only [Vm.findCandidates, bind_ok, pure_ok, Prod.mk.injEq] at h
  obtain ⟨ns, _, hash, _, near, _, l', h1, rfl, rfl⟩ := h
  intro y hy
  obtain ⟨a, b, c⟩ := gather_lengths m x.isLower w ns input _ near l' h1 y hy
  exact similarity_bounds x.f64 hw (List.length_pos_iff.mpr hq) a b c

example : WeightsOk exExt'.f64 Weights.default ∧
    plain.findCandidates exExt' .default exParams ['b', 'A'] =
      .ok ([1, 0], [(4, ⟨1, 1, 1, 0, true⟩), (3, ⟨1, 1, 0, 0, true⟩), (6, ⟨0, 2, 2, 2, true⟩),
        (5, ⟨2, 1, 0, 0, true⟩)]) := ⟨exWeights_ok', by decide +kernel⟩

/-- **C28**, for the results: without confusables, and if the scores of recorded variants are between
0 and 1, so are the scores of all results. -/
theorem result_scores_between (m : Vm) (x : Ext) (cfg : Config) (p : Params) (input : List Char)
    (res : List VariantResult) (hw : WeightsOk x.f64 cfg.weights) (hconf : cfg.confusables = [])
    (hlinks : ∀ v ∈ m.decoder, ∀ t s, VariantReference.variantOf t s ∈ v.variants.getD [] →
      0 ≤ s ∧ s ≤ 1)
    (h : m.findVariants x cfg p input = .ok res) :
    ∀ y ∈ res, 0 ≤ y.distScore ∧ y.distScore ≤ 1 := by
  intro y hy
  obtain ⟨qs, l, h1, h2⟩ := findVariants_ok (List.ne_nil_of_mem hy) h
  obtain ⟨hlen, mf, cands, _, _, h5, h6⟩ := scoreAndRank_ok hw.sum.ne' h2
  have hq : qs ≠ [] := fun e => hlen (by rw [e]; rfl)
  have hscored : ∀ z ∈ scoredList m x.f64 cfg p input qs.length l,
      0 ≤ z.distScore ∧ z.distScore ≤ 1 := by
    intro z hz
    simp only [scoredList, hconf, List.isEmpty_nil, Bool.not_true, Bool.false_and,
      Bool.false_eq_true, if_false] at hz
    obtain ⟨c, hc, he⟩ := List.mem_filterMap.mp hz
    unfold scored at he
    split at he
    · cases he
    · split at he
      · cases he
        exact score_between m x cfg.weights p input qs l hw h1 hq c hc
      · cases he
  have hcands : ∀ z ∈ cands, 0 ≤ z.distScore ∧ z.distScore ≤ 1 := by
    split at h5
    · intro z hz
      obtain ⟨c, hc, item, hitem, hh⟩ := (expandVariants_spec h5 z).mp hz
      obtain ⟨b1, b2⟩ := hscored c hc
      rcases hh with ⟨rfl, _⟩ | ⟨t, s, tg, ht, _, rfl⟩
      · exact ⟨b1, b2⟩
      · obtain ⟨s1, s2⟩ := hlinks item (List.mem_of_getElem? hitem) t s ht
        refine ⟨rnd_nonneg _ (mul_nonneg b1 s1), rnd_le_one _ ?_⟩
        calc c.distScore * s ≤ 1 * 1 := mul_le_mul b2 s2 s1 zero_le_one
          _ = 1 := one_mul 1
    · rw [h5]; exact hscored
  rw [h6] at hy
  have hy := ((prune_prefix (.inl hconf) _).1).subset hy
  obtain ⟨z, hz, _, e, _⟩ := mem_normalizeFreq (mem_ranked hy)
  rw [e]
  exact hcands z hz

theorem mild_nil (r : Rounding) : MildConfusables r [] := ⟨by simp, by
  show (1 : Rat) ≤ 19 / 10
  norm_num⟩

theorem boost_from (r : Rounding) (cs : List Confusable) : ∀ w : Rat, r.rnd w = w → 0 ≤ w →
    w ≤ cs.foldl (fun w c => r.rnd (w * max 1 c.weight)) w ∧
      r.rnd (cs.foldl (fun w c => r.rnd (w * max 1 c.weight)) w) =
        cs.foldl (fun w c => r.rnd (w * max 1 c.weight)) w := by
  induction cs with
  | nil => exact fun w hw _ => ⟨le_refl _, hw⟩
  | cons c cs ih =>
    intro w hw h0
    have h1 : w ≤ r.rnd (w * max 1 c.weight) := by
      have : w ≤ w * max 1 c.weight := le_mul_of_one_le_right h0 (le_max_left _ _)
      calc w = r.rnd w := hw.symm
        _ ≤ r.rnd (w * max 1 c.weight) := r.mono _ _ this
    obtain ⟨h2, h3⟩ := ih _ (r.idem _) (h0.trans h1)
    exact ⟨h1.trans h2, h3⟩

theorem one_le_boost (r : Rounding) (cs : List Confusable) : 1 ≤ boost r cs :=
  (boost_from r cs 1 r.one zero_le_one).1

theorem rnd_boost (r : Rounding) (cs : List Confusable) : r.rnd (boost r cs) = boost r cs :=
  (boost_from r cs 1 r.one zero_le_one).2

theorem confusableWeight_between (m : Vm) (r : Rounding) {cfg : Config}
    (hw : ∀ c ∈ cfg.confusables, 0 ≤ c.weight) (input : List Char) (id : Nat) :
    0 ≤ m.confusableWeight r cfg input id ∧ m.confusableWeight r cfg input id ≤ boost r cfg.confusables := by
  unfold Vm.confusableWeight
  split
  · exact ⟨zero_le_one, one_le_boost r _⟩
  · next item _ =>
    generalize cfg.editScript input item.text = script
    have key : ∀ (cs : List Confusable), (∀ c ∈ cs, 0 ≤ c.weight) → ∀ w w' : Rat, 0 ≤ w → w ≤ w' → r.rnd w' = w' →
        0 ≤ cs.foldl (fun w c => if c.foundIn script then r.rnd (w * c.weight) else w) w ∧
        cs.foldl (fun w c => if c.foundIn script then r.rnd (w * c.weight) else w) w ≤
          cs.foldl (fun w c => r.rnd (w * max 1 c.weight)) w' := by
      intro cs
      induction cs with
      | nil => exact fun _ w w' h h' _ => ⟨h, h'⟩
      | cons c cs ih =>
        intro hc w w' h h' hr
        have hcw := hc c List.mem_cons_self
        have ih := ih fun c h => hc c (List.mem_cons_of_mem _ h)
        rw [List.foldl_cons, List.foldl_cons]
        split
        · refine ih _ _ (rnd_nonneg r (mul_nonneg h hcw)) (r.mono _ _ ?_) (r.idem _)
          exact mul_le_mul h' (le_max_right _ _) hcw (h.trans h')
        · refine ih _ _ h ?_ (r.idem _)
          calc w ≤ w' := h'
            _ = r.rnd w' := hr.symm
            _ ≤ r.rnd (w' * max 1 c.weight) :=
              r.mono _ _ (le_mul_of_one_le_right (h.trans h') (le_max_left _ _))
    exact key _ hw 1 1 zero_le_one (le_refl _) r.one

/-- **C28**, with confusables: the scores of all results are between 0 and the product of the weights above
1. -/
theorem result_scores_bounded (m : Vm) (x : Ext) (cfg : Config) (p : Params) (input : List Char)
    (res : List VariantResult) (hw : WeightsOk x.f64 cfg.weights)
    (hcw : ∀ c ∈ cfg.confusables, 0 ≤ c.weight)
    (hlinks : ∀ v ∈ m.decoder, ∀ t s, VariantReference.variantOf t s ∈ v.variants.getD [] →
      0 ≤ s ∧ s ≤ 1)
    (h : m.findVariants x cfg p input = .ok res) :
    ∀ y ∈ res, 0 ≤ y.distScore ∧ y.distScore ≤ boost x.f64 cfg.confusables := by
  intro y hy
  obtain ⟨qs, l, h1, h2⟩ := findVariants_ok (List.ne_nil_of_mem hy) h
  obtain ⟨hlen, mf, cands, _, _, h5, h6⟩ := scoreAndRank_ok hw.sum.ne' h2
  have hq : qs ≠ [] := fun e => hlen (by rw [e]; rfl)
  have hone := one_le_boost x.f64 cfg.confusables
  have hres : ∀ {l : List VariantResult}, (∀ z ∈ l, 0 ≤ z.distScore ∧ z.distScore ≤ 1) →
      ∀ z ∈ m.rescore x.f64 cfg input l, 0 ≤ z.distScore ∧ z.distScore ≤ boost x.f64 cfg.confusables := by
    intro l hl z hz
    obtain ⟨y, hy, rfl⟩ := List.mem_map.mp hz
    obtain ⟨b1, b2⟩ := hl y hy
    obtain ⟨c1, c2⟩ := confusableWeight_between m x.f64 hcw input y.vocabId
    refine ⟨rnd_nonneg _ (mul_nonneg b1 c1), ?_⟩
    rw [← rnd_boost x.f64 cfg.confusables]
    refine x.f64.mono _ _ ?_
    calc y.distScore * m.confusableWeight x.f64 cfg input y.vocabId
        ≤ 1 * boost x.f64 cfg.confusables := mul_le_mul b2 c2 c1 zero_le_one
      _ = boost x.f64 cfg.confusables := one_mul _
  -- the bound before pruning
  obtain ⟨B, hB1, hBr, hB, hlate⟩ : ∃ B, 0 ≤ B ∧ x.f64.rnd B = B ∧ (∀ z ∈ scoredList m x.f64 cfg p input qs.length l,
      0 ≤ z.distScore ∧ z.distScore ≤ B) ∧ B ≤ boost x.f64 cfg.confusables ∧
      (cfg.confusablesBeforePruning = false → B = 1) := by
    have hs : ∀ z ∈ l.filterMap (scored m x.f64 cfg.weights qs.length p.scoreThreshold),
        0 ≤ z.distScore ∧ z.distScore ≤ 1 := by
      intro z hz
      obtain ⟨c, hc, he⟩ := List.mem_filterMap.mp hz
      unfold scored at he
      split at he
      · cases he
      · split at he
        · cases he
          exact score_between m x cfg.weights p input qs l hw h1 hq c hc
        · cases he
    unfold scoredList
    simp only
    cases he : cfg.confusablesBeforePruning with
    | false =>
      refine ⟨1, zero_le_one, x.f64.one, ?_, hone, fun _ => rfl⟩
      rw [Bool.and_false]
      exact hs
    | true =>
      refine ⟨_, le_trans zero_le_one hone, rnd_boost _ _, ?_, le_refl _, fun e => (nomatch e)⟩
      split
      · exact hres hs
      · exact fun z hz => ⟨(hs z hz).1, le_trans (hs z hz).2 hone⟩
  have hcands : ∀ z ∈ cands, 0 ≤ z.distScore ∧ z.distScore ≤ B := by
    split at h5
    · intro z hz
      obtain ⟨c, hc, item, hitem, hh⟩ := (expandVariants_spec h5 z).mp hz
      obtain ⟨b1, b2⟩ := hB c hc
      rcases hh with ⟨rfl, _⟩ | ⟨t, s, tg, ht, _, rfl⟩
      · exact ⟨b1, b2⟩
      · obtain ⟨s1, s2⟩ := hlinks item (List.mem_of_getElem? hitem) t s ht
        refine ⟨rnd_nonneg _ (mul_nonneg b1 s1), ?_⟩
        rw [← hBr]
        refine x.f64.mono _ _ ?_
        calc c.distScore * s ≤ B * 1 := mul_le_mul b2 s2 s1 hB1
          _ = B := mul_one B
    · rw [h5]; exact hB
  have hranked : ∀ z ∈ (if hasLinks m l then dedupIds (rankResults x.f64 p.freqWeight (normalizeFreq x.f64 mf cands))
      else rankResults x.f64 p.freqWeight (normalizeFreq x.f64 mf cands)),
      0 ≤ z.distScore ∧ z.distScore ≤ B := by
    intro z hz
    obtain ⟨c, hc, _, e, _⟩ := mem_normalizeFreq (mem_ranked hz)
    rw [e]
    exact hcands c hc
  rw [h6] at hy
  unfold Vm.prune at hy
  simp only at hy
  have hy := (applyCutoff_prefix _ _ _ _).subset hy
  split at hy
  · next hl =>
    have he : cfg.confusablesBeforePruning = false := by
      simp only [Bool.and_eq_true, Bool.not_eq_true'] at hl
      exact hl.2
    have hy := (rankResults_perm _ _ _).mem_iff.mp hy
    rw [hlate.2 he] at hranked
    exact hres (fun z hz => hranked z ((crop_prefix _ _ _ _).subset hz)) y hy
  · have := hranked y ((crop_prefix _ _ _ _).subset hy)
    exact ⟨this.1, le_trans this.2 hlate.1⟩

example : linked.findVariants exExt exConfig exParams ['b', 'a', 'b'] =
    .ok [⟨3, 5/8, 1, none⟩, ⟨5, 5/8, 1, none⟩, ⟨3, 9/16, 1, some 4⟩] := by decide +kernel

/-- two patterns, of which the first is found for words of two letters -/
def mildConfig : Config :=
  { exConfig with
    confusables := [⟨[.deletion ['b']], 3/2, false, false⟩, ⟨[.insertion ['x']], 1/2, false, false⟩]
    editScript := fun _ t => if t.length = 2 then [.identity ['a'], .deletion ['b']] else [] }

theorem mildConfig_mild : MildConfusables .exact mildConfig.confusables :=
  ⟨by decide +kernel, by decide +kernel⟩

/-- the bound is reached -/
example : boost .exact mildConfig.confusables = 3/2 ∧
    linked.findVariants exExt mildConfig exParams ['a', 'b'] = .ok [⟨3, 3/2, 1, none⟩] :=
  ⟨by decide +kernel, by decide +kernel⟩

/-! ## C29 -/

theorem exactDistance_isDistance (isLower : Char → Bool) (w : Weights) {text : List Char}
    (ht : text ≠ []) (ns : List Nat) :
    IsDistance isLower w ns text ns text (exactDistance w ns.length) := by
  obtain ⟨c, rest, rfl⟩ := List.exists_cons_of_ne_nil ht
  refine ⟨⟨.refl ns, fun _ _ => Nat.zero_le _⟩, fun h => ?_, fun h => ?_, fun h => ?_, fun h => ?_,
    fun h => ?_, fun h => ?_, fun _ => ⟨c, c, rfl, rfl, ?_⟩, fun _ => rfl⟩
  · simp only [exactDistance, if_pos (show w.lcs > 0 from h)]
    exact ⟨⟨ns, List.infix_rfl, List.infix_rfl, rfl⟩, fun k ⟨z, hz, _, e⟩ => e ▸ hz.length_le⟩
  · simp only [exactDistance, if_neg (not_lt.mpr h)]
  · simp only [exactDistance, if_pos (show w.pre > 0 from h)]
    exact ⟨by simp, fun k hk => hk.1⟩
  · simp only [exactDistance, if_neg (not_lt.mpr h)]
  · simp only [exactDistance, if_pos (show w.suf > 0 from h)]
    exact ⟨by simp, fun k hk => hk.1⟩
  · simp only [exactDistance, if_neg (not_lt.mpr h)]
  · simp [exactDistance]

theorem encodes_nil_text {alphabet : Alphabet} {u : Nat} {text : List Char}
    (h : Encodes alphabet u text []) : text = [] := by
  cases h; rfl

/-- The search and the gathering return normally for inputs of any length that the counters of type
`u16` have room for. -/
theorem candidates_defined (alphabet : Alphabet) (hne : NoEmpty alphabet)
    (hlen : alphabet.length ≤ 166) (ops : List Op) (o : Orders) (m : Vm)
    (h : (Vm.new alphabet).run (ops ++ [.build o]) = .ok m)
    (hshort : ∀ v ∈ m.decoder, v.text.length < 65536) (x : Ext) (w : Weights) (p : Params)
    (input : List Char) (hin : input ≠ []) (qs : List Nat)
    (hqs : Encodes alphabet (alphabet.length + 1) input qs) (hq : qs.length < 65536)
    (hroom : qs.length + effectiveDistance x.f32 qs.length p.maxAnagramDistance < 65536 ∨
      p.stopCriterion = .stopAtExactMatch ∧
        ∃ v ∈ m.decoder, v.vocabtype.check .INDEXED = true ∧
          anahash alphabet v.text = anahash alphabet input) :
    ∃ l, m.findCandidates x w p input = .ok (qs, l) ∧ (l.map Prod.fst).Nodup ∧
      (∀ id d, (id, d) ∈ l → ∃ v, m.decoder[id]? = some v ∧ v.vocabtype.check .INDEXED = true) ∧
      ∀ id v, m.decoder[id]? = some v → v.vocabtype.check .INDEXED = true → v.text = input →
        (id, exactDistance w qs.length) ∈ l := by
  have hb := built_of_run h
  have ha := (encodes_change hqs alphabet.length).resolve_right (by omega)
  generalize hav : (qs.map fun c => if c < alphabet.length then c else alphabet.length) = a at ha
  have hal : a.length = qs.length := by rw [← hav, List.length_map]
  have ha0 : a ≠ [] := by
    rintro rfl
    cases ha
    exact hin rfl
  have hhash := anahash_eq (by omega : alphabet.length ≤ 167) ha
  have hk := effectiveDistance_le x.f32 qs.length p.maxAnagramDistance
  generalize hkv : effectiveDistance x.f32 qs.length p.maxAnagramDistance = k at hk
  have hne1 : bagValue a ≠ 1 := fun e =>
    ha0 (bagValue_eq_one (Within.mono (encodes_within ha) (by omega)) e)
  have hown : ∀ v ∈ m.decoder, v.vocabtype.check .INDEXED = true → v.text = input →
      (m.index.get? (bagValue a)).isSome := by
    intro v hv hi ht
    rw [check_indexed'] at hi
    obtain ⟨i, hi'⟩ := List.getElem?_of_mem hv
    obtain ⟨k', node, hk', hnode⟩ := hb.complete i v hi' hi
    rw [ht, hhash] at hk'
    cases hk'
    rw [hnode]; rfl
  -- the search
  have hex : a.length + k < 65536 → ∃ near, m.findNearestAnahashes x.lookups (bagValue a) k .exhaustive = .ok near ∧
      near.Nodup ∧ (∀ n ∈ near, (m.index.get? n).isSome) ∧ 1 ∉ near ∧
      ((m.index.get? (bagValue a)).isSome → bagValue a ∈ near) := by
    intro hak
    obtain ⟨hash, near, h1, h2, h3, h4⟩ := nearest_exact_general alphabet hne (by omega) ops o m h
      x.lookups hshort input a ha ha0 (fun c hc => by have := encodes_within ha c hc; omega) k hk
      hak
    rw [hhash] at h1; cases h1
    refine ⟨near, h2, h3.imp fun h => Nat.ne_of_lt h, ?_, ?_, ?_⟩
    · intro n hn
      obtain ⟨v, hv, hi, c, _, hn, _⟩ := (h4 n).mp hn
      rw [check_indexed'] at hi
      obtain ⟨i, hi'⟩ := List.getElem?_of_mem hv
      obtain ⟨k', node, hk', hnode⟩ := hb.complete i v hi' hi
      rw [hn] at hk'
      cases hk'
      rw [hnode]; rfl
    · intro hone
      obtain ⟨v, _, _, c, hc, hn, _, ⟨y, _, hy⟩, _⟩ := (h4 1).mp hone
      rw [anahash_eq (by omega) hc] at hn
      have := bagValue_eq_one (Within.mono (encodes_within hc) (by omega)) (Except.ok.inj hn)
      subst this
      cases hy
    · intro hs
      obtain ⟨node, hnode⟩ := Option.isSome_iff_exists.mp hs
      obtain ⟨g1, _, g2, _⟩ := hb.node _ node hnode
      obtain ⟨id, hid⟩ := List.exists_mem_of_ne_nil _ g1
      obtain ⟨v, hv, hi, hva⟩ := (g2 id).mp hid
      obtain ⟨c, hc⟩ := encodes_exists hne alphabet.length v.text
      have hperm : c.Perm a := by
        rw [anahash_eq (by omega) hc] at hva
        exact (bagValue_inj (Within.mono (encodes_within hc) (by omega))
          (Within.mono (encodes_within ha) (by omega))).mp (Except.ok.inj hva)
      obtain ⟨y, hy⟩ := List.exists_mem_of_ne_nil _ ha0
      refine (h4 _).mpr ⟨v, List.mem_of_getElem? hv, by rw [check_indexed']; exact hi, c, hc, hva,
        ?_, ⟨y, hy, hperm.mem_iff.mpr hy⟩, .inr hperm.subperm⟩
      have : bagDiff a c = bagDiff a a := by
        unfold bagDiff
        rw [hperm.diff_left a, (hperm.diff_right a).length_eq]
      rw [this, bagDiff_self]
      exact Nat.zero_le _
  have hnear : ∃ near, m.findNearestAnahashes x.lookups (bagValue a) k p.stopCriterion = .ok near ∧
      near.Nodup ∧ (∀ n ∈ near, (m.index.get? n).isSome) ∧ 1 ∉ near ∧
      ((m.index.get? (bagValue a)).isSome → bagValue a ∈ near) := by
    have hroom : a.length + k < 65536 ∨ p.stopCriterion = .stopAtExactMatch ∧
        (m.index.get? (bagValue a)).isSome := by
      refine hroom.imp (by rw [hal, hkv]; exact id) fun ⟨hs, v, hv, hi, he⟩ => ⟨hs, ?_⟩
      rw [check_indexed'] at hi
      obtain ⟨i, hi'⟩ := List.getElem?_of_mem hv
      obtain ⟨k', node, hk', hnode⟩ := hb.complete i v hi' hi
      rw [he, hhash] at hk'
      cases hk'
      rw [hnode]; rfl
    cases hcrit : p.stopCriterion with
    | exhaustive => exact hex (hroom.resolve_right fun h => by rw [hcrit] at h; cases h.1)
    | stopAtExactMatch =>
      obtain ⟨e1, e2⟩ := stop_at_exact_match alphabet ops o m h x.lookups (bagValue a) k
      cases hs : m.index.get? (bagValue a) with
      | none =>
        rw [e2 hs, ← hs]
        exact hex (hroom.resolve_right fun h => by rw [hs] at h; cases h.2)
      | some node =>
        refine ⟨_, e1 (by rw [hs]; rfl), List.nodup_singleton _, ?_, ?_, fun _ => ?_⟩
        · intro n hn
          rw [List.mem_singleton] at hn
          rw [hn, hs]; rfl
        · intro hc
          rw [List.mem_singleton] at hc
          exact hne1 hc.symm
        · exact List.mem_singleton_self _
  obtain ⟨near, n1, n2, n3, n4, n5⟩ := hnear
  obtain ⟨l, g1, g2, g3, g4⟩ := gatherInstances_any hb x.isLower w (query := input)
    (effectiveDistance_le x.f32 qs.length p.maxEditDistance) hq (fun _ => hin) near n2 n3 (by
      intro _ v _ _ j hj hja ht
      rw [ht, anahash_eq (by omega) Encodes.nil] at hja
      cases hja
      exact n4 hj)
  refine ⟨l, ?_, g2, ?_, ?_⟩
  · simp only [Vm.findCandidates, hb.alpha, normalize_eq (by omega : alphabet.length ≤ 254) hqs,
      hhash, hkv, n1, g1, bind, Except.bind, pure, Except.pure]
  · intro id d hd
    obtain ⟨v, hv, hi, _⟩ := g3 id d hd
    exact ⟨v, hv, by rw [check_indexed']; exact hi⟩
  · intro id v hv hi ht
    have hi' : v.vocabtype.indexed = true := by rwa [check_indexed'] at hi
    refine g4 id v hv hi' ⟨_, n5 (hown v (List.mem_of_getElem? hv) hi ht), ?_⟩ ?_ _ ?_
    · rw [ht]; exact hhash
    · have h3 : 3 ≤ id := by
        by_contra hcon
        have := hb.inv.notIndexed id (by omega) v hv
        rw [hi'] at this; cases this
      have := hb.norm id v hv h3
      rw [hb.alpha, ht, normalize_eq (by omega) hqs] at this
      exact (Except.ok.inj this).symm
    · rw [ht]; exact exactDistance_isDistance x.isLower w hin qs

/-- The search and the gathering return normally for either stop criterion, for inputs of up to 65280
symbols (the largest distance is 255). -/
theorem candidates_total (alphabet : Alphabet) (hne : NoEmpty alphabet)
    (hlen : alphabet.length ≤ 166) (ops : List Op) (o : Orders) (m : Vm)
    (h : (Vm.new alphabet).run (ops ++ [.build o]) = .ok m)
    (hshort : ∀ v ∈ m.decoder, v.text.length < 65536) (x : Ext) (w : Weights) (p : Params)
    (input : List Char) (hin : input ≠ []) (qs : List Nat)
    (hqs : Encodes alphabet (alphabet.length + 1) input qs) (hq : qs.length ≤ 65280) :
    ∃ l, m.findCandidates x w p input = .ok (qs, l) ∧ (l.map Prod.fst).Nodup ∧
      (∀ id d, (id, d) ∈ l → ∃ v, m.decoder[id]? = some v ∧ v.vocabtype.check .INDEXED = true) ∧
      ∀ id v, m.decoder[id]? = some v → v.vocabtype.check .INDEXED = true → v.text = input →
        (id, exactDistance w qs.length) ∈ l := by
  have := effectiveDistance_le x.f32 qs.length p.maxAnagramDistance
  exact candidates_defined alphabet hne hlen ops o m h hshort x w p input hin qs hqs (by omega)
    (.inl (by omega))

example : NoEmpty exAlphabet ∧ (∀ v ∈ plain.decoder, v.text.length < 65536) ∧
    plain.findCandidates exExt .default { exParams with stopCriterion := .stopAtExactMatch }
      ['b', 'a'] = .ok ([1, 0], [(3, ⟨1, 1, 0, 0, true⟩), (6, ⟨0, 2, 2, 2, true⟩)]) := by
  decide +kernel

/-- **C29**: an indexed entry is a candidate for its own text, with similarity exactly 1. -/
theorem exact_match_candidate (alphabet : Alphabet) (hne : NoEmpty alphabet)
    (hlen : alphabet.length ≤ 166) (ops : List Op) (o : Orders) (m : Vm)
    (h : (Vm.new alphabet).run (ops ++ [.build o]) = .ok m)
    (hshort : ∀ v ∈ m.decoder, v.text.length < 65536) (x : Ext) (w : Weights)
    (hw : WeightsOk x.f64 w) (p : Params) (id : Nat) (v : VocabValue)
    (hv : m.decoder[id]? = some v) (hi : v.vocabtype.check .INDEXED = true) (hv0 : v.text ≠ [])
    (hv1 : v.text.length ≤ 65280) :
    ∃ qs l d, m.findCandidates x w p v.text = .ok (qs, l) ∧ (id, d) ∈ l ∧
      similarity x.f64 w qs.length d = 1 := by
  obtain ⟨qs, hqs⟩ := encodes_exists hne (alphabet.length + 1) v.text
  have hl := encodes_length hqs
  obtain ⟨l, h1, _, _, h2⟩ := candidates_total alphabet hne hlen ops o m h hshort x w p v.text hv0 qs
    hqs (by omega)
  refine ⟨qs, l, _, h1, h2 id v hv hi rfl, similarity_exact x.f64 hw ?_⟩
  rw [List.length_pos_iff]
  rintro rfl
  exact hv0 (encodes_nil_text hqs)

example : (plain.decoder[6]?.map fun v => (v.text, v.vocabtype.check .INDEXED)) =
    some (['b', 'a'], true) ∧ similarity exExt'.f64 .default 2 ⟨0, 2, 2, 2, true⟩ = 1 := by
  decide +kernel

/-- **C29**: without confusables, links and frequency weight, the first result for the text of an
indexed entry has score exactly 1. -/
theorem exact_match_first (alphabet : Alphabet) (hne : NoEmpty alphabet)
    (hlen : alphabet.length ≤ 166) (ops : List Op) (o : Orders) (m : Vm)
    (h : (Vm.new alphabet).run (ops ++ [.build o]) = .ok m)
    (hshort : ∀ v ∈ m.decoder, v.text.length < 65536) (hlinks : NoLinks m) (x : Ext) (cfg : Config)
    (hw : WeightsOk x.f64 cfg.weights) (hconf : cfg.confusables = []) (p : Params)
    (hfw : p.freqWeight = 0) (hthr : p.scoreThreshold ≤ 1) (id : Nat) (v : VocabValue)
    (hv : m.decoder[id]? = some v) (hi : v.vocabtype.check .INDEXED = true) (hv0 : v.text ≠ [])
    (hv1 : v.text.length ≤ 65280) :
    ∃ best rest, m.findVariants x cfg p v.text = .ok (best :: rest) ∧
      best.score x.f64 p.freqWeight = 1 := by
  obtain ⟨qs, l, d, h1, h2, h3⟩ := exact_match_candidate alphabet hne hlen ops o m h hshort x
    cfg.weights hw p id v hv hi hv0 hv1
  have hb := built_of_run h
  have hqs : qs ≠ [] := by
    obtain ⟨qs', hqs'⟩ := encodes_exists hne (alphabet.length + 1) v.text
    simp only [Vm.findCandidates, hb.alpha, normalize_eq (by omega : alphabet.length ≤ 254) hqs',
      bind_ok, pure_ok, Prod.mk.injEq] at h1
    obtain ⟨ns, e1, _, _, _, _, _, _, rfl, _⟩ := h1
    cases e1
    rintro rfl
    exact hv0 (encodes_nil_text hqs')
  have hidx : m.index.isEmpty = false := by
    rw [check_indexed'] at hi
    obtain ⟨k', node, _, hnode⟩ := hb.complete id v hv hi
    cases hm : m.index with
    | nil => rw [hm] at hnode; cases hnode
    | cons => rfl
  have hlen0 : qs.length ≠ 0 := fun e => hqs (List.length_eq_zero_iff.mp e)
  obtain ⟨mf, hmf, _, hsr⟩ := scoreAndRank_eq (m := m) (r := x.f64) (cfg := cfg) p v.text l
    hw.sum.ne' hlen0
  rw [noLinks_hasLinks hlinks, if_neg (by simp)] at hsr
  have hfv : m.findVariants x cfg p v.text = m.scoreAndRank x.f64 cfg p v.text qs.length l := by
    unfold Vm.findVariants
    rw [hidx, if_neg (by simp), h1]
    rfl
  rw [hfv, hsr]
  have hmem : ∃ y ∈ rankResults x.f64 p.freqWeight (normalizeFreq x.f64 mf
      (scoredList m x.f64 cfg p v.text qs.length l)), y.distScore = 1 := by
    have h4 : (⟨id, 1, if m.haveFreq then x.f64.rnd v.frequency else 1, none⟩ : VariantResult) ∈
        scoredList m x.f64 cfg p v.text qs.length l := by
      simp only [scoredList, hconf, List.isEmpty_nil, Bool.not_true, Bool.false_and,
        Bool.false_eq_true, if_false]
      refine List.mem_filterMap.mpr ⟨_, h2, ?_⟩
      simp only [scored, hv, h3, ge_iff_le, hthr, if_true]
    unfold normalizeFreq
    split
    · exact ⟨_, (rankResults_perm _ _ _).mem_iff.mpr (List.mem_map.mpr ⟨_, h4, rfl⟩), rfl⟩
    · exact ⟨_, (rankResults_perm _ _ _).mem_iff.mpr h4, rfl⟩
  obtain ⟨y, hy, hy1⟩ := hmem
  have hsorted := rankResults_sorted x.f64 p.freqWeight (normalizeFreq x.f64 mf
      (scoredList m x.f64 cfg p v.text qs.length l))
  obtain ⟨_, hhead⟩ := prune_prefix (m := m) (r := x.f64) (cfg := cfg) (p := p) (input := v.text)
    (.inl hconf) (rankResults x.f64 p.freqWeight (normalizeFreq x.f64 mf
      (scoredList m x.f64 cfg p v.text qs.length l)))
  have hall : ∀ z ∈ rankResults x.f64 p.freqWeight (normalizeFreq x.f64 mf
      (scoredList m x.f64 cfg p v.text qs.length l)), z.distScore ≤ 1 := by
    intro z hz
    obtain ⟨z', hz', _, e, _⟩ := mem_normalizeFreq ((rankResults_perm _ _ _).mem_iff.mp hz)
    simp only [scoredList, hconf, List.isEmpty_nil, Bool.not_true, Bool.false_and,
      Bool.false_eq_true, if_false] at hz'
    obtain ⟨c, hc, he⟩ := List.mem_filterMap.mp hz'
    unfold scored at he
    split at he
    · cases he
    · split at he
      · cases he
        rw [e]
        exact (score_between m x cfg.weights p v.text qs l hw h1 hqs c hc).2
      · cases he
  generalize rankResults x.f64 p.freqWeight (normalizeFreq x.f64 mf
      (scoredList m x.f64 cfg p v.text qs.length l)) = ranked at *
  cases ranked with
  | nil => cases hy
  | cons best rest =>
    cases hp : m.prune x.f64 cfg p v.text (best :: rest) with
    | nil => rw [hp] at hhead; cases hhead
    | cons b rest' =>
      rw [hp] at hhead
      cases hhead
      refine ⟨best, rest', rfl, ?_⟩
      have hle : y.score x.f64 p.freqWeight ≤ best.score x.f64 p.freqWeight := by
        rcases List.mem_cons.mp hy with rfl | hy
        · exact le_rfl
        · exact rankLe_score x.f64 hfw.ge (List.rel_of_pairwise_cons hsorted hy)
      have e : ∀ z : VariantResult, z.score x.f64 p.freqWeight = z.distScore := by
        intro z
        rw [VariantResult.score, if_pos hfw]
      rw [e, e, hy1] at hle
      rw [e]
      exact le_antisymm (hall best List.mem_cons_self) hle

example : NoLinks plain ∧ plain.findVariants exExt' exConfig exParams ['b', 'a'] =
    .ok [⟨6, 1, 1, none⟩] := by decide +kernel

end Verif.Props
