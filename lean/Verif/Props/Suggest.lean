import Verif.Spec.Suggest
import Verif.Props.Similar
import Verif.Props.Confusable

/-!
# What queries find, with links and confusables (C99)
-/
namespace Verif.Props

open Verif.Spec Verif.Model Verif.Lemmas

/-! ## Candidates, also when the search stops at exact matches -/

theorem bagDiff_perm {a c c' : List Nat} (h : c.Perm c') {n : Nat} (hd : bagDiff a c ≤ n) :
    bagDiff a c' ≤ n := by
  obtain ⟨b, r, s, p1, p2, p3⟩ := bagDiff_le_iff.mp hd
  exact bagDiff_le_iff.mpr ⟨b, r, s, p1, p2.trans h, p3⟩

theorem candidates_any (alphabet : Alphabet) (hne : NoEmpty alphabet)
    (hlen : alphabet.length ≤ 166) (ops : List Op) (o : Orders) (m : Vm)
    (h : (Vm.new alphabet).run (ops ++ [.build o]) = .ok m)
    (hshort : ∀ v ∈ m.decoder, v.text.length < 65536) (x : Ext) (w : Weights) (p : Params)
    (input : List Char) (hin : input ≠ []) (a qs : List Nat)
    (ha : Encodes alphabet alphabet.length input a)
    (hqs : Encodes alphabet (alphabet.length + 1) input qs)
    (hal : qs.length + effectiveDistance x.f32 qs.length p.maxAnagramDistance ≤ 255) :
    ∃ l, m.findCandidates x w p input = .ok (qs, l) ∧ (l.map Prod.fst).Nodup ∧
      ∀ id d, (id, d) ∈ l ↔ ∃ v, m.decoder[id]? = some v ∧ v.vocabtype.check .INDEXED = true ∧
        (∃ c ns, Encodes alphabet alphabet.length v.text c ∧
          Encodes alphabet (alphabet.length + 1) v.text ns ∧
          bagDiff a c ≤ effectiveDistance x.f32 qs.length p.maxAnagramDistance ∧
          (∃ y ∈ a, y ∈ c) ∧ IsDistance x.isLower w qs input ns v.text d ∧
          d.ld ≤ effectiveDistance x.f32 qs.length p.maxEditDistance) ∧
        (p.stopCriterion = .stopAtExactMatch → (∃ u ∈ m.decoder, u.vocabtype.check .INDEXED = true ∧
          Anagram alphabet input u.text) → Anagram alphabet input v.text) := by
  have hb := built_of_run h
  have hhash := anahash_eq (by omega : alphabet.length ≤ 167) ha
  have hana : ∀ {t : List Char} {k : Nat}, anahash alphabet t = .ok k →
      (k = bagValue a ↔ Anagram alphabet input t) := by
    intro t k hk
    obtain ⟨c, hc⟩ := encodes_exists hne alphabet.length t
    rw [anahash_eq (by omega) hc] at hk
    have hinj := bagValue_inj (Within.mono (encodes_within ha) (by omega : _ ≤ 168))
      (Within.mono (encodes_within hc) (by omega : _ ≤ 168))
    constructor
    · intro e
      exact ⟨a, c, ha, hc, hinj.mp ((e.symm.trans (Except.ok.inj hk).symm))⟩
    · rintro ⟨a', c', ha', hc', hp⟩
      cases encodes_unique ha' ha
      cases encodes_unique hc' hc
      exact (Except.ok.inj hk).symm.trans (hinj.mpr hp).symm
  have hindex : (∃ u ∈ m.decoder, u.vocabtype.check .INDEXED = true ∧ Anagram alphabet input u.text) ↔
      (m.index.get? (bagValue a)).isSome := by
    constructor
    · rintro ⟨u, hu, hi, hA⟩
      rw [check_indexed'] at hi
      obtain ⟨i, hi'⟩ := List.getElem?_of_mem hu
      obtain ⟨k, node, hk, hnode⟩ := hb.complete i u hi' hi
      rw [← (hana hk).mpr hA, hnode]
      rfl
    · intro hs
      obtain ⟨node, hn⟩ := Option.isSome_iff_exists.mp hs
      obtain ⟨h1, _, h2, _⟩ := hb.node _ node hn
      obtain ⟨id, hid⟩ := List.exists_mem_of_ne_nil _ h1
      obtain ⟨v, hv, hi, hk⟩ := (h2 id).mp hid
      exact ⟨v, List.mem_of_getElem? hv, by rw [check_indexed']; exact hi, (hana hk).mp rfl⟩
  -- the exhaustive search
  have hex : ∀ p' : Params, p'.maxAnagramDistance = p.maxAnagramDistance →
      p'.maxEditDistance = p.maxEditDistance → p'.stopCriterion = .exhaustive → _ := fun p' e1 e2 e3 =>
    candidates_exact alphabet hne hlen ops o m h hshort x w p' e3 input hin a qs ha hqs (by rw [e1]; exact hal)
  by_cases hstop : p.stopCriterion = .stopAtExactMatch ∧ (m.index.get? (bagValue a)).isSome
  · obtain ⟨hstop, hs⟩ := hstop
    have hnear := (stop_at_exact_match alphabet ops o m h x.lookups (bagValue a)
      (effectiveDistance x.f32 qs.length p.maxAnagramDistance)).1 hs
    have hane : a ≠ [] := fun e => hin (encodes_nil_text (e ▸ ha))
    obtain ⟨l, g1, g2, g3⟩ := gather_exact alphabet hne (by omega) ops o m h x.isLower w input hin qs
      (by omega) (effectiveDistance x.f32 qs.length p.maxEditDistance) (effectiveDistance_le _ _ _)
      [bagValue a] (by simp) (by simpa using hs) (by
        intro _ hone
        exact hane (bagValue_eq_one (Within.mono (encodes_within ha) (by omega))
          (List.mem_singleton.mp hone).symm))
    refine ⟨l, ?_, g2, fun id d => ?_⟩
    · simp only [Vm.findCandidates, hb.alpha, normalize_eq (by omega : alphabet.length ≤ 254) hqs, hhash,
        hstop, hnear, g1, bind, Except.bind, pure, Except.pure]
    · rw [g3]
      constructor
      · rintro ⟨v, hv, hi, ⟨k, hk, ha'⟩, ns, hns, hd, hle⟩
        have hk := List.mem_singleton.mp hk
        obtain ⟨a', c, ea, hc, hp⟩ := (hana ha').mp hk
        cases encodes_unique ea ha
        obtain ⟨y, hy⟩ := List.exists_mem_of_ne_nil _ hane
        refine ⟨v, hv, hi, ⟨c, ns, hc, hns, ?_, ⟨y, hy, hp.mem_iff.mp hy⟩, hd, hle⟩,
          fun _ _ => (hana ha').mp hk⟩
        exact bagDiff_le_iff.mpr ⟨a, [], [], by simp, by simpa using hp, by simp⟩
      · rintro ⟨v, hv, hi, ⟨c, ns, hc, hns, hdiff, hsh, hd, hle⟩, hst⟩
        have hA := hst hstop (hindex.mpr hs)
        have hk := anahash_eq (by omega : alphabet.length ≤ 167) hc
        exact ⟨v, hv, hi, ⟨_, List.mem_singleton.mpr ((hana hk).mpr hA), hk⟩, ns, hns, hd, hle⟩
  · obtain ⟨l, h1, h2, h3⟩ := hex { p with stopCriterion := .exhaustive } rfl rfl rfl
    refine ⟨l, ?_, h2, fun id d => ?_⟩
    · rw [← h1]
      unfold Vm.findCandidates
      refine bind_congr fun ns => ?_
      rw [hb.alpha, hhash]
      simp only [bind, Except.bind]
      cases hc : p.stopCriterion with
      | exhaustive => rfl
      | stopAtExactMatch =>
        have hn : m.index.get? (bagValue a) = none := by
          cases hg : m.index.get? (bagValue a) with
          | none => rfl
          | some node => exact absurd ⟨hc, by rw [hg]; rfl⟩ hstop
        rw [(stop_at_exact_match alphabet ops o m h x.lookups (bagValue a) _).2 hn]
    · rw [h3]
      constructor
      · rintro ⟨v, hv, hi, hr⟩
        exact ⟨v, hv, hi, hr, fun e hex => absurd ⟨e, hindex.mp hex⟩ hstop⟩
      · rintro ⟨v, hv, hi, hr, _⟩
        exact ⟨v, hv, hi, hr⟩

/-! ## From results to suggestions -/

/-- the text of an entry; empty if there is none -/
def nameOf (m : Vm) (id : Nat) : List Char := ((m.decoder[id]?).map VocabValue.text).getD []

/-- a result as a suggestion -/
def suggestion (m : Vm) (r : VariantResult) : Suggestion :=
  ⟨nameOf m r.vocabId, r.distScore, r.freqScore, r.via.map (nameOf m)⟩

theorem nameOf_some {m : Vm} {id : Nat} {v : VocabValue} (h : m.decoder[id]? = some v) :
    nameOf m id = v.text := by
  unfold nameOf
  rw [h]
  rfl

/-- the entries a result names exist -/
def Valid (m : Vm) (r : VariantResult) : Prop :=
  (∃ v, m.decoder[r.vocabId]? = some v) ∧ ∀ i, r.via = some i → ∃ v, m.decoder[i]? = some v

theorem nameOf_inj {m : Vm} (hinv : Inv m) {i j : Nat} {v w : VocabValue} (hi : m.decoder[i]? = some v)
    (hj : m.decoder[j]? = some w) (h : nameOf m i = nameOf m j) : i = j := by
  rw [nameOf_some hi, nameOf_some hj] at h
  have e1 := (hinv.bij v.text i).mpr (by unfold textAt; rw [hi]; rfl)
  have e2 := (hinv.bij w.text j).mpr (by unfold textAt; rw [hj]; rfl)
  rw [h, e2] at e1
  exact (Option.some.inj e1).symm

theorem suggestion_overall (m : Vm) (r : Rounding) (fw : Rat) (y : VariantResult) :
    (suggestion m y).overall r fw = y.score r fw := rfl

theorem suggestion_notWorse {m : Vm} {r : Rounding} {fw : Rat} (hfw : 0 ≤ fw) {a b : VariantResult}
    (h : rankLe r fw a b = true) : (suggestion m a).NotWorse r fw (suggestion m b) := by
  rw [rankLe_iff] at h
  unfold Suggestion.NotWorse
  rcases hfw.eq_or_lt with h0 | h0
  · rw [if_pos h0.symm]
    rw [if_neg (by rw [← h0]; exact lt_irrefl 0)] at h
    exact h
  · rw [if_neg h0.ne']
    rw [if_pos h0] at h
    exact h

/-- the factor for a word -/
def factorOf (r : Rounding) (cfg : Config) (input t : List Char) : Rat :=
  ((cfg.confusables.filter fun c => c.foundIn (cfg.editScript input t)).map Confusable.weight).foldl
    (fun a b => r.rnd (a * b)) 1

theorem factorOf_ok (r : Rounding) (cfg : Config) (input t : List Char) :
    Factor r cfg.confusables (cfg.editScript input t) (factorOf r cfg input t) :=
  ⟨_, fun c => found_in_exact c _, rfl⟩

theorem rescore_suggestion {m : Vm} {r : Rounding} {cfg : Config} {input : List Char}
    {l : List VariantResult} (h : ∀ y ∈ l, Valid m y) :
    (m.rescore r cfg input l).map (suggestion m) =
      (l.map (suggestion m)).map (Suggestion.weighted r (factorOf r cfg input)) := by
  unfold Vm.rescore
  rw [List.map_map, List.map_map]
  refine List.map_congr_left fun y hy => ?_
  obtain ⟨⟨v, hv⟩, _⟩ := h y hy
  simp only [Function.comp, suggestion, Suggestion.weighted,
    confusable_weight_product m r cfg input y.vocabId v hv, nameOf_some hv, factorOf]

theorem rescore_valid {m : Vm} {r : Rounding} {cfg : Config} {input : List Char}
    {l : List VariantResult} (h : ∀ y ∈ l, Valid m y) : ∀ y ∈ m.rescore r cfg input l, Valid m y := by
  intro y hy
  obtain ⟨z, hz, rfl⟩ := List.mem_map.mp hy
  exact h z hz

theorem dedupIds_suggestion {m : Vm} (hinv : Inv m) {l : List VariantResult} (h : ∀ y ∈ l, Valid m y) :
    (dedupIds l).map (suggestion m) =
      (l.map (suggestion m)).destutter fun u v => u.word ≠ v.word := by
  induction l with
  | nil => rfl
  | cons a l ih =>
    have ih := ih fun y hy => h y (List.mem_cons_of_mem _ hy)
    cases l with
    | nil => rfl
    | cons b l =>
      obtain ⟨k, hk⟩ := dedupIds_cons b l
      have hab : (suggestion m a).word = (suggestion m b).word ↔ a.vocabId = b.vocabId := by
        obtain ⟨⟨va, ha⟩, _⟩ := h a (by simp)
        obtain ⟨⟨vb, hb⟩, _⟩ := h b (by simp)
        exact ⟨nameOf_inj hinv ha hb, fun e => by simp only [suggestion, e]⟩
      rw [hk] at ih
      simp only [dedupIds] at hk ⊢
      rw [hk]
      simp only
      rw [List.map_cons, List.map_cons, List.destutter_cons_cons]
      rw [List.map_cons, List.map_cons, List.destutter_cons'] at ih
      split
      · next e =>
        rw [if_neg (fun hn => hn (hab.mpr e))]
        -- the first of the run stands for the run
        have key : ∀ (t : List Suggestion) (u v : Suggestion), u.word = v.word →
            (List.destutter' (fun u v : Suggestion => u.word ≠ v.word) u t).tail =
              (List.destutter' (fun u v : Suggestion => u.word ≠ v.word) v t).tail := by
          intro t
          induction t with
          | nil => intro u v _; rfl
          | cons w t iht =>
            intro u v e
            simp only [List.destutter']
            by_cases hw : u.word = w.word
            · rw [if_neg (fun h => h hw), if_neg (fun h => h (e ▸ hw))]
              exact iht u v e
            · rw [if_pos hw, if_pos (e ▸ hw)]
              rfl
        have hhead : ∀ (t : List Suggestion) (u : Suggestion),
            ∃ q, List.destutter' (fun u v : Suggestion => u.word ≠ v.word) u t = u :: q := by
          intro t
          induction t with
          | nil => intro u; exact ⟨[], rfl⟩
          | cons w t iht =>
            intro u
            simp only [List.destutter']
            split
            · exact ⟨_, rfl⟩
            · exact iht u
        obtain ⟨q, hq⟩ := hhead (l.map (suggestion m)) (suggestion m a)
        have := key (l.map (suggestion m)) _ _ (hab.mpr e)
        rw [hq, ← ih] at this
        rw [hq, List.map_cons]
        simpa using this.symm
      · next e =>
        rw [if_pos (fun hn => e (hab.mp hn)), ← ih]
        rfl

theorem expandRefs_suggestion {m : Vm} {r : Rounding} {y : VariantResult} {L : Lexis}
    {refs : List VariantReference} {A : List VariantResult} {ls : List (List Char × Rat)}
    (h : m.expandRefs r y refs = .ok A)
    (hl : List.Forall₂ (fun r l => ∃ id t, r = .variantOf id l.2 ∧ m.decoder[id]? = some t ∧ t.text = l.1 ∧
        L.freq t.text = t.frequency)
      (refs.filter fun | .variantOf _ _ => true | .referenceFor _ _ => false) ls) :
    A.map (suggestion m) = ls.map fun l => ⟨l.1, r.rnd (y.distScore * l.2),
      min (r.rnd (L.freq l.1)) y.freqScore, some (nameOf m y.vocabId)⟩ := by
  induction refs generalizing A ls with
  | nil => cases h; cases hl; rfl
  | cons a refs ih =>
    cases a with
    | referenceFor i s => exact ih h hl
    | variantOf t s =>
      simp only [Vm.expandRefs] at h
      split at h
      · cases h
      · next item hitem =>
        simp only [bind_ok, pure_ok] at h
        obtain ⟨rest, h1, rfl⟩ := h
        rw [List.filter_cons_of_pos rfl] at hl
        cases hl with
        | @cons _ l _ ls hl1 hl2 =>
        obtain ⟨id, tv, e1, e2, e3, e4⟩ := hl1
        cases e1
        rw [hitem] at e2
        cases e2
        rw [List.map_cons, List.map_cons, ih h1 hl2]
        congr 1
        simp only [suggestion, Option.map_some, nameOf_some hitem, e3]
        rw [← e3, e4]
        congr 1
        split
        · next h => exact (min_eq_left h.le).symm
        · next h => exact (min_eq_right (not_lt.mp h)).symm

theorem expandVariants_suggestion {m : Vm} {r : Rounding} {L : Lexis} (hL : Describes m L)
    {l A : List VariantResult} (h : m.expandVariants r l = .ok A)
    (hi : ∀ y ∈ l, ∀ v, m.decoder[y.vocabId]? = some v → v.vocabtype.check .INDEXED = true) :
    A.map (suggestion m) = (l.map (suggestion m)).flatMap (Suggestion.followed r L) := by
  induction l generalizing A with
  | nil => cases h; rfl
  | cons y l ih =>
    simp only [Vm.expandVariants] at h
    split at h
    · cases h
    · next item hitem =>
      simp only [bind_ok, pure_ok] at h
      obtain ⟨refs, h1, rest, h2, rfl⟩ := h
      have hidx := hi y List.mem_cons_self item hitem
      have hmem := List.mem_of_getElem? hitem
      rw [List.map_append, List.map_append, ih h2 fun z hz => hi z (List.mem_cons_of_mem _ hz),
        List.map_cons, List.flatMap_cons, expandRefs_suggestion h1 (hL.links item hmem hidx)]
      congr 1
      unfold Suggestion.followed
      simp only [suggestion, nameOf_some hitem, hL.transparent item hmem hidx]
      congr 1
      split
      · rfl
      · simp only [List.map_cons, List.map_nil, suggestion, nameOf_some hitem]

theorem expandVariants_valid {m : Vm} {r : Rounding} {l A : List VariantResult}
    (h : m.expandVariants r l = .ok A) (hl : ∀ y ∈ l, Valid m y) : ∀ y ∈ A, Valid m y := by
  intro y hy
  obtain ⟨z, hz, item, hitem, ⟨rfl, _⟩ | ⟨t, s, tg, _, htg, rfl⟩⟩ := (expandVariants_spec h y).mp hy
  · exact hl y hz
  · exact ⟨⟨tg, htg⟩, fun i e => by cases e; exact ⟨item, hitem⟩⟩

theorem suggestedBy_suggestion {m : Vm} {y : VariantResult} (h : Valid m y) :
    SuggestedBy m y (suggestion m y) := by
  obtain ⟨⟨v, hv⟩, h2⟩ := h
  refine ⟨⟨v, hv, (nameOf_some hv).symm⟩, rfl, rfl, ?_⟩
  unfold suggestion
  cases hvia : y.via with
  | none => exact .inl ⟨rfl, rfl⟩
  | some i =>
    obtain ⟨w, hw⟩ := h2 i hvia
    exact .inr ⟨i, w, rfl, hw, by rw [Option.map_some, nameOf_some hw]⟩

theorem normalizeFreq_suggestion {m : Vm} {r : Rounding} {mf : Rat} {l : List VariantResult}
    (h0 : 0 ≤ mf) (h : ∀ y ∈ l, 0 ≤ y.freqScore ∧ y.freqScore ≤ mf) :
    (normalizeFreq r mf l).map (suggestion m) =
      (l.map (suggestion m)).map fun u => { u with freq := r.rnd (u.freq / mf) } := by
  unfold normalizeFreq
  split
  · rw [List.map_map, List.map_map]
    rfl
  · next hn =>
    have e : mf = 0 := le_antisymm (not_lt.mp hn) h0
    rw [List.map_map]
    refine List.map_congr_left fun y hy => ?_
    obtain ⟨h1, h2⟩ := h y hy
    have : y.freqScore = 0 := le_antisymm (e ▸ h2) h1
    simp only [Function.comp, suggestion, this, e, div_zero, r.zero]

theorem normalizeFreq_valid {m : Vm} {r : Rounding} {mf : Rat} {l : List VariantResult}
    (h : ∀ y ∈ l, Valid m y) : ∀ y ∈ normalizeFreq r mf l, Valid m y := by
  intro y hy
  obtain ⟨z, hz, e1, e2, e3, _⟩ := mem_normalizeFreq hy
  unfold Valid
  rw [e1, e3]
  exact h z hz

theorem maxFreqOf_eq {l : List VariantResult} {mf : Rat} (h : ∀ y ∈ l, y.freqScore ≤ mf) :
    maxFreqOf l mf = mf := by
  unfold maxFreqOf
  induction l with
  | nil => rfl
  | cons a l ih =>
    rw [List.foldl_cons, if_neg (not_lt.mpr (h a List.mem_cons_self))]
    exact ih fun y hy => h y (List.mem_cons_of_mem _ hy)

set_option maxHeartbeats 1000000 in
/-- **C99**: what a query of a built model gives, with links between words and with confusables, and also
if the search stops at exact matches. -/
theorem find_variants_exact (alphabet : Alphabet) (hne : NoEmpty alphabet)
    (hlen : alphabet.length ≤ 166) (ops : List Op) (o : Orders) (m : Vm)
    (h : (Vm.new alphabet).run (ops ++ [.build o]) = .ok m)
    (hshort : ∀ v ∈ m.decoder, v.text.length < 65536)
    (hrefs : ∀ v ∈ m.decoder, ∀ t s, VariantReference.variantOf t s ∈ v.variants.getD [] →
      t < m.decoder.length)
    (L : Lexis) (hL : Describes m L) (x : TextExt) (cfg : Config) (p : Params)
    (hw : cfg.weights.sum x.f64 ≠ 0) (hfw : 0 ≤ p.freqWeight)
    (ha : Fits p.maxAnagramDistance) (he : Fits p.maxEditDistance)
    (input : List Char) (hin : input ≠ []) (hs : ShortEnough x alphabet p input) :
    ∃ res us, m.findVariants x.toExt cfg p input = .ok res ∧
      Suggestions x alphabet L cfg p input us ∧ List.Forall₂ (SuggestedBy m) res us := by
  obtain ⟨qs, n, hqs, hn, hsz⟩ := hs
  rw [allowed_iff ha] at hn
  subst hn
  have hinv : Inv m := (inv_run (inv_new _) h).1
  have haq := (encodes_change hqs alphabet.length).resolve_right (by omega)
  generalize (qs.map fun c => if c < alphabet.length then c else alphabet.length) = a at haq
  obtain ⟨l, h1, hnd, hl⟩ := candidates_any alphabet hne hlen ops o m h hshort x.toExt cfg.weights p
    input hin a qs haq hqs hsz
  have hex : (∃ u ∈ m.decoder, u.vocabtype.check .INDEXED = true ∧ Anagram alphabet input u.text) ↔
      ∃ t, L.indexed t ∧ Anagram alphabet input t := by
    constructor
    · rintro ⟨u, hu, hi, hA⟩
      exact ⟨u.text, (hL.indexed _).mpr ⟨u, hu, rfl, hi⟩, hA⟩
    · rintro ⟨t, ht, hA⟩
      obtain ⟨u, hu, rfl, hi⟩ := (hL.indexed _).mp ht
      exact ⟨u, hu, hi, hA⟩
  -- the words that are considered are the candidates
  have hreach : ∀ id v s, m.decoder[id]? = some v → (Reached x alphabet L cfg.weights p input v.text s ↔
      ∃ d, (id, d) ∈ l ∧ s = similarity x.f64 cfg.weights qs.length d) := by
    intro id v s hv
    have hone : ∀ w ∈ m.decoder, w.text = v.text → w = v := by
      intro w hw e
      obtain ⟨j, hj⟩ := List.getElem?_of_mem hw
      have := nameOf_inj hinv hj hv (by rw [nameOf_some hj, nameOf_some hv, e])
      subst this
      rw [hj] at hv
      exact Option.some.inj hv
    constructor
    · rintro ⟨hi, ⟨a', b, qs', ns, d, na, ne, e1, e2, e3, e4, e5, e6, e7, e8, e9, e10, e11⟩, hst⟩
      obtain ⟨w, hw, e, hi⟩ := (hL.indexed _).mp hi
      cases hone w hw e
      cases encodes_unique e1 haq
      cases encodes_unique e3 hqs
      rw [allowed_iff ha] at e5
      rw [allowed_iff he] at e9
      subst e5 e9
      exact ⟨d, (hl id d).mpr ⟨v, hv, hi, ⟨b, ns, e2, e4, e6, e7, e8, e10⟩,
        fun g1 g2 => hst g1 (hex.mp g2)⟩, scoreOf_iff.mp e11⟩
    · rintro ⟨d, hd, rfl⟩
      obtain ⟨w, hw, hi, ⟨b, ns, e2, e4, e6, e7, e8, e10⟩, hst⟩ := (hl id d).mp hd
      rw [hv] at hw
      cases hw
      exact ⟨(hL.indexed _).mpr ⟨v, List.mem_of_getElem? hv, rfl, hi⟩,
        ⟨a, b, qs, ns, d, _, _, haq, e2, hqs, e4, (allowed_iff ha).mpr rfl, e6, e7, e8,
        (allowed_iff he).mpr rfl, e10, scoreOf_iff.mpr rfl⟩, fun g1 g2 => hst g1 (hex.mpr g2)⟩
  have hreach' : ∀ t s, Reached x alphabet L cfg.weights p input t s → ∃ (id : Nat) (v : VocabValue),
      m.decoder[id]? = some v ∧ v.text = t ∧ v.vocabtype.check .INDEXED = true := by
    intro t s hr
    obtain ⟨v, hv, e, hi⟩ := (hL.indexed _).mp hr.indexed
    obtain ⟨id, hid⟩ := List.getElem?_of_mem hv
    exact ⟨id, v, hid, e, hi⟩
  have hids := candidate_ids h1
  have hcand : ∀ y ∈ l, ∃ v, m.decoder[y.1]? = some v ∧ v.vocabtype.check .INDEXED = true := by
    rintro ⟨id, d⟩ hy
    obtain ⟨v, hv, hi, _⟩ := (hl id d).mp hy
    exact ⟨v, hv, hi⟩
  have hcount : ∀ v ∈ m.decoder, v.vocabtype.check .INDEXED = true →
      L.count x.f64 v.text = if m.haveFreq then x.f64.rnd v.frequency else 1 := by
    intro v hv hi
    unfold Lexis.count
    rw [hL.counted, hL.freq v hv hi]
  have hpos : ∀ v : VocabValue, 0 ≤ if m.haveFreq = true then x.f64.rnd v.frequency else 1 := by
    intro v
    split
    · rw [← x.f64.zero]
      exact x.f64.mono _ _ (Nat.cast_nonneg _)
    · exact zero_le_one
  -- the first stages
  obtain ⟨mf, g1, g2, g3, g4⟩ := scoreLoop_spec m x.f64 cfg.weights hw qs.length p.scoreThreshold l []
    0 false
  obtain ⟨S, hS⟩ : ∃ S, S = l.filterMap (Lemmas.scored m x.f64 cfg.weights qs.length p.scoreThreshold) :=
    ⟨_, rfl⟩
  have hmemS : ∀ y, y ∈ S ↔ ∃ z ∈ l, ∃ v, m.decoder[z.1]? = some v ∧
      p.scoreThreshold ≤ similarity x.f64 cfg.weights qs.length z.2 ∧
      y = ⟨z.1, similarity x.f64 cfg.weights qs.length z.2,
        if m.haveFreq then x.f64.rnd v.frequency else 1, none⟩ := by
    intro y
    rw [hS, List.mem_filterMap]
    constructor
    · rintro ⟨z, hz, e⟩
      obtain ⟨v, hv⟩ := hids z hz
      simp only [Lemmas.scored, hv] at e
      split at e
      · next ht => cases e; exact ⟨z, hz, v, hv, ht, rfl⟩
      · cases e
    · rintro ⟨z, hz, v, hv, ht, rfl⟩
      exact ⟨z, hz, by simp only [Lemmas.scored, hv, ge_iff_le, ht, if_true]⟩
  have hvalidS : ∀ y ∈ S, Valid m y := by
    intro y hy
    obtain ⟨z, hz, v, hv, _, rfl⟩ := (hmemS y).mp hy
    exact ⟨⟨v, hv⟩, fun i e => by cases e⟩
  have hidxS : ∀ y ∈ S, ∀ v, m.decoder[y.vocabId]? = some v → v.vocabtype.check .INDEXED = true := by
    intro y hy v hv
    obtain ⟨z, hz, w, hw', _, rfl⟩ := (hmemS y).mp hy
    obtain ⟨w', hw2, hi⟩ := hcand z hz
    rw [hv] at hw2
    cases hw2
    exact hi
  have hfreqS : ∀ y ∈ S, 0 ≤ y.freqScore ∧ y.freqScore ≤ mf := by
    intro y hy
    obtain ⟨z, hz, v, hv, _, rfl⟩ := (hmemS y).mp hy
    exact ⟨hpos v, g3 z hz v hv⟩
  have hndS : (S.map VariantResult.vocabId).Nodup := by
    have e : S.map VariantResult.vocabId =
        (S.map fun y => (y.vocabId, y.distScore)).map Prod.fst := by
      rw [List.map_map]; rfl
    rw [e, hS, scored_map x.f64 cfg.weights qs.length p.scoreThreshold hids, List.map_map]
    exact hnd.sublist (List.filter_sublist.map _)
  have hscored : Scored x alphabet L cfg.weights p input (S.map (suggestion m)) mf := by
    refine ⟨?_, fun u => ?_, fun hbase => ⟨?_, ?_⟩⟩
    · rw [List.map_map, List.nodup_iff_pairwise_ne, List.pairwise_map]
      rw [List.nodup_iff_pairwise_ne, List.pairwise_map] at hndS
      refine hndS.imp_of_mem fun {y z} hy hz hyz e => hyz ?_
      obtain ⟨⟨v, hv⟩, _⟩ := hvalidS y hy
      obtain ⟨⟨w, hw'⟩, _⟩ := hvalidS z hz
      exact nameOf_inj hinv hv hw' e
    · rw [List.mem_map]
      constructor
      · rintro ⟨y, hy, rfl⟩
        obtain ⟨⟨id, d⟩, hz, v, hv, ht, rfl⟩ := (hmemS y).mp hy
        obtain ⟨v', hv', hi⟩ := hcand _ hz
        rw [hv] at hv'
        cases hv'
        simp only [suggestion, nameOf_some hv, Option.map_none]
        exact ⟨(hreach id v _ hv).mpr ⟨d, hz, rfl⟩, ht, (hcount v (List.mem_of_getElem? hv) hi).symm, trivial⟩
      · rintro ⟨hr, ht, hf, hvia⟩
        obtain ⟨id, v, hv, e, hi⟩ := hreach' _ _ hr
        rw [← e] at hr
        obtain ⟨d, hd, es⟩ := (hreach id v _ hv).mp hr
        refine ⟨_, (hmemS _).mpr ⟨(id, d), hd, v, hv, es ▸ ht, rfl⟩, ?_⟩
        obtain ⟨word, score, freq, via⟩ := u
        simp only at e es hf hvia
        simp only [suggestion, nameOf_some hv, Option.map_none]
        rw [e, ← es, hf, hvia, ← hcount v (List.mem_of_getElem? hv) hi, e]
    · have : ∃ y ∈ l, ∃ item, m.decoder[y.1]? = some item ∧
          mf = if m.haveFreq then x.f64.rnd item.frequency else 1 := by
        rcases g4 with h0 | h0
        · obtain ⟨u, hu⟩ := List.exists_mem_of_ne_nil _ hbase
          obtain ⟨y, hy, _⟩ := List.mem_map.mp hu
          obtain ⟨z, hz, v, hv, _⟩ := (hmemS y).mp hy
          refine ⟨z, hz, v, hv, le_antisymm ?_ (g3 z hz v hv)⟩
          rw [h0]
          exact hpos v
        · exact h0
      obtain ⟨⟨id, d⟩, hy, v, hv, e⟩ := this
      obtain ⟨v', hv', hi⟩ := hcand _ hy
      rw [hv] at hv'
      cases hv'
      exact ⟨v.text, _, (hreach id v _ hv).mpr ⟨d, hy, rfl⟩,
        by rw [hcount v (List.mem_of_getElem? hv) hi, ← e]⟩
    · rintro f ⟨t, s, hr, rfl⟩
      obtain ⟨id, v, hv, rfl, hi⟩ := hreach' _ _ hr
      obtain ⟨d, hd, _⟩ := (hreach id v _ hv).mp hr
      rw [hcount v (List.mem_of_getElem? hv) hi]
      exact g3 _ hd v hv
  have hlinked : hasLinks m l = true ↔ ∃ t s, Reached x alphabet L cfg.weights p input t s ∧ L.linked t := by
    unfold hasLinks
    rw [List.any_eq_true]
    constructor
    · rintro ⟨⟨id, d⟩, hz, hh⟩
      obtain ⟨v, hv, hi⟩ := hcand _ hz
      rw [hv] at hh
      exact ⟨v.text, _, (hreach id v _ hv).mpr ⟨d, hz, rfl⟩,
        (hL.linked v (List.mem_of_getElem? hv) hi).mpr hh⟩
    · rintro ⟨t, s, hr, hh⟩
      obtain ⟨id, v, hv, rfl, hi⟩ := hreach' _ _ hr
      obtain ⟨d, hd, _⟩ := (hreach id v _ hv).mp hr
      refine ⟨_, hd, ?_⟩
      rw [hv]
      exact (hL.linked v (List.mem_of_getElem? hv) hi).mp hh
  obtain ⟨W, hW⟩ : ∃ W, W = if (!cfg.confusables.isEmpty && cfg.confusablesBeforePruning) = true then
      m.rescore x.f64 cfg input S else S := ⟨_, rfl⟩
  have hvalidW : ∀ y ∈ W, Valid m y := by
    rw [hW]
    split
    · exact rescore_valid hvalidS
    · exact hvalidS
  have hkeepW : ∀ y ∈ W, ∃ z ∈ S, y.vocabId = z.vocabId ∧ y.freqScore = z.freqScore := by
    rw [hW]
    split
    · intro y hy
      obtain ⟨z, hz, e1, e2, _⟩ := rescore_freq hy
      exact ⟨z, hz, e1, e2⟩
    · exact fun y hy => ⟨y, hy, rfl, rfl⟩
  have hndW : (W.map VariantResult.vocabId).Nodup := by
    rw [hW]
    split
    · unfold Vm.rescore
      rw [List.map_map]
      exact hndS
    · exact hndS
  have hfreqW : ∀ y ∈ W, 0 ≤ y.freqScore ∧ y.freqScore ≤ mf := by
    intro y hy
    obtain ⟨z, hz, _, e⟩ := hkeepW y hy
    rw [e]
    exact hfreqS z hz
  have hconf : (!cfg.confusables.isEmpty && cfg.confusablesBeforePruning) = true ↔
      cfg.confusables ≠ [] ∧ cfg.confusablesBeforePruning = true := by
    rw [Bool.and_eq_true, Bool.not_eq_true', List.isEmpty_eq_false_iff]
  have hconf' : (!cfg.confusables.isEmpty && !cfg.confusablesBeforePruning) = true ↔
      cfg.confusables ≠ [] ∧ cfg.confusablesBeforePruning = false := by
    rw [Bool.and_eq_true, Bool.not_eq_true', List.isEmpty_eq_false_iff, Bool.not_eq_true']
  obtain ⟨A, hA1, hA2, hA3, hA4, hA5⟩ : ∃ A, (if hasLinks m l = true then m.expandVariants x.f64 W else pure W) = .ok A ∧
      (∀ y ∈ A, Valid m y) ∧ (∀ y ∈ A, 0 ≤ y.freqScore ∧ y.freqScore ≤ mf) ∧
      (hasLinks m l = true → A.map (suggestion m) =
        (W.map (suggestion m)).flatMap (Suggestion.followed x.f64 L)) ∧
      (¬ hasLinks m l = true → A = W) := by
    by_cases hh : hasLinks m l = true
    · obtain ⟨A, hA⟩ := expandVariants_total (m := m) (r := x.f64) (l := W) (fun y hy => by
        obtain ⟨⟨v, hv⟩, _⟩ := hvalidW y hy
        exact (List.getElem?_eq_some_iff.mp hv).1) hrefs
      refine ⟨A, by rw [if_pos hh]; exact hA, expandVariants_valid hA hvalidW, ?_,
        fun _ => expandVariants_suggestion hL hA ?_, fun h => absurd hh h⟩
      · intro y hy
        obtain ⟨z, hz, item, hitem, ⟨rfl, _⟩ | ⟨t, s, tg, _, htg, rfl⟩⟩ := (expandVariants_spec hA y).mp hy
        · exact hfreqW y hz
        · refine ⟨le_min ?_ (hfreqW z hz).1, (min_le_right _ _).trans (hfreqW z hz).2⟩
          rw [← x.f64.zero]
          exact x.f64.mono _ _ (Nat.cast_nonneg _)
      · intro y hy v hv
        obtain ⟨z, hz, e, _⟩ := hkeepW y hy
        rw [e] at hv
        exact hidxS z hz v hv
    · exact ⟨W, by rw [if_neg hh]; rfl, hvalidW, hfreqW, fun h => absurd h hh, fun _ => rfl⟩
  obtain ⟨R, hR⟩ : ∃ R, R = rankResults x.f64 p.freqWeight (normalizeFreq x.f64 mf A) := ⟨_, rfl⟩
  have hvalidR : ∀ y ∈ R, Valid m y := by
    intro y hy
    rw [hR] at hy
    exact normalizeFreq_valid hA2 y ((rankResults_perm _ _ _).mem_iff.mp hy)
  have hsortR : R.Pairwise fun a b => rankLe x.f64 p.freqWeight a b = true := by
    rw [hR]; exact rankResults_sorted _ _ _
  obtain ⟨D, hD⟩ : ∃ D, D = if hasLinks m l = true then dedupIds R else R := ⟨_, rfl⟩
  have hsubD : D.Sublist R := by
    rw [hD]
    split
    · exact dedupIds_sublist R
    · exact .refl _
  have hsugD : D.map (suggestion m) = (R.map (suggestion m)).destutter fun u v => u.word ≠ v.word := by
    rw [hD]
    split
    · exact dedupIds_suggestion hinv hvalidR
    · next hh =>
      symm
      refine List.destutter_of_isChain _ _ (List.Pairwise.isChain ?_)
      rw [List.pairwise_map]
      have hndR : (R.map VariantResult.vocabId).Nodup := by
        rw [hR]
        have := (rankResults_perm x.f64 p.freqWeight (normalizeFreq x.f64 mf A)).map VariantResult.vocabId
        refine this.nodup_iff.mpr ?_
        have e : (normalizeFreq x.f64 mf A).map VariantResult.vocabId = A.map VariantResult.vocabId := by
          have := congrArg (List.map Prod.fst) (normalizeFreq_map x.f64 mf A)
          rw [List.map_map, List.map_map] at this
          exact this
        rw [e, hA5 hh]
        exact hndW
      rw [List.nodup_iff_pairwise_ne, List.pairwise_map] at hndR
      refine hndR.imp_of_mem fun {y z} hy hz hyz e => hyz ?_
      obtain ⟨⟨v, hv⟩, _⟩ := hvalidR y hy
      obtain ⟨⟨w, hw'⟩, _⟩ := hvalidR z hz
      exact nameOf_inj hinv hv hw' e
  obtain ⟨K, hK⟩ : ∃ K, K = crop x.f64 p.freqWeight p.maxMatches D := ⟨_, rfl⟩
  have hsubK : K.Sublist R := by
    rw [hK, crop_firstOnes]
    exact (firstOnes_sublist _ _ _ _).trans hsubD
  have hvalidK : ∀ y ∈ K, Valid m y := fun y hy => hvalidR y (hsubK.subset hy)
  obtain ⟨F, hF⟩ : ∃ F, F = if (!cfg.confusables.isEmpty && !cfg.confusablesBeforePruning) = true then
      rankResults x.f64 p.freqWeight (m.rescore x.f64 cfg input K) else K := ⟨_, rfl⟩
  have hvalidF : ∀ y ∈ F, Valid m y := by
    rw [hF]
    split
    · exact fun y hy => rescore_valid hvalidK y ((rankResults_perm _ _ _).mem_iff.mp hy)
    · exact hvalidK
  have hsortF : F.Pairwise fun a b => rankLe x.f64 p.freqWeight a b = true := by
    rw [hF]
    split
    · exact rankResults_sorted _ _ _
    · exact hsortR.sublist hsubK
  have hres : m.scoreAndRank x.f64 cfg p input qs.length l =
      .ok (closeOnes x.f64 p.cutoffThreshold (VariantResult.score x.f64 p.freqWeight) F) := by
    have hq0 : qs.length ≠ 0 := by
      intro e
      have := List.length_eq_zero_iff.mp e
      subst this
      exact hin (encodes_nil_text hqs)
    unfold Vm.scoreAndRank
    rw [if_neg hq0, g1, Bool.false_or, List.nil_append, ← hS]
    change (m.rankExpanded x.f64 cfg input p.freqWeight S mf (hasLinks m l) >>= fun l =>
      pure (m.prune x.f64 cfg p input l)) = _
    refine bind_ok.mpr ⟨D, ?_, pure_ok.mpr ?_⟩
    · by_cases hh : hasLinks m l = true
      · rw [if_pos hh] at hA1 hD
        rw [hh, rankExpanded_true, ← hW]
        have e := maxFreqOf_eq fun y hy => (hA3 y hy).2
        rw [hA1, hD, hR]
        change Except.ok (dedupIds (rankResults x.f64 p.freqWeight
          (normalizeFreq x.f64 (maxFreqOf A mf) A))) = _
        rw [e]
      · rw [if_neg hh] at hD
        rw [Bool.not_eq_true] at hh
        rw [hh, rankExpanded_false, ← hW, hD, hR, hA5 (by rw [hh]; exact Bool.false_ne_true)]
    · unfold Vm.prune
      simp only
      rw [← hK, ← hF]
      exact applyCutoff_closeOnes x.f64 _ _ (hsortF.imp fun h => rankLe_score x.f64 hfw h)
  have hsug : Suggestions x alphabet L cfg p input
      ((closeOnes x.f64 p.cutoffThreshold (VariantResult.score x.f64 p.freqWeight) F).map (suggestion m)) := by
    refine ⟨factorOf x.f64 cfg input, mf, S.map (suggestion m), W.map (suggestion m), A.map (suggestion m),
      R.map (suggestion m), K.map (suggestion m), F.map (suggestion m), ?_⟩
    refine ⟨factorOf_ok _ _ _, hscored, ?_, ?_, ?_, ?_, ?_, ?_, ?_, ?_, ?_, ?_⟩
    · intro hc
      rw [hW, if_pos (hconf.mpr hc)]
      exact rescore_suggestion hvalidS
    · intro hc
      rw [hW, if_neg (fun e => hc (hconf.mp e))]
    · exact fun hh => hA4 (hlinked.mpr hh)
    · intro hh
      rw [hA5 fun e => hh (hlinked.mp e)]
    · rw [← normalizeFreq_suggestion g2 hA3, hR]
      exact (rankResults_perm _ _ _).map _
    · rw [List.pairwise_map]
      exact hsortR.imp fun h => suggestion_notWorse hfw h
    · rw [hK, crop_firstOnes, ← hsugD]
      exact (firstOnes_map (score' := Suggestion.overall x.f64 p.freqWeight)
        (sim' := Suggestion.score) (f := suggestion m) _ (fun _ _ => rfl) fun _ _ => rfl).symm
    · intro hc
      rw [hF, if_pos (hconf'.mpr hc)]
      refine ⟨?_, ?_⟩
      · rw [← rescore_suggestion hvalidK]
        exact (rankResults_perm _ _ _).map _
      · rw [List.pairwise_map]
        exact (rankResults_sorted _ _ _).imp fun h => suggestion_notWorse hfw h
    · intro hc
      rw [hF, if_neg (fun e => hc (hconf'.mp e))]
    · exact (closeOnes_map (score' := Suggestion.overall x.f64 p.freqWeight) (f := suggestion m)
        x.f64 _ fun _ _ => rfl).symm
  cases hidx : m.index.isEmpty with
  | true =>
    have hl0 : l = [] := by
      cases l with
      | nil => rfl
      | cons y l =>
        obtain ⟨v, hv, hi, _⟩ := (hl y.1 y.2).mp List.mem_cons_self
        rw [check_indexed'] at hi
        obtain ⟨k, node, _, hk⟩ := (built_of_run h).complete y.1 v hv hi
        have : m.index = [] := List.isEmpty_iff.mp hidx
        rw [this] at hk
        cases hk
    have hS0 : S = [] := by rw [hS, hl0]; rfl
    have hW0 : W = [] := by
      rw [hW, hS0]
      split <;> rfl
    have hA0 : A = [] := by
      by_cases hh : hasLinks m l = true
      · have := hA4 hh
        rw [hW0] at this
        exact List.map_eq_nil_iff.mp this
      · rw [hA5 hh, hW0]
    have hR0 : R = [] := by
      have := rankResults_perm x.f64 p.freqWeight (normalizeFreq x.f64 mf A)
      rw [← hR, hA0] at this
      unfold normalizeFreq at this
      rw [List.map_nil, ite_self] at this
      exact this.eq_nil
    have hK0 : K = [] := by
      rw [hR0] at hsubK
      exact List.sublist_nil.mp hsubK
    have hF0 : F = [] := by
      rw [hF, hK0]
      split
      · exact (rankResults_perm x.f64 p.freqWeight []).eq_nil
      · rfl
    refine ⟨[], [], ?_, ?_, .nil⟩
    · unfold Vm.findVariants
      rw [hidx]
      rfl
    · have := hsug
      rw [hF0] at this
      have e : closeOnes x.f64 p.cutoffThreshold (VariantResult.score x.f64 p.freqWeight) [] = [] := by
        unfold closeOnes
        simp
      rw [e] at this
      exact this
  | false =>
    refine ⟨closeOnes x.f64 p.cutoffThreshold (VariantResult.score x.f64 p.freqWeight) F, _, ?_, hsug, ?_⟩
    · unfold Vm.findVariants
      rw [hidx, if_neg (by simp), h1]
      exact hres
    · rw [List.forall₂_map_right_iff, List.forall₂_same]
      exact fun y hy => suggestedBy_suggestion (hvalidF y ((closeOnes_sublist _ _ _ _).subset hy))

/-- What a model knows about words. -/
noncomputable def lexisOf (m : Vm) : Lexis :=
  let entry t := m.decoder.find? fun v => v.text == t
  { indexed := fun t => ∃ v ∈ m.decoder, v.text = t ∧ v.vocabtype.check .INDEXED = true
    freq := fun t => ((entry t).map VocabValue.frequency).getD 0
    counted := m.haveFreq
    transparent := fun t => ((entry t).map fun v => v.vocabtype.check .TRANSPARENT).getD false
    links := fun t => (((entry t).bind VocabValue.variants).getD []).filterMap fun
      | .variantOf id s => some (nameOf m id, s)
      | .referenceFor _ _ => none
    linked := fun t => ((entry t).bind VocabValue.variants).isSome = true }

/-- **C99**: there is always something known about words, in the sense of `Describes`. -/
theorem describes_lexisOf {m : Vm} (hinv : Inv m)
    (hrefs : ∀ v ∈ m.decoder, ∀ t s, VariantReference.variantOf t s ∈ v.variants.getD [] →
      t < m.decoder.length) : Describes m (lexisOf m) := by
  have hfind : ∀ v ∈ m.decoder, (m.decoder.find? fun w => w.text == v.text) = some v := by
    intro v hv
    cases e : m.decoder.find? fun w => w.text == v.text with
    | none =>
      have := List.find?_eq_none.mp e v hv
      simp at this
    | some w =>
      have hw := List.mem_of_find?_eq_some e
      have ht := List.find?_some e
      simp only [beq_iff_eq] at ht
      obtain ⟨i, hi⟩ := List.getElem?_of_mem hv
      obtain ⟨j, hj⟩ := List.getElem?_of_mem hw
      have := nameOf_inj hinv hj hi (by rw [nameOf_some hj, nameOf_some hi, ht])
      subst this
      rw [hi] at hj
      exact hj.symm
  have hfreq : ∀ v ∈ m.decoder, (lexisOf m).freq v.text = v.frequency := by
    intro v hv
    simp only [lexisOf, hfind v hv, Option.map_some, Option.getD_some]
  refine ⟨fun t => Iff.rfl, rfl, fun v hv _ => hfreq v hv, fun v hv _ => ?_, fun v hv _ => ?_,
    fun v hv _ => ?_⟩
  · simp only [lexisOf, hfind v hv, Option.map_some, Option.getD_some]
  · simp only [lexisOf, hfind v hv, Option.bind_some]
  · have hr := hrefs v hv
    simp only [lexisOf, hfind v hv, Option.bind_some]
    generalize v.variants.getD [] = refs at hr
    induction refs with
    | nil => exact .nil
    | cons a refs ih =>
      have hr' := fun t s h => hr t s (List.mem_cons_of_mem _ h)
      cases a with
      | referenceFor i s => exact ih hr'
      | variantOf i s =>
        obtain ⟨w, hw⟩ : ∃ w, m.decoder[i]? = some w :=
          ⟨_, List.getElem?_eq_getElem (hr i s List.mem_cons_self)⟩
        exact .cons ⟨i, w, rfl, hw, (nameOf_some hw).symm, hfreq w (List.mem_of_getElem? hw)⟩ (ih hr')

theorem exShortT {p : Params} (hp : p.maxAnagramDistance = exParams.maxAnagramDistance)
    {l : List Char} (h : l.length ≤ 4) : ShortEnough exText exAlphabet p l := by
  obtain ⟨qs, hqs⟩ := encodes_exists (alphabet := exAlphabet)
    (by unfold NoEmpty; decide) 4 l
  have hlen := encodes_length hqs
  rw [ShortEnough, hp]
  refine ⟨qs, _, hqs, (allowed_iff ?_).mpr rfl, ?_⟩
  · show (3 : Nat) ≤ 255
    decide
  · have : effectiveDistance exText.f32 qs.length exParams.maxAnagramDistance ≤ 3 := by
      have h4 : qs.length < 5 := by omega
      revert h4
      generalize qs.length = k
      revert k
      decide +kernel
    omega

/-- Three cases: links are followed, confusables count first or last, or the search stops at exact
matches. -/
example : ∀ q ∈ [(confConfig, exParams, "bab".toList),
      ({ confConfig with confusablesBeforePruning := false }, { exParams with freqWeight := 1 / 2 },
        "ba".toList),
      (confConfig, { exParams with stopCriterion := .stopAtExactMatch }, "ba".toList)],
    ∃ res us, linked.findVariants exText.toExt q.1 q.2.1 q.2.2 = .ok res ∧
      Suggestions exText exAlphabet (lexisOf linked) q.1 q.2.1 q.2.2 us ∧
      List.Forall₂ (SuggestedBy linked) res us := by
  have hinv : Inv linked := (inv_run (inv_new _) linked_run).1
  have hrefs : ∀ v ∈ linked.decoder, ∀ t s, VariantReference.variantOf t s ∈ v.variants.getD [] →
      t < linked.decoder.length := by
    have : ∀ v ∈ linked.decoder, ∀ r ∈ v.variants.getD [],
        (match r with | .variantOf t _ => decide (t < linked.decoder.length) | _ => true) = true := by
      decide +kernel
    intro v hv t s h
    simpa using this v hv _ h
  have key : ∀ (cfg : Config) (p : Params) (t : List Char), cfg.weights = confConfig.weights →
      p.maxAnagramDistance = exParams.maxAnagramDistance → p.maxEditDistance = exParams.maxEditDistance →
      0 ≤ p.freqWeight → t ≠ [] → t.length ≤ 4 →
      ∃ res us, linked.findVariants exText.toExt cfg p t = .ok res ∧
        Suggestions exText exAlphabet (lexisOf linked) cfg p t us ∧
        List.Forall₂ (SuggestedBy linked) res us := by
    intro cfg p t hw ha he hf ht hl
    refine find_variants_exact exAlphabet (by unfold NoEmpty; decide) (by decide)
      (linkOps.take 4) exOrders linked linked_run (by decide +kernel) hrefs _
      (describes_lexisOf hinv hrefs) exText cfg p (by rw [hw]; decide +kernel) hf
      (by rw [ha]; exact (by decide : 3 ≤ 255)) (by rw [he]; exact (by decide : 3 ≤ 255)) t ht (exShortT ha hl)
  intro q hq
  simp only [List.mem_cons, List.not_mem_nil, or_false] at hq
  rcases hq with rfl | rfl | rfl
  · exact key _ _ _ rfl rfl rfl (by decide +kernel) (by decide) (by decide)
  · exact key _ _ _ rfl rfl rfl (by decide +kernel) (by decide) (by decide)
  · exact key _ _ _ rfl rfl rfl (by decide +kernel) (by decide) (by decide)

/-- What is found in the second case: `ab` by way of `ba`, and `aab` by way of `bba`. -/
example : linked.findVariants exText.toExt { confConfig with confusablesBeforePruning := false }
    { exParams with freqWeight := 1 / 2 } "ba".toList =
      .ok [⟨3, 27 / 20, 1, some 4⟩, ⟨5, 33 / 64, 1, some 6⟩] := by
  decide +kernel

end Verif.Props
