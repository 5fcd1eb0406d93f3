import Verif.Spec.Accurate
import Verif.Props.Correct

/-!
# What queries and searches print is accurate (C115, C142)
-/
namespace Verif.Props

open Verif.Spec Verif.Model Verif.Lemmas

/-! ### Lists -/

theorem found_accurate {x : TextExt} {alphabet : Alphabet}
    {as : List (List (List Char × Option Nat × VocabParams))} {w : Weights} {p : Params} {l : List Char} {top : Nat}
    {hits : List Hit} (hx : x.f64 = .binary64) (hw : WeightsOk .binary64 w)
    (hsum : (2 : Rat) ^ (-1022 : Int) ≤ w.ld + w.lcs + w.pre + w.suf + w.case) (hf : p.freqWeight = 0) (hl0 : l ≠ [])
    (hR : Ranked x alphabet as w p l top hits) : AccuratelyFound x alphabet as w p l (foundOf x p top hits) := by
  obtain ⟨a1, a2, a3⟩ := ranking_accurate hx hw hsum hl0 hR
  have hsub := shown_sublist x.f64 p.maxMatches p.cutoffThreshold (Hit.overall x.f64 p.freqWeight top) Hit.score hits
  refine ⟨?_, ?_, ?_⟩
  · intro u hu e he
    obtain ⟨v, hv, rfl⟩ := List.mem_map.mp hu
    have hv := hsub.subset hv
    refine ⟨?_, a2 v hv e he⟩
    have := score_accurate hx hw hsum hl0 ((hR.mem v).mp hv).2.1.1 he
    simpa [Hit.overall, hf] using this
  · unfold foundOf
    rw [List.pairwise_map]
    exact (a3 hf).sublist hsub
  · intro hm hcut word s n e hnr hn hfr he hle
    obtain ⟨v, hv, rfl⟩ := List.mem_map.mp (a1 word s n e hnr hn hfr he hle)
    refine List.mem_map.mpr ⟨_, List.mem_map.mpr ⟨v, ?_, rfl⟩, rfl⟩
    unfold shown closeOnes firstOnes
    rw [if_pos hcut, if_pos hm]
    exact hv

theorem found_weighed {x : TextExt} {alphabet : Alphabet}
    {as : List (List (List Char × Option Nat × VocabParams))} {w : Weights} {p : Params} {l : List Char} {top : Nat}
    {hits : List Hit} (hx : x.f64 = .binary64) (hw : WeightsOk .binary64 w)
    (hsum : (2 : Rat) ^ (-1022 : Int) ≤ w.ld + w.lcs + w.pre + w.suf + w.case) (hfw : 0 < p.freqWeight)
    (hpos : ∀ a ∈ as.flatten, 0 < a.2.1.getD 1) (hl0 : l ≠ [])
    (hR : Ranked x alphabet as w p l top hits) : AccuratelyWeighed x alphabet as w p l (foundOf x p top hits) := by
  intro hne
  have hsub := shown_sublist x.f64 p.maxMatches p.cutoffThreshold (Hit.overall x.f64 p.freqWeight top) Hit.score hits
  have hhits : hits ≠ [] := by
    rintro rfl
    exact hne (by
      unfold foundOf
      rw [List.sublist_nil.mp hsub, List.map_nil])
  have hg := hR.greatest hhits
  have htop : 0 < top := by
    obtain ⟨t, s, _, _, hf⟩ := hg.1
    obtain ⟨a, ha, _, e⟩ := hf.1
    rw [← e]
    exact hpos a ha
  have acc : ∀ v ∈ hits, ∀ e n, ExactScore x alphabet w l v.word e → WordFreq as v.word n →
      n = v.freq ∧ |v.overall x.f64 p.freqWeight top - exactOverall p.freqWeight top e n| ≤ 2 ^ (-44 : Int) := by
    intro v hv e n he hn
    obtain ⟨g1, ⟨g2, _⟩, g3⟩ := (hR.mem v).mp hv
    have en : n = v.freq := hn.unique g3
    refine ⟨en, ?_⟩
    have hle : v.freq ≤ top := hg.2 ⟨v.word, v.score, g1, g2, g3⟩
    have hb : 0 ≤ e ∧ e ≤ 1 := by
      obtain ⟨qs, ns, d, e1, e2, e3, rfl⟩ := id he
      obtain ⟨i1, i2, i3⟩ := distance_le e3
      have hqs : qs ≠ [] := by
        rintro rfl
        exact hl0 (encodes_nil_text e1)
      exact exactScore_bounds hw.ld.1 hw.lcs.1 hw.pre.1 hw.suf.1 hw.case.1 ((two_zpow_pos _).trans_le hsum)
        (List.length_pos_iff.mpr hqs) i1 i2 i3
    rw [hx, en]
    exact overall_accurate hfw htop hle hb.1 hb.2 (score_accurate hx hw hsum hl0 g2 he)
  refine ⟨top, hg, ?_, ?_⟩
  · intro u hu e n he hn
    obtain ⟨v, hv, rfl⟩ := List.mem_map.mp hu
    exact (acc v (hsub.subset hv) e n he hn).2
  · unfold foundOf
    rw [List.pairwise_map]
    have hfr := (frequency_ranking_accurate hx hw hsum hl0 htop hR hfw).sublist hsub
    refine hfr.imp_of_mem ?_
    intro u v hu hv huv e n e' n' he hn he' hn'
    have k1 := (acc u (hsub.subset hu) e n he hn).1
    have k2 := (acc v (hsub.subset hv) e' n' he' hn').1
    rw [k1, k2]
    exact huv e e' he he'

/-! ### Queries and searches -/

/-- **C115**: the scores that a query prints are close to the means they stand for, and what it prints is nearly in the
order of these; without limits it prints every word whose mean exceeds the score threshold by 2⁻⁴⁶. -/
theorem query_accurate {x : ToolExt} {c : CommandLine} {files : List (List Char)}
    {alphabet : Alphabet} {as : List (List (List Char × Option Nat × VocabParams))} {w : Weights}
    {p : Params} {lines : List (List Char)} (h : PlainQuery x c files alphabet as w p lines)
    (hx : x.text.f64 = .binary64) (hw : WeightsOk .binary64 w)
    (hsum : (2 : Rat) ^ (-1022 : Int) ≤ w.ld + w.lcs + w.pre + w.suf + w.case) :
    ∃ rs : List (List Char × List (List Char × Rat)), rs.map Prod.fst = lines ∧
      x.main c files = .ok (.output (rs.flatMap fun r => printed x r.1 r.2) []) ∧
      ∀ r ∈ rs, (p.freqWeight = 0 → AccuratelyFound x.text alphabet as w p r.1 r.2) ∧
        (0 < p.freqWeight → (∀ a ∈ as.flatten, 0 < a.2.1.getD 1) →
          AccuratelyWeighed x.text alphabet as w p r.1 r.2) := by
  obtain ⟨rows, h1, h2, h3⟩ := plain_query h
  refine ⟨rows.map fun r => (r.1, foundOf x.text p r.2.1 r.2.2), ?_, ?_, ?_⟩
  · rw [List.map_map]; exact h1
  · rw [h3, List.flatMap_map]
    rfl
  intro r hr
  obtain ⟨⟨l, top, hits⟩, hr', rfl⟩ := List.mem_map.mp hr
  have hl0 := (h.short l (h1 ▸ List.mem_map_of_mem (f := Prod.fst) hr')).1
  exact ⟨fun hf => found_accurate hx hw hsum hf hl0 (h2 _ hr'),
    fun hf hpos => found_weighed hx hw hsum hf hpos hl0 (h2 _ hr')⟩

/-- **C142**: the same for what a search prints for the words of a text. -/
theorem search_accurate {x : ToolExt} {c : CommandLine} {files : List (List Char)}
    {alphabet : Alphabet} {as : List (List (List Char × Option Nat × VocabParams))} {w : Weights}
    {p : Params} {inputs : List (List (Option (List Char)))}
    (h : PlainSearch x c files alphabet as w p inputs)
    (hx : x.text.f64 = .binary64) (hw : WeightsOk .binary64 w)
    (hsum : (2 : Rat) ^ (-1022 : Int) ≤ w.ld + w.lcs + w.pre + w.suf + w.case) :
    ∃ rs : List (List (List ((Nat × List Char) × List (List Char × Rat)))),
      List.Forall₂ (TextWords x.text.isAlpha c) inputs (rs.map (List.map (List.map Prod.fst))) ∧
      x.main c files = .ok (.output (rs.flatMap (textPrinted x)) []) ∧
      ∀ gs ∈ rs, ∀ g ∈ gs, ∀ u ∈ g, (p.freqWeight = 0 → AccuratelyFound x.text alphabet as w p u.1.2 u.2) ∧
        (0 < p.freqWeight → (∀ a ∈ as.flatten, 0 < a.2.1.getD 1) →
          AccuratelyWeighed x.text alphabet as w p u.1.2 u.2) :=
  search_each h (R := fun t found => (p.freqWeight = 0 → AccuratelyFound x.text alphabet as w p t found) ∧
      (0 < p.freqWeight → (∀ a ∈ as.flatten, 0 < a.2.1.getD 1) → AccuratelyWeighed x.text alphabet as w p t found))
    fun _ _ _ hne _ hR => ⟨fun hf => found_accurate hx hw hsum hf hne hR,
      fun hf hpos => found_weighed hx hw hsum hf hpos hne hR⟩

/-! ### Examples -/

/-- The words `ab` and `b`, without frequency ranking. -/
example : ∃ rs : List (List Char × List (List Char × Rat)),
    rs.map Prod.fst = ["ab".toList, "ab b".toList, "bb".toList] ∧
    { exToolW exLex1 with text := exText64 }.main exQuery1 [['q'], ['-']] =
      .ok (.output (rs.flatMap fun r => printed { exToolW exLex1 with text := exText64 } r.1 r.2) []) ∧
    ∀ r ∈ rs, AccuratelyFound exText64 [["a".toList, "A".toList], ["b".toList]]
      [[("ab".toList, some 1, {}), ("b".toList, some 1, {})]] ⟨1 / 2, 1 / 8, 1 / 8, 1 / 8, 1 / 8⟩ (exNumbers exQuery1).variant r.1 r.2 := by
  obtain ⟨rs, h1, h2, h3⟩ := query_accurate
    (exPlainQ (exPlain1 exVocab1 (by decide) (by decide)) rfl (by decide) (by decide +kernel))
    rfl exWeights64 exSum64
  exact ⟨rs, h1, h2, fun r hr => (h3 r hr).1 (by decide +kernel)⟩

/-- The words `ab`, `ba` and `a` with the frequencies 7, 16 and 1, with frequency ranking. -/
example : ∃ rs : List (List Char × List (List Char × Rat)),
    rs.map Prod.fst = ["ab".toList, "ab b".toList, "bb".toList] ∧
    { exToolW exLex4 with text := exText64 }.main exQuery4 [['q'], ['-']] =
      .ok (.output (rs.flatMap fun r => printed { exToolW exLex4 with text := exText64 } r.1 r.2) []) ∧
    ∀ r ∈ rs, AccuratelyWeighed exText64 [["a".toList, "A".toList], ["b".toList]]
      [[("ab".toList, some 7, {}), ("ba".toList, some 16, {}), ("a".toList, some 1, {})]]
      ⟨1 / 2, 1 / 8, 1 / 8, 1 / 8, 1 / 8⟩ (exNumbers exQuery4).variant r.1 r.2 := by
  have v : List.Forall₂ (VocabLine {}) (nonEmpty exLex4) [("ab".toList, 7), ("ba".toList, 16), ("a".toList, 1)] :=
    .cons (exVocab (f := ['7']) (by decide) (by decide)) (.cons (exVocab (f := "16".toList) (by decide)
      (by decide)) (.cons (exVocab (f := ['1']) (by decide) (by decide)) .nil))
  obtain ⟨rs, h1, h2, h3⟩ := query_accurate
    (exPlainQ (exPlain4 v (by decide) (by decide)) rfl (by decide) (by decide +kernel))
    rfl exWeights64 exSum64
  exact ⟨rs, h1, h2, fun r hr => (h3 r hr).2 (by decide +kernel) (by decide)⟩

/-- A search in the text of the earlier examples. -/
example : ∃ rs : List (List (List ((Nat × List Char) × List (List Char × Rat)))),
    List.Forall₂ (TextWords exText64.isAlpha exSearchW) [exText2] (rs.map (List.map (List.map Prod.fst))) ∧
    { exToolT exLex1 exText2 with text := exText64 }.main exSearchW [['t']] =
      .ok (.output (rs.flatMap (textPrinted { exToolT exLex1 exText2 with text := exText64 })) []) ∧
    ∀ gs ∈ rs, ∀ g ∈ gs, ∀ u ∈ g, AccuratelyFound exText64 [["a".toList, "A".toList], ["b".toList]]
      [[("ab".toList, some 1, {}), ("b".toList, some 1, {})]] ⟨1 / 2, 1 / 8, 1 / 8, 1 / 8, 1 / 8⟩
      (exNumbers exSearchW).variant u.1.2 u.2 := by
  obtain ⟨rs, h1, h2, h3⟩ := search_accurate
    (exPlainT (t := exText64) (ts := exText2) (by decide) exVocab1 (by decide) (by decide) (by simp)
      (by unfold Reserved; decide) (by decide +kernel) (by decide)) rfl exWeights64 exSum64
  exact ⟨rs, h1, h2, fun gs hgs g hg u hu => (h3 gs hgs g hg u hu).1 (by decide +kernel)⟩

end Verif.Props
