import Verif.Props.Tie
import Verif.Props.Accurate

/-!
# C116: words with the same score in what a query prints
-/
namespace Verif.Props

open Verif.Spec Verif.Model Verif.Lemmas

/-- **C116**, what holds of it for a query: words that are printed with the same score are printed by frequency; and,
with the default weights, words for a line of 1, 2, 4, …, 128 symbols are printed by the means that their scores stand
for, and by frequency where these are the same.  Missing: the latter for lines of other lengths, for which it is false
(`tie_decided_by_rounding`). -/
theorem query_ties_partial {x : ToolExt} {c : CommandLine} {files : List (List Char)}
    {alphabet : Alphabet} {as : List (List (List Char × Option Nat × VocabParams))} {w : Weights}
    {p : Params} {lines : List (List Char)} (h : PlainQuery x c files alphabet as w p lines)
    (hx : x.text.f64 = .binary64) (hfw : p.freqWeight = 0) (hfreq : ∀ a ∈ as.flatten, a.2.1.getD 1 < 2 ^ 32) :
    ∃ rs : List (List Char × List (List Char × Rat)), rs.map Prod.fst = lines ∧
      x.main c files = .ok (.output (rs.flatMap fun r => printed x r.1 r.2) []) ∧
      ∀ r ∈ rs,
        (r.2.Pairwise fun u v => ∀ n n', WordFreq as u.1 n → WordFreq as v.1 n' →
          v.2 < u.2 ∨ v.2 = u.2 ∧ n' ≤ n) ∧
        (w = ⟨1 / 2, 1 / 8, 1 / 8, 1 / 8, 1 / 8⟩ → ∀ qs k, Encodes alphabet (alphabet.length + 1) r.1 qs → k ≤ 7 →
          qs.length = 2 ^ k → r.2.Pairwise fun u v => ∀ n n' e e', WordFreq as u.1 n → WordFreq as v.1 n' →
            ExactScore x.text alphabet w r.1 u.1 e → ExactScore x.text alphabet w r.1 v.1 e' →
            e' < e ∨ e' = e ∧ n' ≤ n) := by
  obtain ⟨rows, h1, h2, h3⟩ := plain_query h
  refine ⟨rows.map fun r => (r.1, foundOf x.text p r.2.1 r.2.2), ?_, ?_, ?_⟩
  · rw [List.map_map]; exact h1
  · rw [h3, List.flatMap_map]
    rfl
  intro r hr
  obtain ⟨⟨l, top, hits⟩, hr', rfl⟩ := List.mem_map.mp hr
  have hR : Ranked x.text alphabet as w p l top hits := h2 _ hr'
  have hsub := shown_sublist x.text.f64 p.maxMatches p.cutoffThreshold (Hit.overall x.text.f64 p.freqWeight top)
    Hit.score hits
  by_cases hhits : hits = []
  · have : foundOf x.text p top hits = [] := by
      unfold foundOf
      rw [hhits] at hsub ⊢
      rw [List.sublist_nil.mp hsub, List.map_nil]
    simp only [this]
    exact ⟨.nil, fun _ _ _ _ _ _ => .nil⟩
  have htop : top < 2 ^ 32 := by
    obtain ⟨t, s, _, _, ⟨a, ha, _, e⟩, _⟩ := (hR.greatest hhits).1
    rw [← e]
    exact hfreq a ha
  have hfr : ∀ v ∈ hits, ∀ n, WordFreq as v.word n → n = v.freq := fun v hv n hn =>
    hn.unique ((hR.mem v).mp hv).2.2
  have hov : ∀ v : Hit, v.overall x.text.f64 p.freqWeight top = v.score := fun v => by simp [Hit.overall, hfw]
  refine ⟨?_, ?_⟩
  · show (foundOf x.text p top hits).Pairwise _
    unfold foundOf
    rw [List.pairwise_map]
    refine ((hR.order.and (computed_ties hx htop hR hfw)).sublist hsub).imp_of_mem ?_
    intro u v hu hv ⟨huv, ht⟩ n n' hn hn'
    show v.overall _ _ _ < u.overall _ _ _ ∨ v.overall _ _ _ = u.overall _ _ _ ∧ n' ≤ n
    rw [hov, hov, hfr u (hsub.subset hu) n hn, hfr v (hsub.subset hv) n' hn']
    unfold Hit.NotWorse at huv
    rw [if_pos hfw] at huv
    rcases huv with h | ⟨h, _⟩
    · exact .inl h
    · exact .inr ⟨h, ht h.symm⟩
  · rintro rfl qs k hq hk hlen
    show (foundOf x.text p top hits).Pairwise _
    unfold foundOf
    rw [List.pairwise_map]
    refine ((ties_by_frequency_partial hx hq hk hlen htop hR hfw).sublist hsub).imp_of_mem ?_
    intro u v hu hv huv n n' e e' hn hn' he he'
    rw [hfr u (hsub.subset hu) n hn, hfr v (hsub.subset hv) n' hn']
    exact huv e e' he he'

/-- The words `ab` and `b`. -/
example : ∃ rs : List (List Char × List (List Char × Rat)),
    rs.map Prod.fst = ["ab".toList, "ab b".toList, "bb".toList] ∧
    { exToolW exLex1 with text := exText64 }.main exQuery1 [['q'], ['-']] =
      .ok (.output (rs.flatMap fun r => printed { exToolW exLex1 with text := exText64 } r.1 r.2) []) := by
  obtain ⟨rs, h1, h2, _⟩ := query_ties_partial
    (exPlainQ (exPlain1 exVocab1 (by decide) (by decide)) rfl (by decide) (by decide +kernel))
    rfl (by decide +kernel) (by decide)
  exact ⟨rs, h1, h2⟩

end Verif.Props
