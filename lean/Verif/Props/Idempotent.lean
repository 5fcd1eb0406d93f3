import Verif.Spec.Idempotent
import Verif.Props.Correct

/-!
# Correcting twice is correcting once (C140)
-/
namespace Verif.Props

open Verif.Spec Verif.Model Verif.Lemmas

/-- **C140**: without frequency ranking, and with words of lexicons that are written differently, a second query for what
the first suggests first gives the same again. -/
theorem correction_idempotent {x : ToolExt} {c : CommandLine} {files : List (List Char)}
    {alphabet : Alphabet} {as : List (List (List Char × Option Nat × VocabParams))} {w : Weights}
    {p : Params} {lines : List (List Char)} (h : PlainQuery x c files alphabet as w p lines)
    (hx : x.text.f64 = .binary64) (hw : WeightsOk .binary64 w) (hsum : (2 : Rat) ^ (-1022 : Int) ≤ weightSum w)
    (hld : Counts w w.ld) (hf : p.freqWeight = 0) (hs : p.scoreThreshold ≤ 1)
    (hwords : ∀ a ∈ as.flatten, a.1 ≠ [] ∧ ShortEnough x.text alphabet p a.1 ∧ Alone x.text.isLower alphabet as w a.1) :
    ∃ rs rs' : List (List Char × List (List Char × Rat)), rs.map Prod.fst = lines ∧
      x.main c files = .ok (.output (rs.flatMap fun r => printed x r.1 r.2) []) ∧
      { x with stdin := (corrections rs).map some }.main c [] =
        .ok (.output (rs'.flatMap fun r => printed x r.1 r.2) []) ∧
      rs'.map Prod.fst = corrections rs ∧ corrections rs' = corrections rs := by
  obtain ⟨rows, h1, h2, h3⟩ := plain_query h
  obtain ⟨q, inputs, n1, rfl, n3, n4, n5⟩ := h.numbers
  obtain ⟨fa, fe⟩ := fits_of_numbers n1
  let rs : List (List Char × List (List Char × Rat)) := rows.map fun r => (r.1, foundOf x.text q.variant r.2.1 r.2.2)
  -- a corrected line is a word of the lexicons, or a line without suggestions
  have hcor : ∀ l ∈ corrections rs,
      (¬ Reserved l ∧ ∃ a ∈ as.flatten, a.1 = l) ∨
      (l ∈ lines ∧ ∃ top hits, Ranked x.text alphabet as w q.variant l top hits ∧ foundOf x.text q.variant top hits = []) := by
    intro l hl
    obtain ⟨r, hr, rfl⟩ := List.mem_map.mp hl
    obtain ⟨⟨l, top, hits⟩, hr', rfl⟩ := List.mem_map.mp hr
    have hR := h2 _ hr'
    cases hfo : foundOf x.text q.variant top hits with
    | nil => exact .inr ⟨h1 ▸ List.mem_map_of_mem (f := Prod.fst) hr', top, hits, hR, hfo⟩
    | cons u rest =>
      left
      have hu : u ∈ foundOf x.text q.variant top hits := by rw [hfo]; exact List.mem_cons_self
      obtain ⟨v, hv, rfl⟩ := List.mem_map.mp hu
      have hv := (shown_sublist x.text.f64 q.variant.maxMatches q.variant.cutoffThreshold
        (Hit.overall x.text.f64 q.variant.freqWeight top) Hit.score hits).subset hv
      obtain ⟨g1, _, g2⟩ := (hR.mem v).mp hv
      obtain ⟨a, ha, ea, _⟩ := g2.1
      exact ⟨g1, a, ha, ea⟩
  have hshort : ∀ l ∈ corrections rs, l ≠ [] ∧ ShortEnough x.text alphabet q.variant l := by
    intro l hl
    rcases hcor l hl with ⟨_, a, ha, rfl⟩ | ⟨hm, _⟩
    · exact ⟨(hwords a ha).1, (hwords a ha).2.1⟩
    · exact h.short l hm
  have h' : PlainQuery { x with stdin := (corrections rs).map some } c [] alphabet as w q.variant (corrections rs) := by
    refine ⟨h.semicolon, h.positions, h.marks, h.space, h.accepted, h.query, h.options,
      ⟨h.words.files, h.words.short⟩, h.letters,
      ⟨q, [(corrections rs).map some], ⟨n1.weights, n1.nonzero, n1.params, n1.cutoff, n1.debug⟩, rfl, .inl ⟨rfl, rfl⟩,
        ?_, ?_⟩, h.weight, hshort⟩
    · intro _ ls hls
      cases List.mem_singleton.mp hls
      simp
    · simp [readable, List.filterMap_map]
  obtain ⟨rows', k1, k2, k3⟩ := plain_query h'
  refine ⟨rs, rows'.map fun r => (r.1, foundOf x.text q.variant r.2.1 r.2.2), ?_, ?_, ?_, ?_, ?_⟩
  · rw [List.map_map]; exact h1
  · rw [h3, List.flatMap_map]
    rfl
  · rw [k3, List.flatMap_map]
    rfl
  · rw [List.map_map]; exact k1
  · rw [← k1]
    unfold corrections
    rw [List.map_map]
    refine List.map_congr_left fun r hr => ?_
    obtain ⟨l, top, hits⟩ := r
    have hl : l ∈ corrections rs := k1 ▸ List.mem_map_of_mem (f := Prod.fst) hr
    have hR : Ranked x.text alphabet as w q.variant l top hits := k2 _ hr
    show ((foundOf x.text q.variant top hits).head?.map Prod.fst).getD l = l
    rcases hcor l hl with ⟨hnr, a, ha, rfl⟩ | ⟨_, top', hits', hR', he⟩
    · obtain ⟨rest, e, _⟩ := found_first hx hw hsum hld hf hs fa fe (hwords a ha).1 (hwords a ha).2.1 hnr ⟨a, ha, rfl⟩
        (hwords a ha).2.2 hR
      rw [e]
      rfl
    · have := (found_same (fun _ _ => Iff.rfl) (.inl hf) hR' hR).1
      rw [he, List.map_nil] at this
      rw [List.map_eq_nil_iff.mp this.symm]
      rfl

/-! ### Example -/

/-- The words `ab` and `b`: the lines `ab`, `ab b` and `bb` are corrected. -/
example : ∃ rs rs' : List (List Char × List (List Char × Rat)),
    rs.map Prod.fst = ["ab".toList, "ab b".toList, "bb".toList] ∧
    { exToolW exLex1 with text := exText64 }.main exQuery1 [['q'], ['-']] =
      .ok (.output (rs.flatMap fun r => printed { exToolW exLex1 with text := exText64 } r.1 r.2) []) ∧
    { exToolW exLex1 with text := exText64, stdin := (corrections rs).map some }.main exQuery1 [] =
      .ok (.output (rs'.flatMap fun r => printed { exToolW exLex1 with text := exText64 } r.1 r.2) []) ∧
    rs'.map Prod.fst = corrections rs ∧ corrections rs' = corrections rs := by
  refine correction_idempotent
    (exPlainQ (exPlain1 exVocab1 (by decide) (by decide)) rfl (by decide) (by decide +kernel))
    rfl exWeights64 exSum64 (by unfold Counts weightSum; norm_num) (by decide +kernel) (by decide +kernel) ?_
  have hlen : ∀ a ∈ [[("ab".toList, 1), ("b".toList, 1)].map fun e : List Char × Nat =>
      (e.1, some e.2, ({} : VocabParams))].flatten, a.1 ≠ [] ∧ a.1.length ≤ 200 := by decide
  intro a ha
  refine ⟨(hlen a ha).1, ?_, ?_⟩
  · obtain ⟨qs, hqs⟩ := encodes_exists (alphabet := [["a".toList, "A".toList], ["b".toList]])
      (by unfold NoEmpty; decide) 3 a.1
    have h1 := encodes_length hqs
    have h2 := (hlen a ha).2
    have h3 : (exNumbers exQuery1).variant.maxAnagramDistance = .absolute 3 := rfl
    refine ⟨qs, _, hqs, (allowed_iff ?_).mpr rfl, ?_⟩
    · rw [h3]
      show 3 ≤ 255
      decide
    · have : effectiveDistance Rounding.binary32 qs.length (.absolute 3) ≤ 3 :=
        (effective_absolute _ qs.length 3 (by decide)).1.1
      rw [h3]
      show qs.length + effectiveDistance Rounding.binary32 qs.length (.absolute 3) ≤ 255
      omega
  · rintro b hb ⟨codes, c1, c2⟩ _
    have same : ∀ n n', normalizeToAlphabet [["a".toList, "A".toList], ["b".toList]] a.1 = .ok n →
        normalizeToAlphabet [["a".toList, "A".toList], ["b".toList]] b.1 = .ok n' → n = n' := by
      intro n n' h h'
      have enc := normalize_is_greedy_encoding [["a".toList, "A".toList], ["b".toList]]
        (by unfold NoEmpty; decide) (by decide)
      rw [encodes_unique ((enc _ _).mp h) ((encodes_change c1 3).resolve_right (by decide)),
        encodes_unique ((enc _ _).mp h') ((encodes_change c2 3).resolve_right (by decide))]
    simp only [List.flatten_singleton, List.map_cons, List.map_nil, List.mem_cons, List.not_mem_nil, or_false] at ha hb
    rcases ha with rfl | rfl <;> rcases hb with rfl | rfl
    · rfl
    · exact absurd (same [0, 1] [1] rfl rfl) (by decide)
    · exact absurd (same [1] [0, 1] rfl rfl) (by decide)
    · rfl

end Verif.Props
