import Verif.Spec.Correct
import Verif.Props.SimilarSearch
import Verif.Props.Ieee

/-!
# Correct words are left unchanged (C135)
-/
namespace Verif.Props

open Verif.Spec Verif.Model Verif.Lemmas

theorem exactScore_gap {w : Weights} (h1 : 0 ≤ w.ld) (h2 : 0 ≤ w.lcs) (h3 : 0 ≤ w.pre) (h4 : 0 ≤ w.suf)
    (h5 : 0 ≤ w.case) (hs : 0 < weightSum w) {len : Nat} (hlen : 0 < len) {d : Distance}
    (d1 : d.lcs ≤ len) (d2 : d.prefixlen ≤ len) (d3 : d.suffixlen ≤ len) :
    (d.ld ≠ 0 → w.ld / len ≤ (1 - exactScore w len d) * weightSum w) ∧
      (d.samecase = false → w.case ≤ (1 - exactScore w len d) * weightSum w) := by
  have hl : (1 : Rat) ≤ len := by exact_mod_cast hlen
  have hl0 : (0 : Rat) < len := by linarith
  have ratio : ∀ k : Nat, k ≤ len → (k : Rat) / len ≤ 1 := fun k hk =>
    (div_le_one hl0).mpr (by exact_mod_cast hk)
  have part : ∀ {a b : Rat}, 0 ≤ a → b ≤ 1 → a * b ≤ a := fun ha hb => mul_le_of_le_one_right ha hb
  have p2 := part h2 (ratio _ d1)
  have p3 := part h3 (ratio _ d2)
  have p4 := part h4 (ratio _ d3)
  have e : (1 - exactScore w len d) * weightSum w = weightSum w - (w.ld * (if d.ld ≤ len then 1 - (d.ld : Rat) / len else 0) +
      w.lcs * (d.lcs / len) + w.pre * (d.prefixlen / len) + w.suf * (d.suffixlen / len) +
      if d.samecase then w.case else 0) := by
    unfold exactScore
    rw [sub_mul, one_mul]
    congr 1
    exact div_mul_cancel₀ _ hs.ne'
  rw [e]
  unfold weightSum
  constructor
  · intro h
    have p5 : (if d.samecase then w.case else 0) ≤ w.case := by split <;> linarith
    have p1 : w.ld * (if d.ld ≤ len then 1 - (d.ld : Rat) / len else 0) ≤ w.ld - w.ld / len := by
      have hd : (1 : Rat) ≤ d.ld := by exact_mod_cast Nat.one_le_iff_ne_zero.mpr h
      split
      · have : w.ld / len ≤ w.ld * (d.ld / len) := by
          rw [div_eq_mul_one_div]
          exact mul_le_mul_of_nonneg_left (by gcongr) h1
        linarith
      · have : w.ld / len ≤ w.ld := div_le_self h1 hl
        linarith
    linarith
  · intro h
    have p1 : w.ld * (if d.ld ≤ len then 1 - (d.ld : Rat) / len else 0) ≤ w.ld := by
      refine part h1 ?_
      split
      · have : (0 : Rat) ≤ (d.ld : Rat) / len := by positivity
        linarith
      · exact zero_le_one
    rw [h]
    simp only [Bool.false_eq_true, if_false]
    linarith

/-- **C135**: in `f64` arithmetic, and if the edit distance counts, only words that are written with the same
symbols get score 1; if case counts, also with the same case of the first letter. -/
theorem score_one_only {x : TextExt} (hx : x.f64 = .binary64) {alphabet : Alphabet} {w : Weights}
    (hw : WeightsOk .binary64 w) (hsum : (2 : Rat) ^ (-1022 : Int) ≤ weightSum w) (hld : Counts w w.ld)
    {p : Params} {text word : List Char} (h0 : text ≠ []) (hshort : ShortEnough x alphabet p text)
    (h : Near x alphabet w p text word 1) :
    SameSpelling alphabet text word ∧ (Counts w w.case → SameCase x.isLower text word) := by
  obtain ⟨a, b, qs, ns, d, na, ne, h1, h2, h3, h4, h5, h6, h7, h8, h9, h10, h11⟩ := h
  have hqs : qs ≠ [] := by
    rintro rfl
    exact h0 (encodes_nil_text h3)
  have hlen := List.length_pos_iff.mpr hqs
  obtain ⟨qs', n, hq', _, hn⟩ := hshort
  obtain rfl := encodes_unique h3 hq'
  obtain ⟨i1, i2, i3⟩ := distance_le h8
  rw [hx] at h11
  have hacc := scoreOf_accurate hw hsum hlen i1 i2 i3 h11
  have hpos : 0 < weightSum w := lt_of_lt_of_le (two_zpow_pos _) hsum
  obtain ⟨g1, g2⟩ := exactScore_gap hw.ld.1 hw.lcs.1 hw.pre.1 hw.suf.1 hw.case.1 hpos hlen i1 i2 i3
  have hgap : (1 - exactScore w qs.length d) * weightSum w ≤ 2 ^ (-46 : Int) * weightSum w :=
    mul_le_mul_of_nonneg_right (le_trans (le_abs_self _) hacc) hpos.le
  have key : ∀ v : Rat, Counts w v → v / 255 ≤ 2 ^ (-46 : Int) * weightSum w → False := by
    intro v hv hle
    unfold Counts at hv
    have e : (2 : Rat) ^ (-46 : Int) = 1 / 2 ^ 46 := by norm_num
    rw [e] at hle
    norm_num at hv hle
    linarith
  constructor
  · by_cases hd : d.ld = 0
    · have hns : qs = ns := by
        have := h8.ld.1
        rw [hd] at this
        cases this
        rfl
      subst hns
      have c1 := (encodes_change h3 alphabet.length).resolve_right (by omega)
      have c2 := (encodes_change h4 alphabet.length).resolve_right (by omega)
      exact ⟨_, c1, c2⟩
    · exfalso
      refine key w.ld hld (le_trans ?_ ((g1 hd).trans hgap))
      have : (qs.length : Rat) ≤ 255 := by exact_mod_cast (by omega : qs.length ≤ 255)
      have hl : (0 : Rat) < qs.length := by exact_mod_cast hlen
      have := hw.ld.1
      gcongr
  · intro hc
    have hcase : 0 < w.case := by
      unfold Counts at hc
      by_contra hn
      have : (2 : Rat) ^ 37 * w.case ≤ 0 := mul_nonpos_of_nonneg_of_nonpos (by positivity) (not_lt.mp hn)
      linarith
    obtain ⟨b, a, e1, e2, e3⟩ := h8.case hcase
    have hsame : d.samecase = true := by
      by_contra hn
      refine key w.case hc (le_trans ?_ ((g2 (by simpa using hn)).trans hgap))
      linarith
    intro c hcm c' hcm'
    rw [e2] at hcm
    rw [e1] at hcm'
    cases hcm
    cases hcm'
    exact Bool.eq_iff_iff.mpr (e3.mp hsame).symm

/-- What is shown for a word of the lexicons of which there is no other way to write it. -/
theorem found_first {x : TextExt} (hx : x.f64 = .binary64) {alphabet : Alphabet}
    {as : List (List (List Char × Option Nat × VocabParams))} {w : Weights} {p : Params}
    {l : List Char} {top : Nat} {hits : List Hit} (hw : WeightsOk .binary64 w)
    (hsum : (2 : Rat) ^ (-1022 : Int) ≤ weightSum w) (hld : Counts w w.ld) (hf : p.freqWeight = 0)
    (hs : p.scoreThreshold ≤ 1) (fa : Fits p.maxAnagramDistance) (fe : Fits p.maxEditDistance)
    (hl0 : l ≠ []) (hshort : ShortEnough x alphabet p l)
    (hnr : ¬ Reserved l) (hword : ∃ a ∈ as.flatten, a.1 = l) (halone : Alone x.isLower alphabet as w l)
    (hR : Ranked x alphabet as w p l top hits) : ItselfFirst l (foundOf x p top hits) := by
  have hw' : WeightsOk x.f64 w := by rw [hx]; exact hw
  obtain ⟨qs, _, hqs, _⟩ := id hshort
  obtain ⟨⟨t, rest, e⟩, hle, _⟩ := found_self hw' hf hs fa fe hl0 hqs hnr hword hR
  have hov : ∀ u : Hit, u.overall x.f64 p.freqWeight top = u.score := fun u => by
    rw [Hit.overall, if_pos hf]
  have hshown := shown_sublist x.f64 p.maxMatches p.cutoffThreshold (Hit.overall x.f64 p.freqWeight top)
    Hit.score hits
  have hone : ∀ u ∈ foundOf x p top hits, u.2 = 1 → u.1 = l := by
    intro u hu h1
    obtain ⟨v, hv, rfl⟩ := List.mem_map.mp hu
    rw [hov] at h1
    simp only at h1
    obtain ⟨_, hsim, hfr⟩ := (hR.mem v).mp (hshown.subset hv)
    have hn := hsim.1
    rw [h1] at hn
    obtain ⟨k1, k2⟩ := score_one_only hx hw hsum hld hl0 hshort hn
    obtain ⟨a, ha, ea, _⟩ := hfr.1
    have := halone a ha (ea ▸ k1) (ea ▸ k2)
    rw [← ea]
    exact this
  have ht : t = l := hone (t, 1) (by rw [e]; exact List.mem_cons_self) rfl
  subst ht
  refine ⟨rest, e, fun u hu => ?_⟩
  have hmem : u ∈ foundOf x p top hits := by rw [e]; exact List.mem_cons_of_mem _ hu
  refine lt_of_le_of_ne (hle u hmem) fun h1 => ?_
  have hnd : ((foundOf x p top hits).map Prod.fst).Nodup := by
    unfold foundOf
    rw [List.map_map]
    exact (hR.nodup).sublist (hshown.map _)
  rw [e, List.map_cons, List.nodup_cons] at hnd
  exact hnd.1 (List.mem_map.mpr ⟨u, hu, hone u hmem h1⟩)

/-- **C135**: without frequency ranking, a query suggests a word of the lexicons first for itself, with score 1,
and everything else with a lower score, unless another word of the lexicons is written with the same symbols (and
the same case of the first letter). -/
theorem correct_line_unchanged {x : ToolExt} {c : CommandLine} {files : List (List Char)}
    {alphabet : Alphabet} {as : List (List (List Char × Option Nat × VocabParams))} {w : Weights}
    {p : Params} {lines : List (List Char)} (h : PlainQuery x c files alphabet as w p lines)
    (hx : x.text.f64 = .binary64) (hw : WeightsOk .binary64 w) (hsum : (2 : Rat) ^ (-1022 : Int) ≤ weightSum w)
    (hld : Counts w w.ld) (hf : p.freqWeight = 0) (hs : p.scoreThreshold ≤ 1) :
    ∃ rs : List (List Char × List (List Char × Rat)), rs.map Prod.fst = lines ∧
      x.main c files = .ok (.output (rs.flatMap fun r => printed x r.1 r.2) []) ∧
      ∀ r ∈ rs, ¬ Reserved r.1 → (∃ a ∈ as.flatten, a.1 = r.1) → Alone x.text.isLower alphabet as w r.1 →
        ItselfFirst r.1 r.2 := by
  obtain ⟨rs, h1, h2, h3⟩ := plain_query h
  obtain ⟨q, inputs, hn, rfl, _⟩ := h.numbers
  obtain ⟨fa, fe⟩ := fits_of_numbers hn
  refine ⟨rs.map fun r => (r.1, foundOf x.text q.variant r.2.1 r.2.2), ?_, ?_, ?_⟩
  · rw [List.map_map]; exact h1
  · rw [h3, List.flatMap_map]
    rfl
  · intro r hr hnr hword hal
    obtain ⟨⟨l, top, hits⟩, hr', rfl⟩ := List.mem_map.mp hr
    have hl : l ∈ lines := h1 ▸ List.mem_map_of_mem (f := Prod.fst) hr'
    obtain ⟨hl0, hshort⟩ := h.short l hl
    exact found_first hx hw hsum hld hf hs fa fe hl0 hshort hnr hword hal (h2 _ hr')

/-- **C135**: the same for the words of a text in a search for single words. -/
theorem correct_text_unchanged {x : ToolExt} {c : CommandLine} {files : List (List Char)}
    {alphabet : Alphabet} {as : List (List (List Char × Option Nat × VocabParams))} {w : Weights}
    {p : Params} {inputs : List (List (Option (List Char)))}
    (h : PlainSearch x c files alphabet as w p inputs)
    (hx : x.text.f64 = .binary64) (hw : WeightsOk .binary64 w) (hsum : (2 : Rat) ^ (-1022 : Int) ≤ weightSum w)
    (hld : Counts w w.ld) (hf : p.freqWeight = 0) (hs : p.scoreThreshold ≤ 1) :
    ∃ rs : List (List (List ((Nat × List Char) × List (List Char × Rat)))),
      List.Forall₂ (TextWords x.text.isAlpha c) inputs (rs.map (List.map (List.map Prod.fst))) ∧
      x.main c files = .ok (.output (rs.flatMap (textPrinted x)) []) ∧
      ∀ gs ∈ rs, ∀ g ∈ gs, ∀ u ∈ g, (∃ a ∈ as.flatten, a.1 = u.1.2) →
        Alone x.text.isLower alphabet as w u.1.2 → ItselfFirst u.1.2 u.2 := by
  obtain ⟨q, hq, rfl, _⟩ := h.numbers
  obtain ⟨fa, fe⟩ := fits_of_numbers hq
  refine search_each h (R := fun t found => (∃ a ∈ as.flatten, a.1 = t) → Alone x.text.isLower alphabet as w t →
    ItselfFirst t found) fun t top hits hne hshort hR hword hal => ?_
  obtain ⟨a, ha, e⟩ := id hword
  have hnr := h.unreserved a ha
  rw [e] at hnr
  exact found_first hx hw hsum hld hf hs fa fe hne hshort hnr hword hal hR

/-! ### Examples -/

/-- The search of the earlier examples, with other surroundings. -/
theorem exPlainT {t : TextExt} (hsp' : t.isAlpha ' ' = false)
    {ls ts : List (Option (List Char))}
    {es : List (List Char × Nat)} (hes : List.Forall₂ (VocabLine {}) (nonEmpty ls) es)
    (hsp : ∀ e ∈ es, (e.1.countP (· == ' ')) % 256 ≠ 255 ∧ e.1.length < 65536)
    (hsum : (es.map Prod.snd).sum < 2 ^ 32) (hne : es ≠ []) (hnr : ∀ e ∈ es, ¬ Reserved e.1)
    (hw : (⟨1 / 2, 1 / 8, 1 / 8, 1 / 8, 1 / 8⟩ : Weights).sum t.f64 ≠ 0)
    (h3 : ((untilError ts).map fun l => l.length + 1).sum ≤ 30) :
    PlainSearch { exToolT ls ts with text := t } exSearchW [['t']] [["a".toList, "A".toList], ["b".toList]]
      [es.map fun e => (e.1, some e.2, {})] ⟨1 / 2, 1 / 8, 1 / 8, 1 / 8, 1 / 8⟩
      (exNumbers exSearchW).variant [ts] := by
  obtain ⟨entries, e1, e2, _⟩ := read_alphabet_entries (isSpace := exToolR.load.isSpace) rfl []
    [some "a\tA".toList, some ['b']]
  have he : entries = [["a".toList, "A".toList], ["b".toList]] := by
    rw [List.nil_append] at e2
    rw [← e2]
    decide
  rw [he] at e1
  have hN := exNumbersW ls ts
  have hU := exUsableW (ts := ts) hes hsp hsum
  refine ⟨ex_noSemicolon, ex_pos, ex_marks, rfl, hsp', accepted_of (by decide) (by decide), rfl, ?_,
    ⟨hU.files, hU.short⟩, by simpa using hne, ?_, ⟨['a'], _, by decide, rfl, e1⟩,
    ⟨exNumbers exSearchW, ⟨hN.weights, hw, hN.params, hN.cutoff, hN.debug⟩, rfl, rfl⟩, inputsOf_iff.mp rfl,
    by decide +kernel, ?_⟩
  · have : ∀ o ∈ [OptName.json, .outputLexmatch, .variants, .errors, .confusables, .lm, .contextrules,
        .stopExact], ∀ g ∈ exSearchW.given, g.1 ≠ o := by decide
    exact fun o ho => not_given (this o ho)
  · intro a ha
    rw [List.flatten_singleton] at ha
    obtain ⟨e, he, rfl⟩ := List.mem_map.mp ha
    exact hnr e he
  intro lines hl text ht b t' hw
  cases List.mem_singleton.mp hl
  have h1 := searchedIn_length ht
  obtain ⟨pre, post, e, _⟩ := hw
  have h2 : t'.length ≤ text.length := by rw [e]; simp; omega
  obtain ⟨qs, hqs⟩ := encodes_exists (alphabet := [["a".toList, "A".toList], ["b".toList]])
    (by unfold NoEmpty; decide) 3 t'
  have hlen := encodes_length hqs
  have ha : (exNumbers exSearchW).variant.maxAnagramDistance = .absolute 3 := rfl
  refine ⟨qs, _, hqs, (allowed_iff ?_).mpr rfl, ?_⟩
  · rw [ha]
    show 3 ≤ 255
    decide
  · have : effectiveDistance t.f32 qs.length (.absolute 3) ≤ 3 :=
      (effective_absolute t.f32 qs.length 3 (by decide)).1.1
    rw [ha]
    show qs.length + effectiveDistance t.f32 qs.length (.absolute 3) ≤ 255
    omega

theorem exSum64 : (2 : Rat) ^ (-1022 : Int) ≤ weightSum ⟨1 / 2, 1 / 8, 1 / 8, 1 / 8, 1 / 8⟩ := by
  have e : weightSum ⟨1 / 2, 1 / 8, 1 / 8, 1 / 8, 1 / 8⟩ = 1 := by unfold weightSum; norm_num
  rw [e]
  exact zpow_le_one_of_nonpos₀ (by norm_num) (by norm_num)

/-- The words `ab`, `ba` and `a`, in a text with these and others: `ba` comes first for itself. -/
example : ∃ rs : List (List (List ((Nat × List Char) × List (List Char × Rat)))),
    { exToolT exLex6 exText2 with text := exText64 }.main exSearchW [['t']] =
      .ok (.output (rs.flatMap (textPrinted { exToolT exLex6 exText2 with text := exText64 })) []) ∧
    ∀ gs ∈ rs, ∀ g ∈ gs, ∀ u ∈ g, u.1.2 = "ba".toList → ItselfFirst "ba".toList u.2 := by
  obtain ⟨rs, _, h2, h3⟩ := correct_text_unchanged
    (exPlainT (t := exText64) (ls := exLex6) (ts := exText2) rfl exVocab6 (by decide) (by decide) (by decide)
      (by unfold Reserved; decide) (by decide +kernel) (by decide))
    rfl exWeights64 exSum64 (by unfold Counts weightSum; norm_num) (by decide +kernel)
    (by decide +kernel)
  refine ⟨rs, h2, fun gs hgs g hg u hu e => ?_⟩
  have := h3 gs hgs g hg u hu ⟨("ba".toList, some 16, {}), by decide, e.symm⟩
  rw [e] at this
  refine this ?_
  rintro a ha ⟨codes, c1, c2⟩ _
  have same : ∀ n n', normalizeToAlphabet [["a".toList, "A".toList], ["b".toList]] "ba".toList = .ok n →
      normalizeToAlphabet [["a".toList, "A".toList], ["b".toList]] a.1 = .ok n' → n = n' := by
    intro n n' h h'
    have enc := normalize_is_greedy_encoding [["a".toList, "A".toList], ["b".toList]]
      (by unfold NoEmpty; decide) (by decide)
    rw [encodes_unique ((enc _ _).mp h) ((encodes_change c1 3).resolve_right (by decide)),
      encodes_unique ((enc _ _).mp h') ((encodes_change c2 3).resolve_right (by decide))]
  simp only [List.flatten_singleton, List.map_cons, List.map_nil, List.mem_cons, List.not_mem_nil, or_false] at ha
  rcases ha with rfl | rfl | rfl
  · exact absurd (same [1, 0] [0, 1] rfl rfl) (by decide)
  · rfl
  · exact absurd (same [1, 0] [0] rfl rfl) (by decide)

theorem exPlainQ {ls : List (Option (List Char))} {c : CommandLine} {files : List (List Char)}
    {as : List (List (List Char × Option Nat × VocabParams))} {w : Weights} {p : Params} {lines : List (List Char)}
    (h : PlainQuery (exToolW ls) c files [["a".toList, "A".toList], ["b".toList]] as w p lines)
    (ha : p.maxAnagramDistance = .absolute 3) (hl : ∀ l ∈ lines, l.length ≤ 200)
    (hw : w.sum .binary64 ≠ 0) :
    PlainQuery { exToolW ls with text := exText64 } c files [["a".toList, "A".toList], ["b".toList]] as w p lines := by
  obtain ⟨q, inputs, n1, n2, n3, n4, n5⟩ := h.numbers
  refine ⟨h.semicolon, h.positions, h.marks, h.space, h.accepted, h.query, h.options,
    ⟨h.words.files, h.words.short⟩, h.letters,
    ⟨q, inputs, ⟨n1.weights, hw, n1.params, n1.cutoff, n1.debug⟩, n2, n3, n4, n5⟩, h.weight, fun l hm => ?_⟩
  obtain ⟨h0, qs, _, hqs, _⟩ := h.short l hm
  have hlen := encodes_length hqs
  have := hl l hm
  refine ⟨h0, qs, _, hqs, (allowed_iff ?_).mpr rfl, ?_⟩
  · rw [ha]
    show 3 ≤ 255
    decide
  · have : effectiveDistance Rounding.binary32 qs.length (.absolute 3) ≤ 3 :=
      (effective_absolute _ qs.length 3 (by decide)).1.1
    rw [ha]
    show qs.length + effectiveDistance Rounding.binary32 qs.length (.absolute 3) ≤ 255
    omega

/-- The words `ab` and `b`, of which `ab` is asked for. -/
example : ∃ rs : List (List Char × List (List Char × Rat)),
    rs.map Prod.fst = ["ab".toList, "ab b".toList, "bb".toList] ∧
    { exToolW exLex1 with text := exText64 }.main exQuery1 [['q'], ['-']] =
      .ok (.output (rs.flatMap fun r => printed { exToolW exLex1 with text := exText64 } r.1 r.2) []) ∧
    ∀ r ∈ rs, r.1 = "ab".toList → ItselfFirst "ab".toList r.2 := by
  obtain ⟨rs, h1, h2, h3⟩ := correct_line_unchanged
    (exPlainQ (exPlain1 exVocab1 (by decide) (by decide)) rfl (by decide) (by decide +kernel))
    rfl exWeights64 exSum64 (by unfold Counts weightSum; norm_num) (by decide +kernel) (by decide +kernel)
  refine ⟨rs, h1, h2, fun r hr e => ?_⟩
  have := h3 r hr (by rw [e]; unfold Reserved; decide) ⟨("ab".toList, some 1, {}), by decide, e.symm⟩
  rw [e] at this
  refine this ?_
  rintro a ha ⟨codes, c1, c2⟩ _
  have same : ∀ n n', normalizeToAlphabet [["a".toList, "A".toList], ["b".toList]] "ab".toList = .ok n →
      normalizeToAlphabet [["a".toList, "A".toList], ["b".toList]] a.1 = .ok n' → n = n' := by
    intro n n' h h'
    have enc := normalize_is_greedy_encoding [["a".toList, "A".toList], ["b".toList]]
      (by unfold NoEmpty; decide) (by decide)
    rw [encodes_unique ((enc _ _).mp h) ((encodes_change c1 3).resolve_right (by decide)),
      encodes_unique ((enc _ _).mp h') ((encodes_change c2 3).resolve_right (by decide))]
  simp only [List.flatten_singleton, List.map_cons, List.map_nil, List.mem_cons, List.not_mem_nil, or_false] at ha
  rcases ha with rfl | rfl
  · rfl
  · exact absurd (same [0, 1] [1] rfl rfl) (by decide)

/-- The words `baA` and `baa`, which are written with the same symbols. -/
abbrev exLexSame : List (Option (List Char)) := [some "baA\t1".toList, some "baa\t2".toList]

/-- If another word of the lexicons is written with the same symbols, it may come first: here for `baA`, which is
itself a word of the lexicons. -/
theorem correct_word_replaced : ∃ x c files alphabet as w p inputs,
    PlainSearch x c files alphabet as w p inputs ∧ x.text.f64 = .binary64 ∧ WeightsOk .binary64 w ∧
    (2 : Rat) ^ (-1022 : Int) ≤ weightSum w ∧ Counts w w.ld ∧ Counts w w.case ∧ p.freqWeight = 0 ∧
    p.scoreThreshold ≤ 1 ∧ inputs = [[some "baA".toList]] ∧ (∃ a ∈ as.flatten, a.1 = "baA".toList) ∧
    x.main c files = .ok (.output "baA\t0:3\tbaa\t1\t\tbaA\t1\t\n".toList []) := by
  have v : List.Forall₂ (VocabLine {}) (nonEmpty exLexSame) [("baA".toList, 1), ("baa".toList, 2)] :=
    .cons (exVocab (f := ['1']) (by decide) (by decide)) (.cons (exVocab (f := ['2']) (by decide)
      (by decide)) .nil)
  exact ⟨_, _, _, _, _, _, _, _,
    exPlainT (t := exText64) (ls := exLexSame) (ts := [some "baA".toList]) rfl v (by decide) (by decide)
      (by decide) (by unfold Reserved; decide) (by decide +kernel) (by decide),
    rfl, exWeights64, exSum64, by unfold Counts weightSum; norm_num,
    by unfold Counts weightSum; norm_num, by decide +kernel, by decide +kernel, rfl,
    ⟨("baA".toList, some 1, {}), by decide, rfl⟩, by decide +kernel⟩

end Verif.Props
