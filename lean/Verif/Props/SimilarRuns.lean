import Verif.Spec.SimilarRuns
import Verif.Props.Similar

/-!
# Queries with different lexicons and parameters (C92, C93, C94)
-/
namespace Verif.Props

open Verif.Spec Verif.Model Verif.Lemmas

/-- What a query prints. -/
theorem plain_query {x : ToolExt} {c : CommandLine} {files : List (List Char)} {alphabet : Alphabet}
    {as : List (List (List Char × Option Nat × VocabParams))} {w : Weights} {p : Params}
    {lines : List (List Char)} (h : PlainQuery x c files alphabet as w p lines) :
    ∃ rs : List (List Char × Nat × List Hit), rs.map Prod.fst = lines ∧
      (∀ r ∈ rs, Ranked x.text alphabet as w p r.1 r.2.1 r.2.2) ∧
      x.main c files = .ok (.output (rs.flatMap fun r => printed x r.1
        ((shown x.text.f64 p.maxMatches p.cutoffThreshold (Hit.overall x.text.f64 p.freqWeight r.2.1)
          Hit.score r.2.2).map fun u => (u.word, u.overall x.text.f64 p.freqWeight r.2.1))) []) := by
  obtain ⟨afile, alines, ha1, ha2, ha3⟩ := h.letters
  obtain ⟨q, inputs, hn1, rfl, hn3, hn4, rfl⟩ := h.numbers
  obtain ⟨rows, h1, h2⟩ := query_prints_similar h.semicolon h.positions h.marks h.space h.accepted h.query
    (h.options _ (by simp)) (fun o ho => h.options o (List.mem_cons_of_mem _ (List.mem_cons_of_mem _ ho)))
    h.words hn1 h.weight ha1 ha2 ha3 hn3 hn4 h.short
  have hlm := h.options .outputLexmatch (by simp)
  have key : ∃ rs : List (List Char × Nat × List Hit), rs.map Prod.fst = inputs.flatMap readable ∧
      (∀ r ∈ rs, Ranked x.text alphabet as w q.variant r.1 r.2.1 r.2.2) ∧
      rows.flatten = rs.flatMap fun r => printed x r.1
        ((shown x.text.f64 q.variant.maxMatches q.variant.cutoffThreshold
          (Hit.overall x.text.f64 q.variant.freqWeight r.2.1)
          Hit.score r.2.2).map fun u => (u.word, u.overall x.text.f64 q.variant.freqWeight r.2.1)) := by
    clear h2 hn3 hn4 h
    generalize inputs.flatMap readable = ls at h1
    induction h1 with
    | nil => exact ⟨[], rfl, by simp, rfl⟩
    | @cons l row ls rows hr _ ih =>
      obtain ⟨rs, i1, i2, i3⟩ := ih
      obtain ⟨cols, ⟨top, hits, j1, j2⟩, rfl⟩ := hr
      refine ⟨(l, top, hits) :: rs, by rw [List.map_cons, i1], ?_, ?_⟩
      · intro r hr
        rcases List.mem_cons.mp hr with rfl | hr
        · exact j1
        · exact i2 r hr
      · rw [List.flatten_cons, i3, List.flatMap_cons, printed, List.flatMap_map]
        congr 3
        clear j1 i3
        generalize shown x.text.f64 q.variant.maxMatches q.variant.cutoffThreshold
          (Hit.overall x.text.f64 q.variant.freqWeight top) Hit.score hits = us at j2
        induction j2 with
        | nil => rfl
        | cons hu _ ih =>
          obtain ⟨lex, hl, rfl⟩ := hu
          obtain ⟨_, rfl⟩ := hl.resolve_right fun h => hlm h.1
          rw [List.flatten_cons, List.flatMap_cons, ih]
  obtain ⟨rs, i1, i2, i3⟩ := key
  exact ⟨rs, i1, i2, by rw [h2, i3]⟩

/-- Two runs for the same lines. -/
theorem pair_rows {β β' : Type} {rs : List (List Char × β)} {rs' : List (List Char × β')}
    {R : List (List Char × Rat) → List (List Char × Rat) → Prop}
    {f : β → List (List Char × Rat)} {f' : β' → List (List Char × Rat)} {lines : List (List Char)}
    (h : rs.map Prod.fst = lines) (h' : rs'.map Prod.fst = lines)
    (hR : ∀ l b b', (l, b) ∈ rs → (l, b') ∈ rs' → R (f b) (f' b')) (x x' : ToolExt) :
    ∃ ts : List (List Char × List (List Char × Rat) × List (List Char × Rat)),
      ts.map Prod.fst = lines ∧
      (rs.flatMap fun r => printed x r.1 (f r.2)) = (ts.flatMap fun r => printed x r.1 r.2.1) ∧
      (rs'.flatMap fun r => printed x' r.1 (f' r.2)) = (ts.flatMap fun r => printed x' r.1 r.2.2) ∧
      ∀ r ∈ ts, R r.2.1 r.2.2 := by
  induction rs generalizing rs' lines with
  | nil =>
    subst h
    cases rs' with
    | nil => exact ⟨[], rfl, rfl, rfl, by simp⟩
    | cons _ _ => cases h'
  | cons r rs ih =>
    subst h
    cases rs' with
    | nil => cases h'
    | cons r' rs' =>
      rw [List.map_cons, List.map_cons, List.cons.injEq] at h'
      obtain ⟨e, h'⟩ := h'
      obtain ⟨ts, i1, i2, i3, i4⟩ := ih rfl h' fun l b b' h1 h2 =>
        hR l b b' (List.mem_cons_of_mem _ h1) (List.mem_cons_of_mem _ h2)
      obtain ⟨l, b⟩ := r
      obtain ⟨l', b'⟩ := r'
      cases e
      refine ⟨(l, f b, f' b') :: ts, by rw [List.map_cons, List.map_cons, i1],
        by rw [List.flatMap_cons, List.flatMap_cons, i2], by rw [List.flatMap_cons, List.flatMap_cons, i3], ?_⟩
      intro t ht
      rcases List.mem_cons.mp ht with rfl | ht
      · exact hR l b b' List.mem_cons_self List.mem_cons_self
      · exact i4 t ht

/-! ## C92 -/

theorem ranked_scores {x : TextExt} {alphabet : Alphabet}
    {as : List (List (List Char × Option Nat × VocabParams))} {w : Weights} {p : Params}
    {text : List Char} {top : Nat} {hits : List Hit} (h : Ranked x alphabet as w p text top hits) :
    hits.Pairwise fun u v => v.overall x.f64 p.freqWeight top ≤ u.overall x.f64 p.freqWeight top := by
  refine h.order.imp fun {u v} huv => ?_
  unfold Hit.NotWorse at huv
  unfold Hit.overall
  split at huv
  · next h0 =>
    rw [if_pos h0, if_pos h0]
    rcases huv with h | h
    · exact h.le
    · exact h.1.le
  · next h0 =>
    unfold Hit.overall at huv
    exact huv

/-- Of a list in order, what is shown contains everything better than something shown. -/
theorem shown_upward {α : Type} {r : Rounding} {n : Nat} {cutoff : Rat} {score sim : α → Rat}
    {l : List α} (hs : l.Pairwise fun a b => score b ≤ score a) {a b : α} (ha : a ∈ l)
    (hb : b ∈ shown r n cutoff score sim l) (hab : score b < score a) : a ∈ shown r n cutoff score sim l := by
  unfold shown closeOnes firstOnes at hb ⊢
  have hk : b ∈ (if n = 0 then l else l.take (keptWith n (l.map fun a => (score a, sim a)))) →
      a ∈ (if n = 0 then l else l.take (keptWith n (l.map fun a => (score a, sim a)))) := by
    split
    · intro _; exact ha
    · intro hb
      have hl := List.take_append_drop (keptWith n (l.map fun a => (score a, sim a))) l
      rw [← hl] at ha hs
      rcases List.mem_append.mp ha with ha | ha
      · exact ha
      · exact absurd hab (not_lt.mpr ((List.pairwise_append.mp hs).2.2 b hb a ha))
  have hs' : (if n = 0 then l else l.take (keptWith n (l.map fun a => (score a, sim a)))).Pairwise
      fun a b => score b ≤ score a := by
    split
    · exact hs
    · exact hs.sublist (List.take_sublist _ _)
  generalize (if n = 0 then l else l.take (keptWith n (l.map fun a => (score a, sim a)))) = k at hb hk hs'
  split at hb
  · next hc => rw [if_pos hc]; exact hk hb
  · next hc =>
    rw [if_neg hc]
    cases k with
    | nil => cases hb
    | cons m k =>
      simp only [List.mem_cons, List.mem_filter, decide_eq_true_eq] at hb hk ⊢
      rcases hb with rfl | ⟨hb1, hb2⟩
      · rcases hk (.inl rfl) with h | h
        · exact .inl h
        · exact absurd hab (not_lt.mpr ((List.pairwise_cons.mp hs').1 a h))
      · rcases hk (.inr hb1) with h | h
        · exact .inl h
        · exact .inr ⟨h, hb2.trans hab⟩

/-- The words and their frequencies determine the ranking up to the order of equals. -/
theorem ranked_perm {x : TextExt} {alphabet : Alphabet}
    {as as' : List (List (List Char × Option Nat × VocabParams))} {w : Weights} {p : Params}
    {text : List Char} {top top' : Nat} {hits hits' : List Hit}
    (hsame : ∀ t n, WordFreq as t n ↔ WordFreq as' t n)
    (h : Ranked x alphabet as w p text top hits) (h' : Ranked x alphabet as' w p text top' hits') :
    hits.Perm hits' ∧ (hits = [] ∨ top = top') := by
  have hmem : ∀ u, u ∈ hits ↔ u ∈ hits' := by
    intro u
    rw [h.mem, h'.mem, hsame]
  have hp : hits.Perm hits' := (List.perm_ext_iff_of_nodup h.nodup.of_map h'.nodup.of_map).mpr hmem
  refine ⟨hp, ?_⟩
  by_cases h0 : hits = []
  · exact .inl h0
  · refine .inr ((h.greatest h0).unique ?_)
    have := h'.greatest fun e => h0 (by rw [e] at hp; exact hp.eq_nil)
    simp only [hsame]
    exact this

/-- What is shown of two rankings with the same words and frequencies. -/
theorem found_same {x : TextExt} {alphabet : Alphabet}
    {as as' : List (List (List Char × Option Nat × VocabParams))} {w : Weights} {p : Params}
    {text : List Char} {top top' : Nat} {hits hits' : List Hit}
    (hsame : ∀ t n, WordFreq as t n ↔ WordFreq as' t n) (hlimit : p.freqWeight = 0 ∨ p.maxMatches = 0)
    (hr : Ranked x alphabet as w p text top hits) (hr' : Ranked x alphabet as' w p text top' hits') :
    SameUpToTies p (foundOf x p top hits) (foundOf x p top' hits') := by
  unfold SameUpToTies foundOf
  obtain ⟨hp, htop⟩ := ranked_perm hsame hr hr'
  rcases htop with rfl | rfl
  · have := hp.symm.eq_nil
    subst this
    have e : ∀ score : Hit → Rat,
        shown x.f64 p.maxMatches p.cutoffThreshold score Hit.score [] = [] := by
      intro score; unfold shown closeOnes firstOnes; simp
    simp only [e]
    simp
  have hs := ranked_scores hr
  have hs' := ranked_scores hr'
  refine ⟨?_, ?_, ?_, ?_⟩
  · have hsim : ∀ hits : List Hit, shown x.f64 p.maxMatches p.cutoffThreshold
        (Hit.overall x.f64 p.freqWeight top) Hit.score hits =
        shown x.f64 p.maxMatches p.cutoffThreshold (Hit.overall x.f64 p.freqWeight top)
          (Hit.overall x.f64 p.freqWeight top) hits := by
      intro hits
      rcases hlimit with h0 | h0
      · have e : Hit.overall x.f64 p.freqWeight top = Hit.score := by
          funext u; rw [Hit.overall, if_pos h0]
        rw [e]
      · unfold shown closeOnes firstOnes
        simp only [if_pos h0]
    rw [List.map_map, List.map_map, hsim, hsim]
    have e1 := shown_map x.f64 p.maxMatches p.cutoffThreshold
      (score := Hit.overall x.f64 p.freqWeight top) (score' := id)
      (sim := Hit.overall x.f64 p.freqWeight top) (sim' := id)
      (f := Hit.overall x.f64 p.freqWeight top) (l := hits) (fun _ _ => rfl) fun _ _ => rfl
    have e2 := shown_map x.f64 p.maxMatches p.cutoffThreshold
      (score := Hit.overall x.f64 p.freqWeight top) (score' := id)
      (sim := Hit.overall x.f64 p.freqWeight top) (sim' := id)
      (f := Hit.overall x.f64 p.freqWeight top) (l := hits') (fun _ _ => rfl) fun _ _ => rfl
    have e3 : hits.map (Hit.overall x.f64 p.freqWeight top) =
        hits'.map (Hit.overall x.f64 p.freqWeight top) :=
      List.Perm.eq_of_pairwise (le := fun a b : Rat => b ≤ a)
        (fun a b _ _ h1 h2 => le_antisymm h2 h1) (List.pairwise_map.mpr hs)
        (List.pairwise_map.mpr hs') (hp.map _)
    exact e1.symm.trans ((congrArg _ e3).trans e2)
  · rintro u hu v hv huv
    obtain ⟨a, ha, rfl⟩ := List.mem_map.mp hu
    obtain ⟨b, hb, rfl⟩ := List.mem_map.mp hv
    exact List.mem_map.mpr ⟨a, shown_upward hs'
      (hp.mem_iff.mp ((shown_sublist _ _ _ _ _ _).subset ha)) hb huv, rfl⟩
  · rintro u hu v hv huv
    obtain ⟨a, ha, rfl⟩ := List.mem_map.mp hu
    obtain ⟨b, hb, rfl⟩ := List.mem_map.mp hv
    exact List.mem_map.mpr ⟨b, shown_upward hs
      (hp.mem_iff.mpr ((shown_sublist _ _ _ _ _ _).subset hb)) ha huv, rfl⟩
  · intro hm hc
    refine List.Perm.map _ ?_
    unfold shown closeOnes firstOnes
    simp only [if_pos hm, if_pos hc]
    exact hp

/-- **C92**: how the words are ordered and distributed over lexicons does not matter.  Two queries for the
same lines, with the same alphabet, weights and parameters, and with lexicons that have the same words with
the same (greatest) frequencies, print the same scores; every word they show that is better than the
worst one the other shows is shown by the other too; and without limit on the number of results they show
the same words.  A limit on the number of results excludes frequency ranking here, see
`word_order_may_matter`. -/
theorem word_order_irrelevant {x x' : ToolExt} {c c' : CommandLine} {files files' : List (List Char)}
    {alphabet : Alphabet} {as as' : List (List (List Char × Option Nat × VocabParams))} {w : Weights}
    {p : Params} {lines : List (List Char)} (h : PlainQuery x c files alphabet as w p lines)
    (h' : PlainQuery x' c' files' alphabet as' w p lines) (htext : x'.text = x.text)
    (hsame : ∀ t n, WordFreq as t n ↔ WordFreq as' t n)
    (hlimit : p.freqWeight = 0 ∨ p.maxMatches = 0) :
    ∃ rs : List (List Char × List (List Char × Rat) × List (List Char × Rat)),
      rs.map Prod.fst = lines ∧
      x.main c files = .ok (.output (rs.flatMap fun r => printed x r.1 r.2.1) []) ∧
      x'.main c' files' = .ok (.output (rs.flatMap fun r => printed x' r.1 r.2.2) []) ∧
      ∀ r ∈ rs, r.2.1.map Prod.snd = r.2.2.map Prod.snd ∧
        (∀ u ∈ r.2.1, ∀ v ∈ r.2.2, v.2 < u.2 → u ∈ r.2.2) ∧
        (∀ u ∈ r.2.1, ∀ v ∈ r.2.2, u.2 < v.2 → v ∈ r.2.1) ∧
        (p.maxMatches = 0 → p.cutoffThreshold < 1 → r.2.1.Perm r.2.2) := by
  obtain ⟨rs, h1, h2, h3⟩ := plain_query h
  obtain ⟨rs', h1', h2', h3'⟩ := plain_query h'
  rw [htext] at h2' h3'
  obtain ⟨ts, i1, i2, i3, i4⟩ := pair_rows (R := fun found found' =>
      found.map Prod.snd = found'.map Prod.snd ∧
        (∀ u ∈ found, ∀ v ∈ found', v.2 < u.2 → u ∈ found') ∧
        (∀ u ∈ found, ∀ v ∈ found', u.2 < v.2 → v ∈ found) ∧
        (p.maxMatches = 0 → p.cutoffThreshold < 1 → found.Perm found'))
    (f := fun r => (shown x.text.f64 p.maxMatches p.cutoffThreshold
        (Hit.overall x.text.f64 p.freqWeight r.1) Hit.score r.2).map
          fun u => (u.word, u.overall x.text.f64 p.freqWeight r.1))
    (f' := fun r => (shown x.text.f64 p.maxMatches p.cutoffThreshold
        (Hit.overall x.text.f64 p.freqWeight r.1) Hit.score r.2).map
          fun u => (u.word, u.overall x.text.f64 p.freqWeight r.1)) h1 h1' (by
      rintro l ⟨top, hits⟩ ⟨top', hits'⟩ hr hr'
      exact found_same hsame hlimit (h2 _ hr) (h2' _ hr')) x x'
  exact ⟨ts, i1, by rw [h3]; exact congrArg (fun s => Except.ok (Outcome.output s [])) i2,
    by rw [h3']; exact congrArg (fun s => Except.ok (Outcome.output s [])) i3, i4⟩

/-! ## C93 -/

theorem allowed_looser {r : Rounding} {len : Nat} {t t' : DistanceThreshold} {n n' : Nat} (h : Looser t t')
    (hn : Allowed r len t n) (hn' : Allowed r len t' n') : n ≤ n' := by
  have hmono : ∀ {q q' : Rat}, q ≤ q' → r.rnd (r.rnd len * q) ≤ r.rnd (r.rnd len * q') := by
    intro q q' h
    refine r.mono _ _ (mul_le_mul_of_nonneg_left h ?_)
    rw [← r.zero]
    exact r.mono _ _ (Nat.cast_nonneg _)
  cases h with
  | ratio hq =>
    refine hn'.2 ?_
    rcases hn.1 with h | ⟨h1, h2⟩
    · exact .inl h
    · exact .inr ⟨h1, h2.trans (hmono hq)⟩
  | limit hq hl =>
    refine hn'.2 ?_
    rcases hn.1 with h | ⟨h1, h2⟩
    · exact .inl h
    · exact .inr ⟨h1.trans hl, h2.trans (hmono hq)⟩
  | absolute hl => exact hn'.2 ⟨hn.1.1.trans hl, hn.1.2⟩

theorem allowed_exists {r : Rounding} {len : Nat} {t : DistanceThreshold} (h : Fits t) :
    ∃ n, Allowed r len t n := ⟨_, (allowed_iff h).mpr rfl⟩

theorem fits_of_numbers {x : ToolExt} {c : CommandLine} {w : Weights} {p : TextParams}
    (h : UsableNumbers x c w p) : Fits p.variant.maxAnagramDistance ∧ Fits p.variant.maxEditDistance := by
  obtain ⟨q, hq, _, hqn⟩ := h.params
  constructor
  · obtain ⟨v, _, hv⟩ := hq.anagram
    rw [hqn.anagram] at hv
    exact fits_of_text hv
  · obtain ⟨v, _, hv⟩ := hq.edit
    rw [hqn.edit] at hv
    exact fits_of_text hv

theorem near_looser {x : TextExt} {alphabet : Alphabet} {w : Weights} {p p' : Params}
    {text word : List Char} {s : Rat} (ha : Looser p.maxAnagramDistance p'.maxAnagramDistance)
    (he : Looser p.maxEditDistance p'.maxEditDistance) (fa : Fits p'.maxAnagramDistance)
    (fe : Fits p'.maxEditDistance) (h : Near x alphabet w p text word s) :
    Near x alphabet w p' text word s := by
  obtain ⟨a, b, qs, ns, d, na, ne, h1, h2, h3, h4, h5, h6, h7, h8, h9, h10, h11⟩ := h
  obtain ⟨na', hna⟩ := allowed_exists (r := x.f32) (len := qs.length) fa
  obtain ⟨ne', hne⟩ := allowed_exists (r := x.f32) (len := qs.length) fe
  exact ⟨a, b, qs, ns, d, na', ne', h1, h2, h3, h4, hna, h6.trans (allowed_looser ha h5 hna), h7, h8, hne,
    h10.trans (allowed_looser he h9 hne), h11⟩

theorem wordFreq_exists {as : List (List (List Char × Option Nat × VocabParams))} {t : List Char}
    (h : ∃ a ∈ as.flatten, a.1 = t) : ∃ n, WordFreq as t n := by
  obtain ⟨a, ha, e⟩ := h
  have hne : {k | ∃ a ∈ as.flatten, a.1 = t ∧ a.2.1.getD 1 = k}.Nonempty := ⟨_, a, ha, e, rfl⟩
  have hb : BddAbove {k | ∃ a ∈ as.flatten, a.1 = t ∧ a.2.1.getD 1 = k} := by
    refine (Set.Finite.subset (List.finite_toSet (as.flatten.map fun a => a.2.1.getD 1)) ?_).bddAbove
    rintro k ⟨a, ha, _, e⟩
    exact List.mem_map.mpr ⟨a, ha, e⟩
  exact ⟨_, Nat.sSup_mem hne hb, fun n hn => le_csSup hb hn⟩

/-- What is shown of a ranking is shown of one with more words and looser thresholds. -/
theorem found_more {x : TextExt} {alphabet : Alphabet}
    {as as' : List (List (List Char × Option Nat × VocabParams))} {w : Weights} {p p' : Params}
    {text : List Char} {top top' : Nat} {hits hits' : List Hit}
    (fa : Fits p'.maxAnagramDistance) (fe : Fits p'.maxEditDistance)
    (hwords : ∀ t, (∃ a ∈ as.flatten, a.1 = t) → ∃ a ∈ as'.flatten, a.1 = t)
    (ha : Looser p.maxAnagramDistance p'.maxAnagramDistance)
    (he : Looser p.maxEditDistance p'.maxEditDistance) (hs : p'.scoreThreshold ≤ p.scoreThreshold)
    (hf : p.freqWeight = 0) (hf' : p'.freqWeight = 0)
    (hm : p'.maxMatches = 0) (hc : p'.cutoffThreshold < 1)
    (hr : Ranked x alphabet as w p text top hits) (hr' : Ranked x alphabet as' w p' text top' hits') :
    ∀ u ∈ foundOf x p top hits, u ∈ foundOf x p' top' hits' := by
  intro u hu
  obtain ⟨v, hv, rfl⟩ := List.mem_map.mp hu
  obtain ⟨j1, ⟨j2, j3⟩, j4⟩ := (hr.mem v).mp ((shown_sublist _ _ _ _ _ _).subset hv)
  obtain ⟨n, hn⟩ := wordFreq_exists (hwords v.word (by
    obtain ⟨a, ha, e, _⟩ := j4.1
    exact ⟨a, ha, e⟩))
  refine List.mem_map.mpr ⟨⟨v.word, v.score, n⟩, ?_, ?_⟩
  · unfold shown closeOnes firstOnes
    simp only [if_pos hm, if_pos hc]
    exact (hr'.mem _).mpr ⟨j1, ⟨near_looser ha he fa fe j2, hs.trans j3⟩, hn⟩
  · simp only [Hit.overall, if_pos hf, if_pos hf']

/-- **C93**: without frequency ranking and limits on the results, a query with more words and looser
thresholds finds at least the same: every word that the first query prints for a line, the second one
prints for it too, with the same score. -/
theorem more_is_found {x x' : ToolExt} {c c' : CommandLine} {files files' : List (List Char)}
    {alphabet : Alphabet} {as as' : List (List (List Char × Option Nat × VocabParams))} {w : Weights}
    {p p' : Params} {lines : List (List Char)} (h : PlainQuery x c files alphabet as w p lines)
    (h' : PlainQuery x' c' files' alphabet as' w p' lines) (htext : x'.text = x.text)
    (hwords : ∀ t, (∃ a ∈ as.flatten, a.1 = t) → ∃ a ∈ as'.flatten, a.1 = t)
    (ha : Looser p.maxAnagramDistance p'.maxAnagramDistance)
    (he : Looser p.maxEditDistance p'.maxEditDistance) (hs : p'.scoreThreshold ≤ p.scoreThreshold)
    (hf : p.freqWeight = 0) (hf' : p'.freqWeight = 0)
    (hm : p'.maxMatches = 0) (hc : p'.cutoffThreshold < 1) :
    ∃ rs : List (List Char × List (List Char × Rat) × List (List Char × Rat)),
      rs.map Prod.fst = lines ∧
      x.main c files = .ok (.output (rs.flatMap fun r => printed x r.1 r.2.1) []) ∧
      x'.main c' files' = .ok (.output (rs.flatMap fun r => printed x' r.1 r.2.2) []) ∧
      ∀ r ∈ rs, ∀ u ∈ r.2.1, u ∈ r.2.2 := by
  obtain ⟨rs, h1, h2, h3⟩ := plain_query h
  obtain ⟨rs', h1', h2', h3'⟩ := plain_query h'
  obtain ⟨q, _, hn, rfl, _⟩ := h'.numbers
  obtain ⟨fa, fe⟩ := fits_of_numbers hn
  rw [htext] at h2' h3'
  obtain ⟨ts, i1, i2, i3, i4⟩ := pair_rows (R := fun found found' => ∀ u ∈ found, u ∈ found')
    (f := fun r => (shown x.text.f64 p.maxMatches p.cutoffThreshold
        (Hit.overall x.text.f64 p.freqWeight r.1) Hit.score r.2).map
          fun u => (u.word, u.overall x.text.f64 p.freqWeight r.1))
    (f' := fun r => (shown x.text.f64 q.variant.maxMatches q.variant.cutoffThreshold
        (Hit.overall x.text.f64 q.variant.freqWeight r.1) Hit.score r.2).map
          fun u => (u.word, u.overall x.text.f64 q.variant.freqWeight r.1)) h1 h1' (by
      rintro l ⟨top, hits⟩ ⟨top', hits'⟩ hr hr'
      exact found_more fa fe hwords ha he hs hf hf' hm hc (h2 _ hr) (h2' _ hr')) x x'
  exact ⟨ts, i1, by rw [h3]; exact congrArg (fun s => Except.ok (Outcome.output s [])) i2,
    by rw [h3']; exact congrArg (fun s => Except.ok (Outcome.output s [])) i3, i4⟩

/-! ## C94 -/

/-- A text is within reach of itself, with score 1. -/
theorem near_self {x : TextExt} {alphabet : Alphabet} {w : Weights} (hw : WeightsOk x.f64 w) {p : Params}
    (fa : Fits p.maxAnagramDistance) (fe : Fits p.maxEditDistance) {text : List Char} (h0 : text ≠ [])
    {qs : List Nat} (hq : Encodes alphabet (alphabet.length + 1) text qs) :
    Near x alphabet w p text text 1 := by
  have hqs : qs ≠ [] := by
    rintro rfl
    exact h0 (encodes_nil_text hq)
  have ha := (encodes_change hq alphabet.length).resolve_right (by omega)
  obtain ⟨na, hna⟩ := allowed_exists (r := x.f32) (len := qs.length) fa
  obtain ⟨ne, hne⟩ := allowed_exists (r := x.f32) (len := qs.length) fe
  obtain ⟨a, as, e⟩ := List.exists_cons_of_ne_nil hqs
  refine ⟨_, _, qs, qs, exactDistance w qs.length, na, ne, ha, ha, hq, hq, hna, ?_, ?_,
    exactDistance_isDistance _ w h0 qs, hne, Nat.zero_le _, ?_⟩
  · rw [bagDiff_self]; exact Nat.zero_le _
  · rw [e, List.map_cons]
    exact ⟨_, List.mem_cons_self, List.mem_cons_self⟩
  · exact scoreOf_iff.mpr (similarity_exact x.f64 hw (List.length_pos_iff.mpr hqs)).symm

/-- Scores are at most 1. -/
theorem near_le_one {x : TextExt} {alphabet : Alphabet} {w : Weights} (hw : WeightsOk x.f64 w) {p : Params}
    {text word : List Char} {s : Rat} (h0 : text ≠ []) (h : Near x alphabet w p text word s) : s ≤ 1 := by
  obtain ⟨a, b, qs, ns, d, na, ne, h1, h2, h3, h4, h5, h6, h7, h8, h9, h10, h11⟩ := h
  have hqs : qs ≠ [] := by
    rintro rfl
    exact h0 (encodes_nil_text h3)
  rw [scoreOf_iff.mp h11]
  refine (similarity_bounds x.f64 hw (List.length_pos_iff.mpr hqs) ?_ ?_ ?_).2
  · rcases le_or_gt w.lcs 0 with h | h
    · rw [h8.lcs0 h]; exact Nat.zero_le _
    · obtain ⟨z, hz, _, e⟩ := (h8.lcs h).1
      rw [← e]
      exact hz.length_le
  · rcases le_or_gt w.pre 0 with h | h
    · rw [h8.pre0 h]; exact Nat.zero_le _
    · exact (h8.pre h).1.1
  · rcases le_or_gt w.suf 0 with h | h
    · rw [h8.suf0 h]; exact Nat.zero_le _
    · exact (h8.suf h).1.1

/-- What is shown for a word of the lexicons. -/
theorem found_self {x : TextExt} {alphabet : Alphabet}
    {as : List (List (List Char × Option Nat × VocabParams))} {w : Weights} {p : Params}
    {l : List Char} {top : Nat} {hits : List Hit} (hw : WeightsOk x.f64 w) (hf : p.freqWeight = 0)
    (hs : p.scoreThreshold ≤ 1) (fa : Fits p.maxAnagramDistance) (fe : Fits p.maxEditDistance)
    (hl0 : l ≠ []) {qs : List Nat} (hqs : Encodes alphabet (alphabet.length + 1) l qs)
    (hnr : ¬ Reserved l) (hword : ∃ a ∈ as.flatten, a.1 = l)
    (hR : Ranked x alphabet as w p l top hits) : FoundItself x p l (foundOf x p top hits) := by
  unfold FoundItself foundOf
  obtain ⟨n, hn⟩ := wordFreq_exists hword
  have hmem : (⟨l, 1, n⟩ : Hit) ∈ hits := (hR.mem _).mpr ⟨hnr, ⟨near_self hw fa fe hl0 hqs, hs⟩, hn⟩
  have hov : ∀ u : Hit, u.overall x.f64 p.freqWeight top = u.score := fun u => by
    rw [Hit.overall, if_pos hf]
  have hle : ∀ u ∈ hits, u.score ≤ 1 := fun u hu => near_le_one hw hl0 ((hR.mem u).mp hu).2.1.1
  have hsort := ranked_scores hR
  simp only [hov] at hsort
  have hov' : Hit.overall x.f64 p.freqWeight top = Hit.score := funext hov
  rw [hov']
  have hfirst : ∃ u us, shown x.f64 p.maxMatches p.cutoffThreshold Hit.score Hit.score hits =
      u :: us ∧ u.score = 1 := by
    cases hits with
    | nil => cases hmem
    | cons u us =>
      have hu : u.score = 1 := by
        refine le_antisymm (hle u List.mem_cons_self) ?_
        rcases List.mem_cons.mp hmem with e | hm
        · rw [← e]
        · exact (List.pairwise_cons.mp hsort).1 _ hm
      have hk : ∃ us', (if p.maxMatches = 0 then u :: us else
          (u :: us).take (keptWith p.maxMatches ((u :: us).map fun a => (a.score, a.score)))) = u :: us' := by
        split
        · exact ⟨us, rfl⟩
        · next hm =>
          have : keptWith p.maxMatches ((u :: us).map fun a => (a.score, a.score)) ≠ 0 := by
            unfold keptWith
            split
            · split
              · exact hm
              · split
                · simp
                · omega
            · simp
          obtain ⟨k, hk⟩ := Nat.exists_eq_succ_of_ne_zero this
          rw [hk, List.take_succ_cons]
          exact ⟨_, rfl⟩
      obtain ⟨us', hk⟩ := hk
      unfold shown closeOnes firstOnes
      simp only [hk]
      split
      · exact ⟨u, us', rfl, hu⟩
      · exact ⟨u, _, rfl, hu⟩
  refine ⟨?_, ?_, ?_⟩
  · obtain ⟨u, us, e1, e2⟩ := hfirst
    rw [e1, List.map_cons, e2]
    exact ⟨_, _, rfl⟩
  · intro v hv
    obtain ⟨u, hu, rfl⟩ := List.mem_map.mp hv
    exact hle u ((shown_sublist _ _ _ _ _ _).subset hu)
  · intro hm hc
    refine List.mem_map.mpr ⟨⟨l, 1, n⟩, ?_, rfl⟩
    obtain ⟨u, us, e1, e2⟩ := hfirst
    unfold shown closeOnes firstOnes at e1 ⊢
    simp only [if_pos hm] at e1 ⊢
    rcases hc with hc | hc
    · rw [if_pos hc]; exact hmem
    · split
      · exact hmem
      · next hc' =>
        rw [if_neg hc'] at e1
        cases hits with
        | nil => cases hmem
        | cons u' us' =>
          simp only [List.cons.injEq] at e1
          obtain ⟨rfl, _⟩ := e1
          simp only [List.mem_cons, List.mem_filter, decide_eq_true_eq]
          rcases List.mem_cons.mp hmem with e | hm
          · exact .inl e
          · refine .inr ⟨hm, ?_⟩
            rw [e2]
            exact hc

/-- **C94**: without frequency ranking, and with a score threshold of at most 1, the first word that a query
prints for a word of the lexicons has score 1; and the word itself is printed, unless results are cut
off. -/
theorem word_found_for_itself {x : ToolExt} {c : CommandLine} {files : List (List Char)}
    {alphabet : Alphabet} {as : List (List (List Char × Option Nat × VocabParams))} {w : Weights}
    {p : Params} {lines : List (List Char)} (h : PlainQuery x c files alphabet as w p lines)
    (hw : WeightsOk x.text.f64 w) (hf : p.freqWeight = 0) (hs : p.scoreThreshold ≤ 1) :
    ∃ rs : List (List Char × List (List Char × Rat)), rs.map Prod.fst = lines ∧
      x.main c files = .ok (.output (rs.flatMap fun r => printed x r.1 r.2) []) ∧
      ∀ r ∈ rs, ¬ Reserved r.1 → (∃ a ∈ as.flatten, a.1 = r.1) →
        (∃ t found, r.2 = (t, 1) :: found) ∧ (∀ u ∈ r.2, u.2 ≤ 1) ∧
        (p.maxMatches = 0 → (p.cutoffThreshold < 1 ∨ x.text.f64.rnd (1 / p.cutoffThreshold) < 1) →
          (r.1, 1) ∈ r.2) := by
  obtain ⟨rs, h1, h2, h3⟩ := plain_query h
  obtain ⟨q, inputs, hn, rfl, _⟩ := h.numbers
  obtain ⟨fa, fe⟩ := fits_of_numbers hn
  refine ⟨rs.map fun r => (r.1, (shown x.text.f64 q.variant.maxMatches q.variant.cutoffThreshold
        (Hit.overall x.text.f64 q.variant.freqWeight r.2.1) Hit.score r.2.2).map
          fun u => (u.word, u.overall x.text.f64 q.variant.freqWeight r.2.1)), ?_, ?_, ?_⟩
  · rw [List.map_map]; exact h1
  · rw [h3, List.flatMap_map]
  · intro r hr hnr hword
    obtain ⟨⟨l, top, hits⟩, hr', rfl⟩ := List.mem_map.mp hr
    have hl : l ∈ lines := h1 ▸ List.mem_map_of_mem (f := Prod.fst) hr'
    obtain ⟨hl0, qs, _, hqs, _⟩ := h.short l hl
    have hR := h2 _ hr'
    simp only at hnr hword hR ⊢
    exact found_self hw hf hs fa fe hl0 hqs hnr hword hR

/-! ### Examples -/

/-- The surroundings of the earlier examples with another lexicon. -/
def exToolW (ls : List (Option (List Char))) : ToolExt :=
  { exToolR with load := { exLoadR with
      file := fun f => if f = ['l'] then some ls else exLoadR.file f } }

/-- `query --alphabet a --lexicon l --max-matches m --cutoff-threshold c --score-threshold s` -/
def exQueryP (m c s : List Char) : CommandLine :=
  { sub := .query, debug := none
    given := [(.alphabet, ['a']), (.lexicon, ['l']), (.maxMatches, m), (.cutoffThreshold, c),
      (.scoreThreshold, s)] }

theorem exPlainW {ls : List (Option (List Char))} {es : List (List Char × Nat)}
    (hes : List.Forall₂ (VocabLine {}) (nonEmpty ls) es)
    (hsp : ∀ e ∈ es, (e.1.countP (· == ' ')) % 256 ≠ 255 ∧ e.1.length < 65536)
    (hsum : (es.map Prod.snd).sum < 2 ^ 32) {c : CommandLine} (hsub : c.sub = .query)
    (hopts : ∀ g ∈ c.given, g.1 ∈ optionsOf c.sub)
    (honce : ∀ g ∈ c.given, ∀ g' ∈ c.given, g.1 = g'.1 → g.2 = g'.2)
    (hplain : ∀ o ∈ [OptName.json, .outputLexmatch, .variants, .errors, .confusables, .stopExact],
      ∀ g ∈ c.given, g.1 ≠ o)
    (hnames : Names c ⟨['a'], [(['l'], 3)], [], [], [], [], []⟩) {w : Weights}
    (hnum : UsableNumbers exToolR c w (exNumbers c))
    (hfw : 0 ≤ (exNumbers c).variant.freqWeight)
    (ha : (exNumbers c).variant.maxAnagramDistance = .absolute 3) :
    PlainQuery (exToolW ls) c [['q'], ['-']] [["a".toList, "A".toList], ["b".toList]]
      [es.map fun e => (e.1, some e.2, {})] w
      (exNumbers c).variant ["ab".toList, "ab b".toList, "bb".toList] := by
  obtain ⟨entries, e1, e2, _⟩ := read_alphabet_entries (isSpace := exToolR.load.isSpace) rfl []
    [some "a\tA".toList, some ['b']]
  have he : entries = [["a".toList, "A".toList], ["b".toList]] := by
    rw [List.nil_append] at e2
    rw [← e2]
    decide
  rw [he] at e1
  have hmem : ∀ a ∈ [es.map fun e => (e.1, some e.2, ({} : VocabParams))].flatten, ∃ e ∈ es, a.1 = e.1 := by
    intro a ha
    rw [List.flatten_singleton] at ha
    obtain ⟨e, he, rfl⟩ := List.mem_map.mp ha
    exact ⟨e, he, rfl⟩
  have hc := accepted_of hopts honce
  refine ⟨ex_noSemicolon, ex_pos, ex_marks, rfl, hc, hsub, fun o ho => not_given (hplain o ho), ?_,
    ⟨['a'], _, hnames.alphabet, rfl, e1⟩,
    ⟨exNumbers c, [[some "ab".toList], exToolR.stdin], ⟨hnum.weights, hnum.nonzero, hnum.params, hnum.cutoff,
      hnum.debug⟩, rfl, inputsOf_iff.mp rfl, ?_, by decide⟩, hfw, ?_⟩
  · refine ⟨⟨⟨['a'], [(['l'], 3)], [], [], [], [], []⟩, hnames, ?_⟩, ?_⟩
    · refine ⟨⟨[some "a\tA".toList, some ['b']], rfl, by decide⟩, .cons (Adds.lexicon rfl hes) .nil,
        by decide, ?_, ?_, fun f hf => (by cases hf), fun f hf => (by cases hf)⟩
      · intro a ha
        obtain ⟨e, he, h⟩ := hmem a ha
        rw [h]
        exact (hsp e he).1
      · rw [List.flatten_singleton, List.map_map]
        exact hsum
    · intro a ha
      obtain ⟨e, he, h⟩ := hmem a ha
      rw [h]
      exact (hsp e he).2
  · intro _ lines hl
    simp only [List.mem_cons, List.not_mem_nil, or_false] at hl
    rcases hl with rfl | rfl <;> decide
  · intro l hl
    obtain ⟨qs, hqs⟩ := encodes_exists (alphabet := [["a".toList, "A".toList], ["b".toList]])
      (by unfold NoEmpty; decide) 3 l
    have hlen := encodes_length hqs
    have hlen' : ∀ l ∈ ["ab".toList, "ab b".toList, "bb".toList], l ≠ [] ∧ l.length ≤ 4 := by decide
    refine ⟨(hlen' l hl).1, qs, _, hqs, (allowed_iff ?_).mpr rfl, ?_⟩
    · rw [ha]
      show 3 ≤ 255
      decide
    · have : effectiveDistance exText.f32 qs.length (.absolute 3) ≤ 3 :=
        (effective_absolute exText.f32 qs.length 3 (by decide)).1.1
      have h4 := (hlen' l hl).2
      rw [ha]
      show qs.length + effectiveDistance exText.f32 qs.length (.absolute 3) ≤ 255
      omega

theorem exPlain {ls : List (Option (List Char))} {es : List (List Char × Nat)}
    (hes : List.Forall₂ (VocabLine {}) (nonEmpty ls) es)
    (hsp : ∀ e ∈ es, (e.1.countP (· == ' ')) % 256 ≠ 255 ∧ e.1.length < 65536)
    (hsum : (es.map Prod.snd).sum < 2 ^ 32) {c : CommandLine} (hsub : c.sub = .query)
    (hopts : ∀ g ∈ c.given, g.1 ∈ optionsOf c.sub)
    (honce : ∀ g ∈ c.given, ∀ g' ∈ c.given, g.1 = g'.1 → g.2 = g'.2)
    (hplain : ∀ o ∈ [OptName.json, .outputLexmatch, .variants, .errors, .confusables, .stopExact],
      ∀ g ∈ c.given, g.1 ≠ o)
    (hnames : Names c ⟨['a'], [(['l'], 3)], [], [], [], [], []⟩) (hd : c.debug = none)
    (hw : c.weights exParse = .ok [.fin (1 / 2), .fin (1 / 8), .fin (1 / 8), .fin (1 / 8), .fin (1 / 8)])
    {q : SearchParameters} (hq : c.searchParameters exParse exParse = .ok q)
    (hn : q.finite = some (exNumbers c))
    (hcut : (exNumbers c).variant.cutoffThreshold = 0 ∨ 1 ≤ (exNumbers c).variant.cutoffThreshold)
    (hfw : 0 ≤ (exNumbers c).variant.freqWeight)
    (ha : (exNumbers c).variant.maxAnagramDistance = .absolute 3) :
    PlainQuery (exToolW ls) c [['q'], ['-']] [["a".toList, "A".toList], ["b".toList]]
      [es.map fun e => (e.1, some e.2, {})] ⟨1 / 2, 1 / 8, 1 / 8, 1 / 8, 1 / 8⟩
      (exNumbers c).variant ["ab".toList, "ab b".toList, "bb".toList] :=
  exPlainW hes hsp hsum hsub hopts honce hplain hnames
    (exUsableNumbers (accepted_of hopts honce) hd hw hq hn hcut) hfw ha

theorem exVocab {l t f : List Char} {n : Nat} (h1 : splitChar '\t' l = [t, f])
    (h2 : parseUnsigned (2 ^ 32 - 1) f = some n) : VocabLine {} l (t, n) :=
  ⟨[t, f], (fieldsOf_iff _ _).mpr h1, rfl,
    .inr ⟨1, rfl, .inr ⟨f, rfl, (parseUnsigned_iff _ _ _).mp h2⟩⟩⟩

/-- `--max-matches 0 --cutoff-threshold 0.0 --score-threshold 0.5` -/
abbrev exQuery1 : CommandLine := exQueryP ['0'] "0.0".toList "0.5".toList

/-- `--max-matches 0 --cutoff-threshold 0.0 --score-threshold 0.0` -/
abbrev exQuery2 : CommandLine := exQueryP ['0'] "0.0".toList "0.0".toList

/-- `--max-matches 1 --cutoff-threshold 0.0 --score-threshold 0.5` -/
abbrev exQuery3 : CommandLine := exQueryP ['1'] "0.0".toList "0.5".toList

/-- The words `ab` and `b`. -/
abbrev exLex1 : List (Option (List Char)) := [some "ab\t1".toList, some "b\t1".toList]

/-- The same words in the other order. -/
abbrev exLex2 : List (Option (List Char)) := [some "b\t1".toList, none, some "ab\t1".toList]

/-- Only `b`. -/
abbrev exLex3 : List (Option (List Char)) := [some "b\t1".toList]

theorem exVocab1 : List.Forall₂ (VocabLine {}) (nonEmpty exLex1) [("ab".toList, 1), ("b".toList, 1)] :=
  .cons (exVocab (f := ['1']) (by decide) (by decide)) (.cons (exVocab (f := ['1']) (by decide) (by decide)) .nil)

theorem exVocab2 : List.Forall₂ (VocabLine {}) (nonEmpty exLex2) [("b".toList, 1), ("ab".toList, 1)] :=
  .cons (exVocab (f := ['1']) (by decide) (by decide)) (.cons (exVocab (f := ['1']) (by decide) (by decide)) .nil)

theorem exVocab3 : List.Forall₂ (VocabLine {}) (nonEmpty exLex3) [("b".toList, 1)] :=
  .cons (exVocab (f := ['1']) (by decide) (by decide)) .nil

theorem exPlain1 {ls : List (Option (List Char))} {es : List (List Char × Nat)}
    (hes : List.Forall₂ (VocabLine {}) (nonEmpty ls) es)
    (hsp : ∀ e ∈ es, (e.1.countP (· == ' ')) % 256 ≠ 255 ∧ e.1.length < 65536)
    (hsum : (es.map Prod.snd).sum < 2 ^ 32) :
    PlainQuery (exToolW ls) exQuery1 [['q'], ['-']] [["a".toList, "A".toList], ["b".toList]]
      [es.map fun e => (e.1, some e.2, {})] ⟨1 / 2, 1 / 8, 1 / 8, 1 / 8, 1 / 8⟩
      (exNumbers exQuery1).variant ["ab".toList, "ab b".toList, "bb".toList] :=
  exPlain hes hsp hsum rfl (by decide) (by decide) (by decide) (by constructor <;> decide) rfl
    (by decide +kernel) rfl (exSome exTextParams (by decide +kernel)) (.inl (by decide +kernel))
    (by decide +kernel) rfl

theorem exPlain2 {ls : List (Option (List Char))} {es : List (List Char × Nat)}
    (hes : List.Forall₂ (VocabLine {}) (nonEmpty ls) es)
    (hsp : ∀ e ∈ es, (e.1.countP (· == ' ')) % 256 ≠ 255 ∧ e.1.length < 65536)
    (hsum : (es.map Prod.snd).sum < 2 ^ 32) :
    PlainQuery (exToolW ls) exQuery2 [['q'], ['-']] [["a".toList, "A".toList], ["b".toList]]
      [es.map fun e => (e.1, some e.2, {})] ⟨1 / 2, 1 / 8, 1 / 8, 1 / 8, 1 / 8⟩
      (exNumbers exQuery2).variant ["ab".toList, "ab b".toList, "bb".toList] :=
  exPlain hes hsp hsum rfl (by decide) (by decide) (by decide) (by constructor <;> decide) rfl
    (by decide +kernel) rfl (exSome exTextParams (by decide +kernel)) (.inl (by decide +kernel))
    (by decide +kernel) rfl

theorem exPlain3 {ls : List (Option (List Char))} {es : List (List Char × Nat)}
    (hes : List.Forall₂ (VocabLine {}) (nonEmpty ls) es)
    (hsp : ∀ e ∈ es, (e.1.countP (· == ' ')) % 256 ≠ 255 ∧ e.1.length < 65536)
    (hsum : (es.map Prod.snd).sum < 2 ^ 32) :
    PlainQuery (exToolW ls) exQuery3 [['q'], ['-']] [["a".toList, "A".toList], ["b".toList]]
      [es.map fun e => (e.1, some e.2, {})] ⟨1 / 2, 1 / 8, 1 / 8, 1 / 8, 1 / 8⟩
      (exNumbers exQuery3).variant ["ab".toList, "ab b".toList, "bb".toList] :=
  exPlain hes hsp hsum rfl (by decide) (by decide) (by decide) (by constructor <;> decide) rfl
    (by decide +kernel) rfl (exSome exTextParams (by decide +kernel)) (.inl (by decide +kernel))
    (by decide +kernel) rfl

/-- The words in another order. -/
example : ∃ rs : List (List Char × List (List Char × Rat) × List (List Char × Rat)),
    rs.map Prod.fst = ["ab".toList, "ab b".toList, "bb".toList] ∧
    (exToolW exLex1).main exQuery1 [['q'], ['-']] =
      .ok (.output (rs.flatMap fun r => printed (exToolW exLex1) r.1 r.2.1) []) ∧
    (exToolW exLex2).main exQuery1 [['q'], ['-']] =
      .ok (.output (rs.flatMap fun r => printed (exToolW exLex2) r.1 r.2.2) []) ∧
    ∀ r ∈ rs, r.2.1.Perm r.2.2 := by
  obtain ⟨rs, h1, h2, h3, h4⟩ := word_order_irrelevant (exPlain1 exVocab1 (by decide) (by decide))
    (exPlain1 exVocab2 (by decide) (by decide)) rfl (by
      intro t n
      unfold WordFreq
      have e : ∀ k, (∃ a ∈ [[("ab".toList, 1), ("b".toList, 1)].map fun e : List Char × Nat =>
            (e.1, some e.2, ({} : VocabParams))].flatten, a.1 = t ∧ a.2.1.getD 1 = k) ↔
          ∃ a ∈ [[("b".toList, 1), ("ab".toList, 1)].map fun e : List Char × Nat =>
            (e.1, some e.2, ({} : VocabParams))].flatten, a.1 = t ∧ a.2.1.getD 1 = k := by
        intro k
        simp only [List.flatten_singleton, List.map_cons, List.map_nil, List.mem_cons, List.not_mem_nil,
          or_false, exists_eq_or_imp, exists_eq_left]
        exact or_comm
      simp only [e]) (.inl (by decide +kernel))
  exact ⟨rs, h1, h2, h3, fun r hr => (h4 r hr).2.2.2 (by decide +kernel) (by decide +kernel)⟩

example : (exToolW exLex1).main exQuery2 [['q'], ['-']] = (exToolW exLex2).main exQuery2 [['q'], ['-']] ∧
    (exToolW exLex2).main exQuery2 [['q'], ['-']] =
      .ok (.output "ab\tab\t1\t\tb\t0.5\t\nab b\tab\t0.5\t\nbb\tb\t0.5\t\n".toList []) := by
  decide +kernel

/-- `--max-matches 1 --cutoff-threshold 0.0 --score-threshold 0.0 --freq-ranking 1.0` -/
abbrev exQuery4 : CommandLine :=
  { exQueryP ['1'] "0.0".toList "0.0".toList with
    given := (exQueryP ['1'] "0.0".toList "0.0".toList).given ++ [(.freqRanking, "1.0".toList)] }

abbrev exLex4 : List (Option (List Char)) := [some "ab\t7".toList, some "ba\t16".toList, some "a\t1".toList]

abbrev exLex5 : List (Option (List Char)) := [some "ba\t16".toList, some "ab\t7".toList, some "a\t1".toList]

theorem exPlain4 {ls : List (Option (List Char))} {es : List (List Char × Nat)}
    (hes : List.Forall₂ (VocabLine {}) (nonEmpty ls) es)
    (hsp : ∀ e ∈ es, (e.1.countP (· == ' ')) % 256 ≠ 255 ∧ e.1.length < 65536)
    (hsum : (es.map Prod.snd).sum < 2 ^ 32) :
    PlainQuery (exToolW ls) exQuery4 [['q'], ['-']] [["a".toList, "A".toList], ["b".toList]]
      [es.map fun e => (e.1, some e.2, {})] ⟨1 / 2, 1 / 8, 1 / 8, 1 / 8, 1 / 8⟩
      (exNumbers exQuery4).variant ["ab".toList, "ab b".toList, "bb".toList] :=
  exPlain hes hsp hsum rfl (by decide) (by decide) (by decide) (by constructor <;> decide) rfl
    (by decide +kernel) rfl (exSome exTextParams (by decide +kernel)) (.inl (by decide +kernel))
    (by decide +kernel) rfl

/-- With frequency ranking and a limit on the number of results the order of the words does matter: of three
words, of which two tie for `ab`, two are printed or all three. -/
theorem word_order_may_matter : ∃ x x' c files alphabet as as' w p lines,
    PlainQuery x c files alphabet as w p lines ∧ PlainQuery x' c files alphabet as' w p lines ∧
    x'.text = x.text ∧ (∀ t n, WordFreq as t n ↔ WordFreq as' t n) ∧ p.freqWeight = 1 ∧ p.maxMatches = 1 ∧
    x.main c files = .ok (.output "ab\tab\t0.5\t\tba\t0.5\t\nab b\tab\t0.5\t\nbb\n".toList []) ∧
    x'.main c files =
      .ok (.output "ab\tba\t0.5\t\tab\t0.5\t\ta\t0.5\t\nab b\tab\t0.5\t\nbb\n".toList []) := by
  have v1 : List.Forall₂ (VocabLine {}) (nonEmpty exLex4) [("ab".toList, 7), ("ba".toList, 16), ("a".toList, 1)] :=
    .cons (exVocab (f := ['7']) (by decide) (by decide)) (.cons (exVocab (f := "16".toList) (by decide)
      (by decide)) (.cons (exVocab (f := ['1']) (by decide) (by decide)) .nil))
  have v2 : List.Forall₂ (VocabLine {}) (nonEmpty exLex5) [("ba".toList, 16), ("ab".toList, 7), ("a".toList, 1)] :=
    .cons (exVocab (f := "16".toList) (by decide) (by decide)) (.cons (exVocab (f := ['7']) (by decide)
      (by decide)) (.cons (exVocab (f := ['1']) (by decide) (by decide)) .nil))
  refine ⟨exToolW exLex4, exToolW exLex5, exQuery4, [['q'], ['-']], _, _, _, _, _, _,
    exPlain4 v1 (by decide) (by decide), exPlain4 v2 (by decide) (by decide), rfl, ?_,
    by decide +kernel, by decide +kernel, by decide +kernel, by decide +kernel⟩
  intro t n
  unfold WordFreq
  have e : ∀ k, (∃ a ∈ [[("ab".toList, 7), ("ba".toList, 16), ("a".toList, 1)].map fun e : List Char × Nat =>
        (e.1, some e.2, ({} : VocabParams))].flatten, a.1 = t ∧ a.2.1.getD 1 = k) ↔
      ∃ a ∈ [[("ba".toList, 16), ("ab".toList, 7), ("a".toList, 1)].map fun e : List Char × Nat =>
        (e.1, some e.2, ({} : VocabParams))].flatten, a.1 = t ∧ a.2.1.getD 1 = k := by
    intro k
    simp only [List.flatten_singleton, List.map_cons, List.map_nil, List.mem_cons, List.not_mem_nil,
      or_false, exists_eq_or_imp, exists_eq_left]
    exact or_left_comm
  simp only [e]

theorem exWords13 : ∀ t, (∃ a ∈ [[("b".toList, 1)].map fun e : List Char × Nat =>
      (e.1, some e.2, ({} : VocabParams))].flatten, a.1 = t) →
    ∃ a ∈ [[("ab".toList, 1), ("b".toList, 1)].map fun e : List Char × Nat =>
      (e.1, some e.2, ({} : VocabParams))].flatten, a.1 = t := by
  rintro t ⟨a, ha, e⟩
  exact ⟨a, List.mem_cons_of_mem _ ha, e⟩

/-- One word more, and a lower score threshold. -/
example : ∃ rs : List (List Char × List (List Char × Rat) × List (List Char × Rat)),
    rs.map Prod.fst = ["ab".toList, "ab b".toList, "bb".toList] ∧
    (exToolW exLex3).main exQuery1 [['q'], ['-']] =
      .ok (.output (rs.flatMap fun r => printed (exToolW exLex3) r.1 r.2.1) []) ∧
    (exToolW exLex1).main exQuery2 [['q'], ['-']] =
      .ok (.output (rs.flatMap fun r => printed (exToolW exLex1) r.1 r.2.2) []) ∧
    ∀ r ∈ rs, ∀ u ∈ r.2.1, u ∈ r.2.2 :=
  more_is_found (exPlain1 exVocab3 (by decide) (by decide)) (exPlain2 exVocab1 (by decide) (by decide)) rfl
    exWords13 (.absolute (le_refl 3)) (.absolute (le_refl 2)) (by decide +kernel) (by decide +kernel)
    (by decide +kernel) (by decide +kernel) (by decide +kernel)

/-- With a limit on the number of results a query with more words may find less: here `b` is no longer found
for `ab`. -/
theorem more_words_may_hide : ∃ x x' c files alphabet as as' w p lines,
    PlainQuery x c files alphabet as w p lines ∧ PlainQuery x' c files alphabet as' w p lines ∧
    x'.text = x.text ∧ (∀ t, (∃ a ∈ as.flatten, a.1 = t) → ∃ a ∈ as'.flatten, a.1 = t) ∧
    p.freqWeight = 0 ∧ p.cutoffThreshold < 1 ∧ p.maxMatches = 1 ∧
    x.main c files = .ok (.output "ab\tb\t0.5\t\nab b\nbb\tb\t0.5\t\n".toList []) ∧
    x'.main c files = .ok (.output "ab\tab\t1\t\nab b\tab\t0.5\t\nbb\tb\t0.5\t\n".toList []) :=
  ⟨exToolW exLex3, exToolW exLex1, exQuery3, [['q'], ['-']], _, _, _, _, _, _,
    exPlain3 exVocab3 (by decide) (by decide), exPlain3 exVocab1 (by decide) (by decide), rfl, exWords13,
    by decide +kernel, by decide +kernel, by decide +kernel, by decide +kernel, by decide +kernel⟩

/-- The words `ab` and `b`, of which `ab` is asked for. -/
example : ∃ rs : List (List Char × List (List Char × Rat)),
    rs.map Prod.fst = ["ab".toList, "ab b".toList, "bb".toList] ∧
    (exToolW exLex1).main exQuery1 [['q'], ['-']] =
      .ok (.output (rs.flatMap fun r => printed (exToolW exLex1) r.1 r.2) []) ∧
    ∀ r ∈ rs, r.1 = "ab".toList → ("ab".toList, 1) ∈ r.2 := by
  obtain ⟨rs, h1, h2, h3⟩ := word_found_for_itself (exPlain1 exVocab1 (by decide) (by decide))
    (by constructor <;> decide +kernel) (by decide +kernel) (by decide +kernel)
  refine ⟨rs, h1, h2, fun r hr e => ?_⟩
  obtain ⟨_, _, h⟩ := h3 r hr (by rw [e]; unfold Reserved; decide) ⟨("ab".toList, some 1, {}), by decide, e.symm⟩
  rw [← e]
  exact h (by decide +kernel) (.inl (by decide +kernel))

end Verif.Props
