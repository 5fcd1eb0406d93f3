import Verif.Spec.Corrected
import Verif.Props.DividedAll
import Verif.Props.SimilarSearch
import Verif.Props.Searched

/-!
# What the lists give as errors is corrected (C137)
-/
namespace Verif.Props

open Verif.Spec Verif.Model Verif.Lemmas

theorem destutter'_keeps {α β : Type} {key : α → β} [DecidableEq β] {score : α → Rat} :
    ∀ (l : List α) (a : α), (a :: l).Pairwise (fun u v => score v ≤ score u) →
    ∀ u ∈ a :: l, ∃ v ∈ List.destutter' (fun u v => key u ≠ key v) a l, key v = key u ∧ score u ≤ score v := by
  intro l
  induction l with
  | nil =>
    intro a _ u hu
    cases List.mem_singleton.mp hu
    exact ⟨a, by simp, rfl, le_refl _⟩
  | cons b l ih =>
    intro a hp u hu
    have hpb := (List.pairwise_cons.mp hp).2
    rw [List.destutter'_cons]
    split
    · rcases List.mem_cons.mp hu with rfl | hu
      · exact ⟨u, List.mem_cons_self, rfl, le_refl _⟩
      · obtain ⟨v, h1, h2⟩ := ih b hpb u hu
        exact ⟨v, List.mem_cons_of_mem _ h1, h2⟩
    · next hab =>
      rw [ne_eq, not_not] at hab
      have hpa : (a :: l).Pairwise (fun u v => score v ≤ score u) :=
        List.pairwise_cons.mpr ⟨fun z hz => (List.pairwise_cons.mp hp).1 z (List.mem_cons_of_mem _ hz),
          (List.pairwise_cons.mp hpb).2⟩
      rcases List.mem_cons.mp hu with rfl | hu
      · exact ih u hpa u List.mem_cons_self
      · rcases List.mem_cons.mp hu with rfl | hu
        · obtain ⟨v, h1, h2, h3⟩ := ih a hpa a List.mem_cons_self
          exact ⟨v, h1, h2.trans hab, le_trans ((List.pairwise_cons.mp hp).1 u List.mem_cons_self) h3⟩
        · exact ih a hpa u (List.mem_cons_of_mem _ hu)

theorem destutter_keeps {α β : Type} {key : α → β} [DecidableEq β] {score : α → Rat} {l : List α}
    (h : l.Pairwise fun u v => score v ≤ score u) {u : α} (hu : u ∈ l) :
    ∃ v ∈ l.destutter (fun u v => key u ≠ key v), key v = key u ∧ score u ≤ score v := by
  cases l with
  | nil => cases hu
  | cons a l => exact destutter'_keeps l a h u hu

/-- **C137**, for the library: a word that is looked up, for itself, with the words it is a variant of. -/
theorem suggested_links {x : TextExt} {alphabet : Alphabet} {L : Lexis} {cfg : Config} {p : Params}
    {text : List Char} {res : List Suggestion} (hS : Suggestions x alphabet L cfg p text res)
    (hw : WeightsOk x.f64 cfg.weights) (hc : cfg.confusables = []) (hf : p.freqWeight = 0)
    (hs : p.scoreThreshold ≤ 1) (hm : p.maxMatches = 0) (hcut : p.cutoffThreshold < 1)
    (fa : Fits p.maxAnagramDistance) (fe : Fits p.maxEditDistance) (h0 : text ≠ [])
    {qs : List Nat} (hqs : Encodes alphabet (alphabet.length + 1) text qs)
    (hi : L.indexed text) (hl : L.linked text) :
    (∀ k ∈ L.links text, ∃ u ∈ res, u.word = k.1 ∧ x.f64.rnd k.2 ≤ u.score) ∧
    (L.transparent text = true → (∀ t, ∀ k ∈ L.links t, k.1 ≠ text) → ∀ u ∈ res, u.word ≠ text) := by
  obtain ⟨factor, top, base, weighted, all, ranked, kept, final, h⟩ := hS
  have hnear := near_self (p := p) hw fa fe h0 hqs
  have hreach : Reached x alphabet L cfg.weights p text text 1 := by
    refine ⟨hi, hnear, fun _ _ => ?_⟩
    obtain ⟨a, _, _, _, _, _, _, h1, _⟩ := hnear
    exact ⟨a, a, h1, h1, List.Perm.refl _⟩
  have hbase : (⟨text, 1, L.count x.f64 text, none⟩ : Suggestion) ∈ base :=
    (h.scored.mem _).mpr ⟨hreach, hs, rfl, rfl⟩
  have e1 : weighted = base := h.notEarly fun hh => hh.1 hc
  have e2 := h.linked ⟨text, 1, hreach, hl⟩
  have e3 : final = kept := h.notLate fun hh => hh.1 hc
  have e4 : res = ranked.destutter fun u v => u.word ≠ v.word := by
    rw [h.result, e3, h.first]
    unfold closeOnes firstOnes
    rw [if_pos hcut, if_pos hm]
  have hsort : ranked.Pairwise fun u v => v.score ≤ u.score := h.order.imp fun {u v} huv => by
    rw [Suggestion.NotWorse, if_pos hf] at huv
    rcases huv with h1 | ⟨h1, _⟩
    · exact h1.le
    · exact h1.le
  constructor
  · intro k hk
    have hall : (⟨k.1, x.f64.rnd (1 * k.2), min (x.f64.rnd (L.freq k.1)) (L.count x.f64 text), some text⟩ : Suggestion) ∈
        all := by
      rw [e2, e1]
      refine List.mem_flatMap.mpr ⟨_, hbase, List.mem_append_left _ ?_⟩
      exact List.mem_map.mpr ⟨k, hk, rfl⟩
    have hr := h.perm.symm.subset (List.mem_map.mpr ⟨_, hall, rfl⟩)
    obtain ⟨v, h1, h2, h3⟩ := destutter_keeps (key := Suggestion.word) hsort hr
    refine ⟨v, by rw [e4]; exact h1, h2, ?_⟩
    simpa using h3
  · intro ht hno u hu e
    rw [e4] at hu
    have hu := h.perm.subset ((List.destutter_sublist _ _).subset hu)
    obtain ⟨u', hu', rfl⟩ := List.mem_map.mp hu
    rw [e2] at hu'
    obtain ⟨b, _, hb⟩ := List.mem_flatMap.mp hu'
    rcases List.mem_append.mp hb with hb | hb
    · obtain ⟨k, hk, rfl⟩ := List.mem_map.mp hb
      exact hno _ k hk e
    · split at hb
      · cases hb
      · next htr =>
        cases List.mem_singleton.mp hb
        exact htr (by rw [show u'.word = text from e]; exact ht)

/-- Variants are words of the lists. -/
theorem gives_variant {x : LoadExt} {ss : List Source} : ∀ {i : Nat}
    {as : List (List (List Char × Option Nat × VocabParams))}
    {kss : List (List (List Char × List Char × Rat))}, AddsAll x i ss as → List.Forall₂ (Gives x) ss kss →
    ∀ k ∈ kss.flatten, ∃ a ∈ as.flatten, a.1 = k.2.1 := by
  induction ss with
  | nil => intro i as kss _ h k hk; cases h; cases hk
  | cons s ss ih =>
    intro i as kss ha h k hk
    cases ha with
    | @cons _ _ _ a as' a1 a2 =>
    cases h with
    | @cons _ ks _ kss' k1 k2 =>
      rw [List.flatten_cons] at hk ⊢
      rcases List.mem_append.mp hk with hk | hk
      · obtain ⟨b, hb, e⟩ : ∃ b ∈ a, b.1 = k.2.1 := by
          have key : ∀ (es es' : List VariantEntry) (q : VocabParams), es' = es →
              k ∈ (es.flatMap fun e => e.variants.map fun v => (e.reference, v.1, v.2.1)) →
              ∃ b ∈ (es'.flatMap fun e => (e.reference, e.freq, { index := i % 256 }) ::
                e.variants.map fun v => (v.1, v.2.2, q)), b.1 = k.2.1 := by
            rintro es _ q rfl hk
            obtain ⟨e, he, hk⟩ := List.mem_flatMap.mp hk
            obtain ⟨v, hv, rfl⟩ := List.mem_map.mp hk
            exact ⟨_, List.mem_flatMap.mpr ⟨e, he, List.mem_cons_of_mem _ (List.mem_map.mpr ⟨v, hv, rfl⟩)⟩, rfl⟩
          cases k1 with
          | lexicon => cases hk
          | lm => cases hk
          | variants f1 f2 =>
            cases a1 with
            | variants g1 g2 =>
              rw [f1] at g1
              cases g1
              exact key _ _ _ (variantLines_unique g2 f2) hk
          | errors f1 f2 =>
            cases a1 with
            | errors g1 g2 =>
              rw [f1] at g1
              cases g1
              exact key _ _ _ (variantLines_unique g2 f2) hk
        exact ⟨b, List.mem_append_left _ hb, e⟩
      · obtain ⟨b, hb, e⟩ := ih a2 k2 k hk
        exact ⟨b, List.mem_append_right _ hb, e⟩

/-- **C137**, for the lists of the resources. -/
theorem lists_correct {x : ToolExt} {c : CommandLine} (hlm : ¬ Given c .lm)
    {as : List (List (List Char × Option Nat × VocabParams))} {w : Weights} {p : TextParams}
    (hfiles : UsableFiles x c as) (hnum : UsableNumbers x c w p) (hw : WeightsOk x.text.f64 w)
    (hfw : p.variant.freqWeight = 0) (hs : p.variant.scoreThreshold ≤ 1) (hm : p.variant.maxMatches = 0)
    (hcut : p.variant.cutoffThreshold < 1) {alphabet : Alphabet} {kss : List (List (List Char × List Char × Rat))}
    (hk : List.Forall₂ (Gives x.load) (sourcesGiven c) kss) {early : Bool} {l : List Char} {us : List Suggestion}
    (hS : Suggestions x.text alphabet (lexisFrom (sourcesGiven c) as kss) ⟨w, [], early, x.editScript⟩ p.variant l us)
    (hl0 : l ≠ []) (hl : ShortEnough x.text alphabet p.variant l) (hnr : ¬ Reserved l) :
    Corrected x.text.f64 kss.flatten l (us.map fun u => (u.word, u.score)) ∧
      (OnlyError as kss.flatten l → ∀ u ∈ us.map (fun u => (u.word, u.score)), u.1 ≠ l) := by
  obtain ⟨qs, _, hqs, _⟩ := hl
  have hss : sourcesGiven c = (c.given.filterMap resourceOf).map sourceOf := by
    have : (c.given.filterMap fun g => if g.1 = .lm then some g.2 else none) = [] := by
      rw [List.filterMap_eq_nil_iff]
      intro g hg
      rw [if_neg]
      intro e
      exact hlm ⟨g.2, e ▸ hg⟩
    unfold sourcesGiven
    rw [this, List.map_nil, List.append_nil]
  have hadds : AddsAll x.load 0 (sourcesGiven c) as := by
    obtain ⟨args, hnamed, hload⟩ := hfiles.1
    have := hload.words
    unfold sourcesOf at this
    rw [hnamed.resources, hnamed.lm] at this
    exact this
  have hindexed := addsAll_indexed (hss ▸ hadds)
  obtain ⟨fa, fe⟩ := fits_of_numbers hnum
  have key : ∀ k ∈ kss.flatten, k.2.1 = l → k.1 ≠ l →
      (lexisFrom (sourcesGiven c) as kss).indexed l ∧ (lexisFrom (sourcesGiven c) as kss).linked l ∧
      (k.1, k.2.2) ∈ (lexisFrom (sourcesGiven c) as kss).links l := by
    intro k hkm hkl hne
    have hp : k ∈ proper kss.flatten := List.mem_filter.mpr ⟨hkm, by simpa [hkl] using hne⟩
    refine ⟨⟨hnr, ?_⟩, ⟨k, hp, .inr hkl⟩, ?_⟩
    · obtain ⟨a, ham, ea⟩ := gives_variant hadds hk k hkm
      cases hfd : as.flatten.find? (fun a => a.1 = l) with
      | none =>
        have := List.find?_eq_none.mp hfd a ham
        simp [ea, hkl] at this
      | some b => exact ⟨b, rfl, hindexed b (List.mem_of_find?_eq_some hfd)⟩
    · exact List.mem_map.mpr ⟨k, List.mem_filter.mpr ⟨hp, by simpa using hkl⟩, rfl⟩
  have lib := fun hi hln => suggested_links hS hw rfl hfw hs hm hcut fa fe hl0 hqs hi hln
  constructor
  · intro k hkm hkl hne
    obtain ⟨k1, k2, k3⟩ := key k hkm hkl hne
    obtain ⟨u, hu, g1, g2⟩ := (lib k1 k2).1 _ k3
    exact ⟨_, List.mem_map.mpr ⟨u, hu, rfl⟩, g1, g2⟩
  · intro ho u hu
    obtain ⟨k, hkm, hkl, hne⟩ := ho.error
    obtain ⟨k1, k2, _⟩ := key k hkm hkl hne
    obtain ⟨u', hu', rfl⟩ := List.mem_map.mp hu
    refine (lib k1 k2).2 ?_ ?_ u' hu'
    · show (as.flatten.all fun a => a.1 ≠ l || a.2.2.vocabType.transparent) = true
      rw [List.all_eq_true]
      intro a ham
      by_cases e : a.1 = l
      · simp [ho.only a ham e]
      · simp [e]
    · intro t z hz e
      obtain ⟨k', hk', rfl⟩ := List.mem_map.mp hz
      exact ho.noReference k' (List.mem_of_mem_filter (List.mem_of_mem_filter hk')) e

/-- **C137**: with lexicons, variant lists and error lists, without frequency ranking and limits, a query prints for
each line that a list gives as a variant or error of another word that word, with at least the score given in the list;
and it does not print the line itself as a suggestion, if it is only given as an error. -/
theorem errors_corrected {x : ToolExt} (hf : ∀ s, ';' ∈ s → x.parseF32 s = none)
    (hpos : StrictMono x.pos) (hmarks : MarksOk x.load.isSpace) (hb : x.load.isSpace '\\' = false)
    {c : CommandLine} (hc : Accepted c) (hsub : c.sub = .query)
    (hplain : ∀ o ∈ [OptName.json, .outputLexmatch, .lm, .confusables], ¬ Given c o)
    {as : List (List (List Char × Option Nat × VocabParams))} {w : Weights} {p : TextParams}
    (hfiles : UsableFiles x c as) (hnum : UsableNumbers x c w p) (hw : WeightsOk x.text.f64 w)
    (hfw : p.variant.freqWeight = 0) (hs : p.variant.scoreThreshold ≤ 1) (hm : p.variant.maxMatches = 0)
    (hcut : p.variant.cutoffThreshold < 1)
    {afile : List Char} {alines : List (Option (List Char))} {alphabet : Alphabet}
    (ha : (.alphabet, afile) ∈ c.given) (hal : x.load.file afile = some alines)
    (hae : List.Forall₂ (AlphabetLine x.load.isSpace) (nonEmpty alines) alphabet)
    {kss : List (List (List Char × List Char × Rat))}
    (hk : List.Forall₂ (Gives x.load) (sourcesGiven c) kss) (hrefs : ∀ k ∈ kss.flatten, ¬ Reserved k.1)
    {files : List (List Char)}
    {inputs : List (List (Option (List Char)))} (hin : InputsOf x files inputs)
    (hread : p.singleThread = false → ∀ lines ∈ inputs, none ∉ lines)
    (hlines : ∀ l ∈ inputs.flatMap readable, l ≠ [] ∧ ShortEnough x.text alphabet p.variant l) :
    ∃ rs : List (List Char × List (List Char × Rat)), rs.map Prod.fst = inputs.flatMap readable ∧
      x.main c files = .ok (.output (rs.flatMap fun r => printed x r.1 r.2) []) ∧
      ∀ r ∈ rs, ¬ Reserved r.1 → Corrected x.text.f64 kss.flatten r.1 r.2 ∧
        (OnlyError as kss.flatten r.1 → ∀ u ∈ r.2, u.1 ≠ r.1) := by
  have hn0 : ∀ {o}, ¬ Given c o →
      (c.given.filterMap fun g => if g.1 = o then some g.2 else none) = [] := by
    intro o ho
    rw [List.filterMap_eq_nil_iff]
    intro g hg
    rw [if_neg]
    intro e
    exact ho ⟨g.2, e ▸ hg⟩
  have hcs : ConfusablesGiven x c [] := ⟨[], by rw [hn0 (hplain .confusables (by simp))]; exact .nil, rfl⟩
  obtain ⟨early, hearly⟩ : ∃ early : Bool, early = true ↔ Given c .earlyConfusables := by
    classical exact ⟨decide _, decide_eq_true_iff⟩
  obtain ⟨rows, h1, h2⟩ := query_prints_suggestions hf hpos hmarks hb hc hsub (hplain _ (by simp)) hfiles hnum
    (by rw [hfw]) ha hal hae hk hrefs hcs hearly hin hread hlines
  obtain ⟨rs, e1, e2, rfl⟩ := forall₂_pull (proj := Prod.fst)
    (P := fun r : List Char × List (List Char × Rat) => ¬ Reserved r.1 → Corrected x.text.f64 kss.flatten r.1 r.2 ∧
        (OnlyError as kss.flatten r.1 → ∀ u ∈ r.2, u.1 ≠ r.1))
    (G := fun r => printed x r.1 r.2) ((forall₂_mem_left h1).imp fun l row hr => by
      obtain ⟨⟨us, cols, hS, hcols, rfl⟩, hl⟩ := hr
      obtain ⟨hl0, hshort⟩ := hlines l hl
      refine ⟨(l, us.map fun u => (u.word, u.score)), rfl, ?_, ?_⟩
      · intro hnr
        exact lists_correct (hplain .lm (by simp)) hfiles hnum hw hfw hs hm hcut hk hS hl0 hshort hnr
      · unfold printed
        congr 2
        rw [List.flatMap_map]
        clear hS
        induction hcols with
        | nil => rfl
        | cons hd _ ih =>
          rw [List.flatten_cons, ih, List.flatMap_cons]
          congr 1
          obtain ⟨lex, hlx, rfl⟩ := hd
          rcases hlx with ⟨_, rfl⟩ | ⟨hg, _⟩
          · simp [Suggestion.overall, hfw]
          · exact absurd hg (hplain _ (by simp)))
  exact ⟨rs, e1, by rw [h2, List.flatMap_def], e2⟩

/-! ### Example -/

/-- `query --alphabet a --errors e --lexicon l --variants v --max-matches 0 --score-threshold 0.0
--cutoff-threshold 0.0` -/
def exQueryK : CommandLine :=
  { sub := .query, debug := none
    given := [(.alphabet, ['a']), (.errors, ['e']), (.lexicon, ['l']), (.variants, ['v']), (.maxMatches, ['0']),
      (.scoreThreshold, "0.0".toList), (.cutoffThreshold, "0.0".toList)] }

/-- A query for `ab`, `ab b` and `bb`, of which `bb` is an error for `b`. -/
example : ∃ rs : List (List Char × List (List Char × Rat)),
    rs.map Prod.fst = ["ab".toList, "ab b".toList, "bb".toList] ∧
    exToolR.main exQueryK [['q'], ['-']] = .ok (.output (rs.flatMap fun r => printed exToolR r.1 r.2) []) ∧
    ∀ r ∈ rs, r.1 = "bb".toList → (∃ u ∈ r.2, u.1 = ['b'] ∧ 1 / 2 ≤ u.2) ∧ ∀ u ∈ r.2, u.1 ≠ "bb".toList := by
  obtain ⟨entries, e1, e2, _⟩ := read_alphabet_entries (isSpace := exToolR.load.isSpace) rfl []
    [some "a\tA".toList, some ['b']]
  have he : entries = [["a".toList, "A".toList], ["b".toList]] := by
    rw [List.nil_append] at e2
    rw [← e2]
    decide
  rw [he] at e1
  have hread : ∀ lines ∈ [[some "ab".toList], exToolR.stdin], none ∉ lines := by
    intro lines hl
    simp only [List.mem_cons, List.not_mem_nil, or_false] at hl
    rcases hl with rfl | rfl <;> decide
  have e : [[some "ab".toList], exToolR.stdin].flatMap readable = ["ab".toList, "ab b".toList, "bb".toList] := by
    decide
  have hlines : ∀ l ∈ [[some "ab".toList], exToolR.stdin].flatMap readable, l ≠ [] ∧ l.length ≤ 4 := by
    rw [e]
    decide
  have hl := exLoadableQuery
  obtain ⟨rs, h1, h2, h3⟩ := errors_corrected (x := exToolR) (c := exQueryK) ex_noSemicolon ex_pos ex_marks rfl
    (accepted_of (by decide) (by decide)) rfl
    (by
      have : ∀ o ∈ [OptName.json, .outputLexmatch, .lm, .confusables], ∀ g ∈ exQueryK.given, g.1 ≠ o := by decide
      exact fun o ho => not_given (this o ho))
    (as := exAdded.take 3)
    ⟨⟨{ exArgs with lm := [], confusables := [] }, by constructor <;> decide,
      ⟨hl.alphabet, hl.words, hl.sources, hl.spaces, hl.freqs, fun f hf => (by cases hf), hl.rules⟩⟩, by decide⟩
    (exUsableNumbers (accepted_of (by decide) (by decide)) rfl (by decide +kernel) rfl
      (exSome exTextParams (by decide +kernel)) (.inl (by decide +kernel)))
    exWeightsM (by decide +kernel) (by decide +kernel) (by decide +kernel) (by decide +kernel)
    (afile := ['a']) (by decide) rfl e1
    (kss := exLinksE) exGivesE (by unfold Reserved; decide)
    (files := [['q'], ['-']]) (inputs := [[some "ab".toList], exToolR.stdin]) (inputsOf_iff.mp (by decide)) (fun _ => hread)
    fun l hl => ⟨(hlines l hl).1, by
      have := exShortS (hlines l hl).2
      unfold ShortEnough at this ⊢
      exact this⟩
  refine ⟨rs, by rw [h1, e], h2, fun r hr er => ?_⟩
  obtain ⟨g1, g2⟩ := h3 r hr (by rw [er]; unfold Reserved; decide)
  rw [er] at g1 g2
  obtain ⟨u, hu, f1, f2⟩ := g1 ("b".toList, "bb".toList, 1 / 2) (by decide +kernel) rfl (by decide)
  refine ⟨⟨u, hu, f1, f2⟩, g2 ⟨⟨("b".toList, "bb".toList, 1 / 2), by decide +kernel, rfl, by decide⟩, by decide +kernel,
    by decide +kernel⟩⟩

end Verif.Props
