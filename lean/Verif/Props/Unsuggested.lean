import Verif.Props.CorrectedSearch

/-!
# What the lists give only as errors is never suggested (C139)
-/
namespace Verif.Props

open Verif.Spec Verif.Model Verif.Lemmas

/-- **C139**, for the library: errors that are not references are not suggested for any text. -/
theorem suggested_not_error {x : TextExt} {alphabet : Alphabet} {L : Lexis} {cfg : Config} {p : Params}
    {text : List Char} {res : List Suggestion} (hS : Suggestions x alphabet L cfg p text res)
    {t : List Char} (ht : L.transparent t = true) (hl : L.linked t) (hno : ∀ t', ∀ k ∈ L.links t', k.1 ≠ t) :
    ∀ u ∈ res, u.word ≠ t := by
  obtain ⟨factor, top, base, weighted, all, ranked, kept, final, h⟩ := hS
  have hweighted : ∀ u ∈ weighted, ∃ b ∈ base, b.word = u.word := by
    intro u hu
    by_cases he : cfg.confusables ≠ [] ∧ cfg.confusablesBeforePruning = true
    · rw [h.early he] at hu
      obtain ⟨b, hb, rfl⟩ := List.mem_map.mp hu
      exact ⟨b, hb, rfl⟩
    · rw [h.notEarly he] at hu
      exact ⟨u, hu, rfl⟩
  have hall : ∀ u ∈ all, u.word ≠ t := by
    intro u hu e
    by_cases hx : ∃ t s, Reached x alphabet L cfg.weights p text t s ∧ L.linked t
    · rw [h.linked hx] at hu
      obtain ⟨b, _, hb⟩ := List.mem_flatMap.mp hu
      rcases List.mem_append.mp hb with hb | hb
      · obtain ⟨k, hk, rfl⟩ := List.mem_map.mp hb
        exact hno _ k hk e
      · split at hb
        · cases hb
        · next htr =>
          cases List.mem_singleton.mp hb
          exact htr (by rw [e]; exact ht)
    · rw [h.notLinked hx] at hu
      obtain ⟨b, hb, eb⟩ := hweighted u hu
      refine hx ⟨t, b.score, ?_, hl⟩
      have := ((h.scored.mem b).mp hb).1
      rwa [eb, e] at this
  have hkept : ∀ u ∈ kept, u.word ≠ t := by
    intro u hu
    rw [h.first] at hu
    have hu := h.perm.subset ((List.destutter_sublist _ _).subset ((firstOnes_sublist _ _ _ _).subset hu))
    obtain ⟨u', hu', rfl⟩ := List.mem_map.mp hu
    exact hall u' hu'
  intro u hu
  rw [h.result] at hu
  have hu := (closeOnes_sublist _ _ _ _).subset hu
  by_cases he : cfg.confusables ≠ [] ∧ cfg.confusablesBeforePruning = false
  · obtain ⟨b, hb, rfl⟩ := List.mem_map.mp ((h.late he).1.subset hu)
    exact hkept b hb
  · rw [h.notLate he] at hu
    exact hkept u hu

/-- **C139**, for the lists of the resources. -/
theorem lists_unsuggested {x : TextExt} {alphabet : Alphabet} {ss : List Source}
    {as : List (List (List Char × Option Nat × VocabParams))} {kss : List (List (List Char × List Char × Rat))}
    {cfg : Config} {p : Params} {text : List Char} {res : List Suggestion}
    (hS : Suggestions x alphabet (lexisFrom ss as kss) cfg p text res) :
    ∀ u ∈ res, ¬ OnlyError as kss.flatten u.word := by
  intro u hu ho
  refine suggested_not_error hS (t := u.word) ?_ ?_ ?_ u hu rfl
  · show (as.flatten.all fun a => a.1 ≠ u.word || a.2.2.vocabType.transparent) = true
    rw [List.all_eq_true]
    intro a ham
    by_cases e : a.1 = u.word
    · simp [ho.only a ham e]
    · simp [e]
  · obtain ⟨k, hk, e, hne⟩ := ho.error
    exact ⟨k, List.mem_filter.mpr ⟨hk, by simpa [e] using hne⟩, .inr e⟩
  · intro t z hz e
    obtain ⟨k', hk', rfl⟩ := List.mem_map.mp hz
    exact ho.noReference k' (List.mem_of_mem_filter (List.mem_of_mem_filter hk')) e

theorem suggestion_columns {x : ToolExt} {c : CommandLine} (hlex : ¬ Given c .outputLexmatch)
    {names : List (List Char)} {as : List (List (List Char × Option Nat × VocabParams))} {p : Params}
    {us : List Suggestion} {cols : List (List Char)} (h : List.Forall₂ (SuggestionColumn x c names as p) us cols) :
    cols.flatten = (us.map fun u => (u.word, u.overall x.text.f64 p.freqWeight)).flatMap fun v =>
      '\t' :: v.1 ++ '\t' :: x.showF v.2 ++ ['\t'] := by
  rw [List.flatMap_map]
  induction h with
  | nil => rfl
  | cons hd _ ih =>
    rw [List.flatten_cons, ih, List.flatMap_cons]
    congr 1
    obtain ⟨lex, hlx, rfl⟩ := hd
    rcases hlx with ⟨_, rfl⟩ | ⟨hg, _⟩
    · rfl
    · exact absurd hg hlex

/-- **C139**: with lexicons, variant lists, error lists, confusables and language models, with any weights, thresholds and
limits, no word that the files give only as an error is printed as a suggestion for any line of a query. -/
theorem errors_unsuggested {x : ToolExt} (hf : ∀ s, ';' ∈ s → x.parseF32 s = none)
    (hpos : StrictMono x.pos) (hmarks : MarksOk x.load.isSpace) (hb : x.load.isSpace '\\' = false)
    {c : CommandLine} (hc : Accepted c) (hsub : c.sub = .query)
    (hplain : ∀ o ∈ [OptName.json, .outputLexmatch], ¬ Given c o)
    {as : List (List (List Char × Option Nat × VocabParams))} {w : Weights} {p : TextParams}
    (hfiles : UsableFiles x c as) (hnum : UsableNumbers x c w p) (hfw : 0 ≤ p.variant.freqWeight)
    {afile : List Char} {alines : List (Option (List Char))} {alphabet : Alphabet}
    (ha : (.alphabet, afile) ∈ c.given) (hal : x.load.file afile = some alines)
    (hae : List.Forall₂ (AlphabetLine x.load.isSpace) (nonEmpty alines) alphabet)
    {kss : List (List (List Char × List Char × Rat))}
    (hk : List.Forall₂ (Gives x.load) (sourcesGiven c) kss) (hrefs : ∀ k ∈ kss.flatten, ¬ Reserved k.1)
    {cs : List Confusable} (hcs : ConfusablesGiven x c cs)
    {files : List (List Char)}
    {inputs : List (List (Option (List Char)))} (hin : InputsOf x files inputs)
    (hread : p.singleThread = false → ∀ lines ∈ inputs, none ∉ lines)
    (hlines : ∀ l ∈ inputs.flatMap readable, l ≠ [] ∧ ShortEnough x.text alphabet p.variant l) :
    ∃ rs : List (List Char × List (List Char × Rat)), rs.map Prod.fst = inputs.flatMap readable ∧
      x.main c files = .ok (.output (rs.flatMap fun r => printed x r.1 r.2) []) ∧
      ∀ r ∈ rs, ∀ u ∈ r.2, ¬ OnlyError as kss.flatten u.1 := by
  obtain ⟨early, hearly⟩ : ∃ early : Bool, early = true ↔ Given c .earlyConfusables := by
    classical exact ⟨decide _, decide_eq_true_iff⟩
  obtain ⟨rows, h1, h2⟩ := query_prints_suggestions hf hpos hmarks hb hc hsub (hplain _ (by simp)) hfiles hnum
    hfw ha hal hae hk hrefs hcs hearly hin hread hlines
  obtain ⟨rs, e1, e2, rfl⟩ := forall₂_pull (proj := Prod.fst)
    (P := fun r : List Char × List (List Char × Rat) => ∀ u ∈ r.2, ¬ OnlyError as kss.flatten u.1)
    (G := fun r => printed x r.1 r.2) (h1.imp fun l row hr => by
      obtain ⟨us, cols, hS, hcols, rfl⟩ := hr
      refine ⟨(l, us.map fun u => (u.word, u.overall x.text.f64 p.variant.freqWeight)), rfl, ?_, ?_⟩
      · intro u hu
        obtain ⟨u', hu', rfl⟩ := List.mem_map.mp hu
        exact lists_unsuggested hS u' hu'
      · rw [suggestion_columns (hplain .outputLexmatch (by simp)) hcols, printed])
  exact ⟨rs, e1, by rw [h2, List.flatMap_def], e2⟩

/-- **C139**, for searches for single words. -/
theorem errors_unsuggested_in_text {x : ToolExt} (hf : ∀ s, ';' ∈ s → x.parseF32 s = none)
    (hpos : StrictMono x.pos) (hmarks : MarksOk x.load.isSpace) (hb : x.load.isSpace '\\' = false)
    (hsp : x.text.isAlpha ' ' = false)
    {c : CommandLine} (hc : Accepted c) (hsub : c.sub = .search)
    (hplain : ∀ o ∈ [OptName.json, .outputLexmatch, .lm, .contextrules], ¬ Given c o)
    {as : List (List (List Char × Option Nat × VocabParams))} {w : Weights} {p : TextParams}
    (hfiles : UsableFiles x c as) (hnum : UsableNumbers x c w p) (hfw : 0 ≤ p.variant.freqWeight) (hn : p.maxNgram = 1)
    (hwords : as.flatten ≠ []) (hr : ∀ a ∈ as.flatten, ¬ Reserved a.1)
    {afile : List Char} {alines : List (Option (List Char))} {alphabet : Alphabet}
    (ha : (.alphabet, afile) ∈ c.given) (hal : x.load.file afile = some alines)
    (hae : List.Forall₂ (AlphabetLine x.load.isSpace) (nonEmpty alines) alphabet)
    {kss : List (List (List Char × List Char × Rat))}
    (hk : List.Forall₂ (Gives x.load) (sourcesGiven c) kss)
    {cs : List Confusable} (hcs : ConfusablesGiven x c cs)
    {files : List (List Char)}
    {inputs : List (List (Option (List Char)))} (hin : InputsOf x files inputs)
    (hlines : ∀ lines ∈ inputs, ∀ text, SearchedIn c lines text → ∀ b t, WordAt x.text.isAlpha text b t →
      ShortEnough x.text alphabet p.variant t) :
    ∃ rs : List (List (List ((Nat × List Char) × List (List Char × Rat)))),
      List.Forall₂ (TextWords x.text.isAlpha c) inputs (rs.map (List.map (List.map Prod.fst))) ∧
      x.main c files = .ok (.output (rs.flatMap (textPrinted x)) []) ∧
      ∀ gs ∈ rs, ∀ g ∈ gs, ∀ u ∈ g, ∀ v ∈ u.2, ¬ OnlyError as kss.flatten v.1 := by
  obtain ⟨early, hearly⟩ : ∃ early : Bool, early = true ↔ Given c .earlyConfusables := by
    classical exact ⟨decide _, decide_eq_true_iff⟩
  obtain ⟨texts, h1, h2⟩ := search_prints_word_suggestions hf hpos hmarks hb hsp hc hsub
    (fun o ho => hplain o (by simp only [List.mem_cons, List.not_mem_nil, or_false] at ho ⊢; tauto))
    hfiles hnum hfw hn hwords hr ha hal hae hk hcs hearly hin hlines
  obtain ⟨rs, r1, r2, r3⟩ := words_rows (P := fun _ found => ∀ v ∈ found, ¬ OnlyError as kss.flatten v.1) h1 (by
    rintro lines hl text ht b t hat cols ⟨us, hS, hcols⟩
    refine ⟨us.map fun u => (u.word, u.overall x.text.f64 p.variant.freqWeight), ?_,
      suggestion_columns (hplain .outputLexmatch (by simp)) hcols⟩
    intro u hu
    obtain ⟨u', hu', rfl⟩ := List.mem_map.mp hu
    exact lists_unsuggested hS u' hu')
  exact ⟨rs, r1, by rw [h2, r2], r3⟩

/-- **C139**, for searches for stretches of several words: what is found for a stretch is never only an error. -/
theorem errors_unsuggested_in_stretches {x : ToolExt} (hf : ∀ s, ';' ∈ s → x.parseF32 s = none)
    (hpos : StrictMono x.pos) (hmarks : MarksOk x.load.isSpace) (hb : x.load.isSpace '\\' = false)
    (hsp : x.text.isAlpha ' ' = false)
    {c : CommandLine} (hc : Accepted c) (hsub : c.sub = .search)
    (hplain : ∀ o ∈ [OptName.json, .lm, .contextrules], ¬ Given c o)
    {as : List (List (List Char × Option Nat × VocabParams))} {w : Weights} {p : TextParams}
    (hfiles : UsableFiles x c as) (hnum : UsableNumbers x c w p) {u : Rat} {d : Nat → Rat}
    (hx : Reckons x.text p.variant.freqWeight u d) (hwt : WeightsOk x.text.f64 w)
    (hfw : 0 ≤ p.variant.freqWeight) (hn : 2 ≤ p.maxNgram) (hseq : 1 ≤ p.maxSeq)
    (hwords : as.flatten ≠ []) (hr : ∀ a ∈ as.flatten, ¬ Reserved a.1)
    {afile : List Char} {alines : List (Option (List Char))} {alphabet : Alphabet}
    (ha : (.alphabet, afile) ∈ c.given) (hal : x.load.file afile = some alines)
    (hae : List.Forall₂ (AlphabetLine x.load.isSpace) (nonEmpty alines) alphabet)
    {kss : List (List (List Char × List Char × Rat))}
    (hk : List.Forall₂ (Gives x.load) (sourcesGiven c) kss)
    (hks : ∀ k ∈ kss.flatten, 0 ≤ k.2.2 ∧ k.2.2 ≤ 1)
    {cs : List Confusable} (hcs : ConfusablesGiven x c cs) (hmild : MildConfusables x.text.f64 cs)
    {early : Bool} (hearly : early = true ↔ Given c .earlyConfusables)
    {files : List (List Char)}
    {inputs : List (List (Option (List Char)))} (hin : InputsOf x files inputs)
    (hlines : ∀ lines ∈ inputs, ∀ text, SearchedIn c lines text →
      ShortRuns x.text alphabet p.variant p.maxNgram text) :
    ∃ found : List Char → List Suggestion,
      (∀ t, t ≠ [] → ShortEnough x.text alphabet p.variant t → ∀ v ∈ found t, ¬ OnlyError as kss.flatten v.word) ∧
      ∃ texts, List.Forall₂ (DividedText x c (slack u d) Suggestion.score
          (Suggestion.overall x.text.f64 p.variant.freqWeight)
          (SuggestionColumn x c ((sourcesGiven c).map Source.name) as p.variant) p.maxNgram found) inputs texts ∧
        x.main c files = .ok (.output texts.flatten []) := by
  obtain ⟨found, h1, h2⟩ := search_prints_suggestions hf hpos hmarks hb hsp hc hsub hplain hfiles hnum hx hwt hfw hn hseq
    hwords hr ha hal hae hk hks hcs hmild hearly hin hlines
  exact ⟨found, fun t ht hs => lists_unsuggested (h1 t ht hs), h2⟩

/-! ### Examples -/

/-- `query --alphabet a --errors e --lexicon l --variants v --confusables c` -/
def exQueryU : CommandLine :=
  { sub := .query, debug := none
    given := [(.alphabet, ['a']), (.errors, ['e']), (.lexicon, ['l']), (.variants, ['v']), (.confusables, ['c'])] }

/-- `search --alphabet a --errors e --lexicon l --variants v --confusables c --max-ngram-order 1` -/
def exSearchU : CommandLine :=
  { sub := .search, debug := none
    given := [(.alphabet, ['a']), (.errors, ['e']), (.lexicon, ['l']), (.variants, ['v']), (.confusables, ['c']),
      (.maxNgramOrder, ['1'])] }

theorem exOnlyError : OnlyError (exAdded.take 3) exLinksE.flatten "bb".toList :=
  ⟨⟨("b".toList, "bb".toList, 1 / 2), by decide +kernel, rfl, by decide⟩, by decide +kernel, by decide +kernel⟩

/-- `bb`, an error for `b`, is not suggested in a query. -/
example : ∃ rs : List (List Char × List (List Char × Rat)),
    rs.map Prod.fst = ["ab".toList, "ab b".toList, "bb".toList] ∧
    exToolR.main exQueryU [['q'], ['-']] = .ok (.output (rs.flatMap fun r => printed exToolR r.1 r.2) []) ∧
    ∀ r ∈ rs, ∀ u ∈ r.2, u.1 ≠ "bb".toList := by
  obtain ⟨entries, e1, e2, _⟩ := read_alphabet_entries (isSpace := exToolR.load.isSpace) rfl []
    [some "a\tA".toList, some ['b']]
  have he : entries = [["a".toList, "A".toList], ["b".toList]] := by
    rw [List.nil_append] at e2
    rw [← e2]
    decide
  rw [he] at e1
  have hread : ∀ lines ∈ [[some "ab".toList], exToolR.stdin], none ∉ lines := by
    intro lines hl
    simp only [List.mem_cons, List.not_mem_nil, or_false] at hl
    rcases hl with rfl | rfl <;> decide
  have e : [[some "ab".toList], exToolR.stdin].flatMap readable = ["ab".toList, "ab b".toList, "bb".toList] := by
    decide
  have hlines : ∀ l ∈ [[some "ab".toList], exToolR.stdin].flatMap readable, l ≠ [] ∧ l.length ≤ 4 := by
    rw [e]
    decide
  obtain ⟨rs, h1, h2, h3⟩ := errors_unsuggested (x := exToolR) (c := exQueryU) ex_noSemicolon ex_pos ex_marks rfl
    (accepted_of (by decide) (by decide)) rfl
    (by
      have : ∀ o ∈ [OptName.json, .outputLexmatch], ∀ g ∈ exQueryU.given, g.1 ≠ o := by decide
      exact fun o ho => not_given (this o ho))
    ⟨⟨{ exArgs with lm := [] }, by constructor <;> decide, exLoadableQuery⟩, by decide⟩
    (exUsableNumbers (accepted_of (by decide) (by decide)) rfl (by decide +kernel) rfl
      (exSome exTextParams (by decide +kernel)) (.inr (by decide +kernel)))
    (by decide +kernel) (afile := ['a']) (by decide) rfl e1
    (kss := exLinksE) exGivesE (by unfold Reserved; decide) (exConfusablesE (by decide))
    (files := [['q'], ['-']]) (inputs := [[some "ab".toList], exToolR.stdin]) (inputsOf_iff.mp (by decide)) (fun _ => hread)
    fun l hl => ⟨(hlines l hl).1, by
      have := exShortS (hlines l hl).2
      unfold ShortEnough at this ⊢
      exact this⟩
  exact ⟨rs, by rw [h1, e], h2, fun r hr u hu eu => h3 r hr u hu (by rw [eu]; exact exOnlyError)⟩

/-- Nor in a search. -/
example : ∃ rs : List (List (List ((Nat × List Char) × List (List Char × Rat)))),
    List.Forall₂ (TextWords exText.isAlpha exSearchU) [[some "ab".toList], exToolR.stdin]
      (rs.map (List.map (List.map Prod.fst))) ∧
    exToolR.main exSearchU [['q'], ['-']] = .ok (.output (rs.flatMap (textPrinted exToolR)) []) ∧
    ∀ gs ∈ rs, ∀ g ∈ gs, ∀ u ∈ g, ∀ v ∈ u.2, v.1 ≠ "bb".toList := by
  obtain ⟨entries, e1, e2, _⟩ := read_alphabet_entries (isSpace := exToolR.load.isSpace) rfl []
    [some "a\tA".toList, some ['b']]
  have he : entries = [["a".toList, "A".toList], ["b".toList]] := by
    rw [List.nil_append] at e2
    rw [← e2]
    decide
  rw [he] at e1
  obtain ⟨rs, h1, h2, h3⟩ := errors_unsuggested_in_text (x := exToolR) (c := exSearchU) ex_noSemicolon ex_pos ex_marks rfl
    rfl (accepted_of (by decide) (by decide)) rfl
    (by
      have : ∀ o ∈ [OptName.json, .outputLexmatch, .lm, .contextrules], ∀ g ∈ exSearchU.given, g.1 ≠ o := by
        decide
      exact fun o ho => not_given (this o ho))
    ⟨⟨{ exArgs with lm := [] }, by constructor <;> decide, exLoadableQuery⟩, by decide⟩
    (exUsableNumbers (accepted_of (by decide) (by decide)) rfl (by decide +kernel) rfl
      (exSome exTextParams (by decide +kernel)) (.inr (by decide +kernel)))
    (by decide +kernel) rfl
    (by decide) (by unfold Reserved; decide) (afile := ['a']) (by decide) rfl e1
    (kss := exLinksE) exGivesE (exConfusablesE (by decide))
    (files := [['q'], ['-']]) (inputs := [[some "ab".toList], exToolR.stdin]) (inputsOf_iff.mp (by decide)) (by
      intro lines hl text ht b t hw
      have h1 := searchedIn_length ht
      obtain ⟨pre, post, e, _⟩ := hw
      have h2 : t.length ≤ text.length := by rw [e]; simp; omega
      have h3 : ((untilError lines).map fun l => l.length + 1).sum ≤ 30 := by
        simp only [List.mem_cons, List.not_mem_nil, or_false] at hl
        rcases hl with rfl | rfl <;> decide
      exact exShort30 rfl (by omega))
  exact ⟨rs, h1, h2, fun gs hgs g hg u hu v hv ev => h3 gs hgs g hg u hu v hv (by rw [ev]; exact exOnlyError)⟩

/-- Nor in a search for stretches of up to two words. -/
example : ∃ found : List Char → List Suggestion,
    (∀ t, t ≠ [] → ShortEnough exText [["a".toList, "A".toList], ["b".toList]] (exNumbers exSearchE).variant t →
      ∀ v ∈ found t, v.word ≠ "bb".toList) ∧
    ∃ texts, List.Forall₂ (DividedText exToolR exSearchE (fun _ => 0) Suggestion.score
        (Suggestion.overall exText.f64 (exNumbers exSearchE).variant.freqWeight)
        (SuggestionColumn exToolR exSearchE [['e'], ['l'], ['v']] (exAdded.take 3)
          (exNumbers exSearchE).variant) (exNumbers exSearchE).maxNgram found)
        [[some "ab".toList], exToolR.stdin] texts ∧
      exToolR.main exSearchE [['q'], ['-']] = .ok (.output texts.flatten []) := by
  obtain ⟨entries, e1, e2, _⟩ := read_alphabet_entries (isSpace := exToolR.load.isSpace) rfl []
    [some "a\tA".toList, some ['b']]
  have he : entries = [["a".toList, "A".toList], ["b".toList]] := by
    rw [List.nil_append] at e2
    rw [← e2]
    decide
  rw [he] at e1
  rw [← slack_zero]
  suffices h : ∃ found : List Char → List Suggestion, (∀ t, t ≠ [] →
      ShortEnough exToolR.text [["a".toList, "A".toList], ["b".toList]] (exNumbers exSearchE).variant t →
      ∀ v ∈ found t, ¬ OnlyError (exAdded.take 3) exLinksE.flatten v.word) ∧ _ by
    obtain ⟨found, g1, g2⟩ := h
    exact ⟨found, fun t h1 h2 v hv e => g1 t h1 h2 v hv (by rw [e]; exact exOnlyError), g2⟩
  refine errors_unsuggested_in_stretches (x := exToolR) (c := exSearchE) ex_noSemicolon ex_pos ex_marks rfl rfl
    (accepted_of (by decide) (by decide)) rfl
    (by
      have : ∀ o ∈ [OptName.json, .lm, .contextrules], ∀ g ∈ exSearchE.given, g.1 ≠ o := by decide
      exact fun o ho => not_given (this o ho))
    ⟨⟨{ exArgs with lm := [] }, by constructor <;> decide, exLoadableQuery⟩, by decide⟩
    (exUsableNumbers (accepted_of (by decide) (by decide)) rfl (by decide +kernel) rfl
      (exSome exTextParams (by decide +kernel)) (.inl (by decide +kernel)))
    (exText_reckons _) ?_ (by decide +kernel) (show 2 ≤ 2 by decide) (by decide +kernel)
    (by decide) (by unfold Reserved; decide) (afile := ['a']) (by decide) rfl e1
    (kss := exLinksE) exGivesE (by decide +kernel) (exConfusablesE (by decide)) ?_
    (early := true) (by simp only [true_iff]; exact ⟨[], by decide⟩)
    (inputs := [[some "ab".toList], exToolR.stdin]) (inputsOf_iff.mp (by decide)) ?_
  · constructor <;> first | exact ⟨by norm_num, rfl⟩ | decide +kernel
  · constructor <;> decide +kernel
  intro lines hl text ht segs r hs hr _ _
  have h1 := searchedIn_length ht
  have h2 : (stretch r).length ≤ text.length := by
    obtain ⟨a, b, e⟩ := hr
    refine le_trans (stretch_prefix_flat r).length_le ?_
    rw [← hs.text_eq, ← e, flat_append, flat_append]
    simp
    omega
  have h3 : ((untilError lines).map fun l => l.length + 1).sum ≤ 30 := by
    simp only [List.mem_cons, List.not_mem_nil, or_false] at hl
    rcases hl with rfl | rfl <;> decide
  exact exShort30 rfl (by omega)

end Verif.Props
