import Verif.Props.Corrected

/-!
# What the lists give as errors is corrected in texts (C138)
-/
namespace Verif.Props

open Verif.Spec Verif.Model Verif.Lemmas

theorem forall₂_right {α β : Type} {R : α → β → Prop} {l : List α} {l' : List β} (h : List.Forall₂ R l l') :
    ∀ b ∈ l', ∃ a ∈ l, R a b := by
  induction h with
  | nil => simp
  | cons h _ ih =>
    intro b hb
    rcases List.mem_cons.mp hb with rfl | hb
    · exact ⟨_, List.mem_cons_self, h⟩
    · obtain ⟨a, ha, hr⟩ := ih b hb
      exact ⟨a, List.mem_cons_of_mem _ ha, hr⟩

/-- What is printed for the words of texts, from what is printed for each word. -/
theorem words_rows {x : ToolExt} {c : CommandLine} {columns : List Char → List (List Char) → Prop}
    {P : List Char → List (List Char × Rat) → Prop} {inputs : List (List (Option (List Char)))}
    {texts : List (List Char)} (h : List.Forall₂ (WordsText x c columns) inputs texts)
    (hcol : ∀ lines ∈ inputs, ∀ text, SearchedIn c lines text → ∀ b t, WordAt x.text.isAlpha text b t →
      ∀ cols, columns t cols → ∃ found, P t found ∧
        cols.flatten = found.flatMap fun v => '\t' :: v.1 ++ '\t' :: x.showF v.2 ++ ['\t']) :
    ∃ rs : List (List (List ((Nat × List Char) × List (List Char × Rat)))),
      List.Forall₂ (TextWords x.text.isAlpha c) inputs (rs.map (List.map (List.map Prod.fst))) ∧
      texts.flatten = rs.flatMap (textPrinted x) ∧ ∀ gs ∈ rs, ∀ g ∈ gs, ∀ u ∈ g, P u.1.2 u.2 := by
  induction h with
  | nil => exact ⟨[], .nil, rfl, by simp⟩
  | @cons lines text inputs texts hh _ ih =>
    obtain ⟨rs, b1, b2, b3⟩ := ih fun l hl => hcol l (List.mem_cons_of_mem _ hl)
    have hcol := hcol lines List.mem_cons_self
    obtain ⟨pl, sep, gr, words, rows, k1, k2, k3, k4, k5, rfl⟩ := hh
    have hat : ∀ ws ∈ words, ∀ u ∈ ws, ∃ text, SearchedIn c lines text ∧ WordAt x.text.isAlpha text u.1 u.2 := by
      intro ws hws u hu
      obtain ⟨g, hg, hw⟩ := forall₂_right k4 ws hws
      exact ⟨_, ⟨pl, sep, gr, g, k1, k2, k3, hg, rfl⟩, (hw.mem _ _).mp hu⟩
    obtain ⟨gs, rfl, g2, rfl⟩ := forall₂_pull (proj := List.map Prod.fst)
      (P := fun g => ∀ u ∈ g, P u.1.2 u.2)
      (G := fun g => g.map fun v : (Nat × List Char) × List (List Char × Rat) => wordPrinted x v.1 v.2)
      ((forall₂_mem_left k5).imp fun ws rs ⟨hwr, hws⟩ => by
        obtain ⟨us, e1, e2, e3⟩ := forall₂_pull (proj := Prod.fst)
          (P := fun u : (Nat × List Char) × List (List Char × Rat) => P u.1.2 u.2)
          (G := fun v => wordPrinted x v.1 v.2)
          ((forall₂_mem_left hwr).imp fun u row ⟨hrow, hu⟩ => by
            obtain ⟨cols, hc, rfl⟩ := hrow
            obtain ⟨text, t1, t2⟩ := hat ws hws u hu
            obtain ⟨found, f1, f2⟩ := hcol text t1 _ _ t2 cols hc
            exact ⟨(u, found), rfl, f1, by rw [wordPrinted, f2]⟩)
        exact ⟨us, e1, e2, e3⟩)
    refine ⟨gs :: rs, .cons ⟨pl, sep, gr, k1, k2, k3, k4⟩ b1, ?_, ?_⟩
    · rw [List.flatten_cons, List.flatMap_cons, b2]
      congr 1
      rw [textPrinted, List.filter_map, List.map_map]
      congr 1
      have e : (fun g : List ((Nat × List Char) × List (List Char × Rat)) => decide (g.map (fun v =>
          wordPrinted x v.1 v.2) ≠ [])) = fun g => !g.isEmpty := by
        funext g
        cases g <;> simp
      rw [← e]
      refine List.map_congr_left fun g _ => ?_
      simp only [Function.comp, List.flatMap_def]
    · intro g hg
      rcases List.mem_cons.mp hg with rfl | hg
      · exact g2
      · exact b3 g hg

/-- **C138**: with lexicons, variant lists and error lists, without frequency ranking and limits, a search for single
words prints for each word of the texts that a list gives as a variant or error of another word that word, with at least
the score given in the list; and it does not print the word itself as a suggestion, if it is only given as an error. -/
theorem errors_corrected_in_text {x : ToolExt} (hf : ∀ s, ';' ∈ s → x.parseF32 s = none)
    (hpos : StrictMono x.pos) (hmarks : MarksOk x.load.isSpace) (hb : x.load.isSpace '\\' = false)
    (hsp : x.text.isAlpha ' ' = false)
    {c : CommandLine} (hc : Accepted c) (hsub : c.sub = .search)
    (hplain : ∀ o ∈ [OptName.json, .outputLexmatch, .lm, .contextrules, .confusables], ¬ Given c o)
    {as : List (List (List Char × Option Nat × VocabParams))} {w : Weights} {p : TextParams}
    (hfiles : UsableFiles x c as) (hnum : UsableNumbers x c w p) (hw : WeightsOk x.text.f64 w)
    (hfw : p.variant.freqWeight = 0) (hs : p.variant.scoreThreshold ≤ 1) (hm : p.variant.maxMatches = 0)
    (hcut : p.variant.cutoffThreshold < 1) (hn : p.maxNgram = 1)
    (hwords : as.flatten ≠ []) (hr : ∀ a ∈ as.flatten, ¬ Reserved a.1)
    {afile : List Char} {alines : List (Option (List Char))} {alphabet : Alphabet}
    (ha : (.alphabet, afile) ∈ c.given) (hal : x.load.file afile = some alines)
    (hae : List.Forall₂ (AlphabetLine x.load.isSpace) (nonEmpty alines) alphabet)
    {kss : List (List (List Char × List Char × Rat))}
    (hk : List.Forall₂ (Gives x.load) (sourcesGiven c) kss)
    {files : List (List Char)}
    {inputs : List (List (Option (List Char)))} (hin : InputsOf x files inputs)
    (hlines : ∀ lines ∈ inputs, ∀ text, SearchedIn c lines text → ∀ b t, WordAt x.text.isAlpha text b t →
      ShortEnough x.text alphabet p.variant t) :
    ∃ rs : List (List (List ((Nat × List Char) × List (List Char × Rat)))),
      List.Forall₂ (TextWords x.text.isAlpha c) inputs (rs.map (List.map (List.map Prod.fst))) ∧
      x.main c files = .ok (.output (rs.flatMap (textPrinted x)) []) ∧
      ∀ gs ∈ rs, ∀ g ∈ gs, ∀ u ∈ g, Corrected x.text.f64 kss.flatten u.1.2 u.2 ∧
        (OnlyError as kss.flatten u.1.2 → ∀ v ∈ u.2, v.1 ≠ u.1.2) := by
  have hcs : ConfusablesGiven x c [] := by
    refine ⟨[], ?_, rfl⟩
    have : (c.given.filterMap fun g => if g.1 = .confusables then some g.2 else none) = [] := by
      rw [List.filterMap_eq_nil_iff]
      intro g hg
      rw [if_neg]
      intro e
      exact hplain .confusables (by simp) ⟨g.2, e ▸ hg⟩
    rw [this]
    exact .nil
  obtain ⟨early, hearly⟩ : ∃ early : Bool, early = true ↔ Given c .earlyConfusables := by
    classical exact ⟨decide _, decide_eq_true_iff⟩
  obtain ⟨texts, h1, h2⟩ := search_prints_word_suggestions hf hpos hmarks hb hsp hc hsub
    (fun o ho => hplain o (by simp only [List.mem_cons, List.not_mem_nil, or_false] at ho ⊢; tauto))
    hfiles hnum (by rw [hfw]) hn hwords hr ha hal hae hk hcs hearly hin hlines
  obtain ⟨rs, r1, r2, r3⟩ := words_rows (P := fun t found =>
      ¬ Reserved t → Corrected x.text.f64 kss.flatten t found ∧
        (OnlyError as kss.flatten t → ∀ v ∈ found, v.1 ≠ t)) h1 (by
    rintro lines hl text ht b t hat cols ⟨us, hS, hcols⟩
    obtain ⟨_, _, _, _, hne, _⟩ := id hat
    refine ⟨us.map fun u => (u.word, u.score), fun hnr => lists_correct (hplain .lm (by simp)) hfiles hnum hw hfw hs hm hcut
      hk hS hne (hlines lines hl text ht b t hat) hnr, ?_⟩
    rw [List.flatMap_map]
    clear hS
    induction hcols with
    | nil => rfl
    | cons hd _ ih =>
      rw [List.flatten_cons, ih, List.flatMap_cons]
      congr 1
      obtain ⟨lex, hlx, rfl⟩ := hd
      rcases hlx with ⟨_, rfl⟩ | ⟨hg, _⟩
      · simp [Suggestion.overall, hfw]
      · exact absurd hg (hplain _ (by simp)))
  refine ⟨rs, r1, by rw [h2, r2], fun gs hgs g hg u hu => ?_⟩
  have key := r3 gs hgs g hg u hu
  by_cases hres : Reserved u.1.2
  · have hno : ∀ k ∈ kss.flatten, k.2.1 ≠ u.1.2 := by
      intro k hkm e
      obtain ⟨args, hnamed, hload⟩ := hfiles.1
      have hadds := hload.words
      unfold sourcesOf at hadds
      rw [hnamed.resources, hnamed.lm] at hadds
      obtain ⟨a, ham, ea⟩ := gives_variant hadds hk k hkm
      exact hr a ham (by rw [ea, e]; exact hres)
    exact ⟨fun k hkm e _ => absurd e (hno k hkm), fun ho => by
      obtain ⟨k, hkm, e, _⟩ := ho.error
      exact absurd e (hno k hkm)⟩
  · exact key hres

/-! ### Example -/

/-- `search --alphabet a --errors e --lexicon l --variants v --max-ngram-order 1 --max-matches 0
--score-threshold 0.0 --cutoff-threshold 0.0` -/
def exSearchK : CommandLine :=
  { sub := .search, debug := none
    given := [(.alphabet, ['a']), (.errors, ['e']), (.lexicon, ['l']), (.variants, ['v']), (.maxNgramOrder, ['1']),
      (.maxMatches, ['0']), (.scoreThreshold, "0.0".toList), (.cutoffThreshold, "0.0".toList)] }

/-- A search in texts with `bb`, which is an error for `b`. -/
example : ∃ rs : List (List (List ((Nat × List Char) × List (List Char × Rat)))),
    List.Forall₂ (TextWords exText.isAlpha exSearchK) [[some "ab".toList], exToolR.stdin]
      (rs.map (List.map (List.map Prod.fst))) ∧
    exToolR.main exSearchK [['q'], ['-']] = .ok (.output (rs.flatMap (textPrinted exToolR)) []) ∧
    ∀ gs ∈ rs, ∀ g ∈ gs, ∀ u ∈ g, u.1.2 = "bb".toList →
      (∃ v ∈ u.2, v.1 = ['b'] ∧ 1 / 2 ≤ v.2) ∧ ∀ v ∈ u.2, v.1 ≠ "bb".toList := by
  obtain ⟨entries, e1, e2, _⟩ := read_alphabet_entries (isSpace := exToolR.load.isSpace) rfl []
    [some "a\tA".toList, some ['b']]
  have he : entries = [["a".toList, "A".toList], ["b".toList]] := by
    rw [List.nil_append] at e2
    rw [← e2]
    decide
  rw [he] at e1
  have hl := exLoadableQuery
  obtain ⟨rs, h1, h2, h3⟩ := errors_corrected_in_text (x := exToolR) (c := exSearchK) ex_noSemicolon ex_pos ex_marks rfl
    rfl (accepted_of (by decide) (by decide)) rfl
    (by
      have : ∀ o ∈ [OptName.json, .outputLexmatch, .lm, .contextrules, .confusables], ∀ g ∈ exSearchK.given, g.1 ≠ o := by
        decide
      exact fun o ho => not_given (this o ho))
    (as := exAdded.take 3)
    ⟨⟨{ exArgs with lm := [], confusables := [] }, by constructor <;> decide,
      ⟨hl.alphabet, hl.words, hl.sources, hl.spaces, hl.freqs, fun f hf => (by cases hf), hl.rules⟩⟩, by decide⟩
    (exUsableNumbers (accepted_of (by decide) (by decide)) rfl (by decide +kernel) rfl
      (exSome exTextParams (by decide +kernel)) (.inl (by decide +kernel)))
    exWeightsM (by decide +kernel) (by decide +kernel) (by decide +kernel) (by decide +kernel) rfl
    (by decide) (by unfold Reserved; decide) (afile := ['a']) (by decide) rfl e1
    (kss := exLinksE) exGivesE
    (files := [['q'], ['-']]) (inputs := [[some "ab".toList], exToolR.stdin]) (inputsOf_iff.mp (by decide)) (by
      intro lines hl text ht b t hw
      have h1 := searchedIn_length ht
      obtain ⟨pre, post, e, _⟩ := hw
      have h2 : t.length ≤ text.length := by rw [e]; simp; omega
      have h3 : ((untilError lines).map fun l => l.length + 1).sum ≤ 30 := by
        simp only [List.mem_cons, List.not_mem_nil, or_false] at hl
        rcases hl with rfl | rfl <;> decide
      exact exShort30 rfl (by omega))
  refine ⟨rs, h1, h2, fun gs hgs g hg u hu eu => ?_⟩
  obtain ⟨g1, g2⟩ := h3 gs hgs g hg u hu
  rw [eu] at g1 g2
  obtain ⟨v, hv, f1, f2⟩ := g1 ("b".toList, "bb".toList, 1 / 2) (by decide +kernel) rfl (by decide)
  exact ⟨⟨v, hv, f1, f2⟩, g2 ⟨⟨("b".toList, "bb".toList, 1 / 2), by decide +kernel, rfl, by decide⟩, by decide +kernel,
    by decide +kernel⟩⟩

/-- What is printed: `b` for the error `bb`, and not `bb`. -/
example : exToolR.main exSearchK [['q'], ['-']] = .ok (.output
    ("ab\t0:2\tab\t1\t\tb\t0.5\t\tba\t0.5\t\tab\t0.5\t\nab\t0:2\tab\t1\t\tb\t0.5\t\tba\t0.5\t\tab\t0.5\t\n".toList ++
      "b\t3:4\tb\t1\t\nbb\t5:7\tb\t0.5\t\n".toList) []) := by
  decide +kernel

end Verif.Props
