import Verif.Props.DividedAll
import Verif.Props.Document

/-!
# What queries and searches with all kinds of resources write in JSON (C103, C104)
-/
namespace Verif.Props

open Verif.Spec Verif.Model Verif.Lemmas

/-- Objects for variants are objects for the suggestions they stand for. -/
theorem objects_of {α : Type} {A : α → Json → Prop} {R : VariantResult → α → Prop}
    {V : VariantResult → Json → Prop} (hR : ∀ v u, R v u → ∀ j, V v j → A u j) {vs : List VariantResult}
    {us : List α} (h : List.Forall₂ R vs us) {js : List Json} (hj : List.Forall₂ V vs js) :
    List.Forall₂ A us js := by
  induction h generalizing js with
  | nil => cases hj; exact .nil
  | cons h _ ih =>
    cases hj with
    | cons h1 h2 => exact .cons (hR _ _ h _ h1) (ih h2)

/-- The object for a match without tags. -/
theorem searchObject_untagged {x : ToolExt} {c : CommandLine} {L : Loaded} {p : TextParams} {a : Match}
    {j : Json} (h : SearchObject x c L p a j) (hlast : a.last = a.first + byteLen a.text) (ht : a.tag = [])
    {vs : List VariantResult} (hv : a.variants = some vs) :
    ∃ l js, Listed vs a.selected l ∧ List.Forall₂ (VariantObject x c L p) l js ∧
      j = placeObject a.first a.text js := by
  obtain ⟨tags, vars, h1, h2, rfl⟩ := h
  rw [hv] at h2
  obtain ⟨l, js, g1, g2, rfl⟩ := h2
  rcases h1 with ⟨_, rfl⟩ | ⟨h1, _⟩
  · refine ⟨l, js, g1, g2, ?_⟩
    rw [hlast]
    rfl
  · exact absurd ht h1

/-! ## C103 -/

/-- **C103**: with lexicons, variant lists, error lists and confusables, with `--json` and at most one input, a
query ends normally and writes a JSON document, with one reading: an array with an object for each line of the
input, in order, with the line and what is suggested for it.  The lines must not be empty, nor too long; the
lists must not have reserved words as references; and the files and the input must not have characters that
need escapes, except for quotes. -/
theorem query_writes_suggestions {x : ToolExt} (hf : ∀ s, ';' ∈ s → x.parseF32 s = none)
    (hpos : StrictMono x.pos) (hmarks : MarksOk x.load.isSpace) (hb : x.load.isSpace '\\' = false)
    {c : CommandLine} (hc : Accepted c) (hsub : c.sub = .query) (hj : Given c .json)
    {as : List (List (List Char × Option Nat × VocabParams))} {w : Weights} {p : TextParams}
    (hfiles : UsableFiles x c as) (hnum : UsableNumbers x c w p) (hclean : CleanFiles x c)
    (hfw : 0 ≤ p.variant.freqWeight)
    {afile : List Char} {alines : List (Option (List Char))} {alphabet : Alphabet}
    (ha : (.alphabet, afile) ∈ c.given) (hal : x.load.file afile = some alines)
    (hae : List.Forall₂ (AlphabetLine x.load.isSpace) (nonEmpty alines) alphabet)
    {kss : List (List (List Char × List Char × Rat))}
    (hk : List.Forall₂ (Gives x.load) (sourcesGiven c) kss) (hrefs : ∀ k ∈ kss.flatten, ¬ Reserved k.1)
    {cs : List Confusable} (hcs : ConfusablesGiven x c cs)
    {early : Bool} (hearly : early = true ↔ Given c .earlyConfusables)
    {files : List (List Char)}
    {lines : List (Option (List Char))} (hin : InputsOf x files [lines])
    (hread : p.singleThread = false → none ∉ lines)
    (hlines : ∀ l, some l ∈ lines → l ≠ [] ∧ ShortEnough x.text alphabet p.variant l ∧ Plain l) :
    ∃ s js, List.Forall₂ (QueryAnswer x c alphabet (lexisFrom (sourcesGiven c) as kss)
        ⟨w, cs, early, x.editScript⟩ as p.variant) (readable lines) js ∧
      Document s (.arr js) ∧ x.main c files = .ok (.output s []) := by
  obtain ⟨args, L, asked, _, _, _, _, _, hcfg, _, _, find⟩ := resources_listed hmarks hb hc hfiles hnum hfw ha hal
    hae hk hrefs hcs hearly
  obtain ⟨_, L', _, _, _, hL', _, hlex, _⟩ := usable_loads hmarks hfiles
  cases loadedFor_unique hpos hc asked.loaded hL'
  obtain ⟨s, hs⟩ := query_total_of (x := x) (c := c) (inputs := [lines]) hlex hnum.nonzero
    (fun h l hl => by rw [List.mem_singleton.mp hl]; exact hread h) (fun ls hls l hl => by
      rw [List.mem_singleton.mp hls] at hl
      obtain ⟨vs, us, h1, _⟩ := find l (hlines l hl).1 (hlines l hl).2.1
      rw [hcfg]
      exact ⟨vs, h1⟩)
  obtain ⟨_, js, g1, g2⟩ := query_document hj hclean asked.loaded (fun l hl => (hlines l hl).2.2) hs
  refine ⟨s, js, ?_, g1, ?_⟩
  · refine (forall₂_mem_left g2).imp ?_
    rintro l j ⟨⟨vs, k1, js, k2, rfl⟩, hl⟩
    have hl : some l ∈ lines := by simpa [readable] using hl
    obtain ⟨vs', us, h1, h2, h3⟩ := find l (hlines l hl).1 (hlines l hl).2.1
    rw [hcfg, h1] at k1
    cases k1
    exact ⟨us, js, h2, objects_of (fun _ _ h => h.2.2) h3 k2, rfl⟩
  · rw [asked_main hf hpos hc (by rw [hsub]; decide) (by rw [hsub]; decide) asked]
    unfold ToolExt.modes
    rw [inputsOf_iff.mpr hin, hsub]
    exact hs

/-! ## C104 -/

/-- **C104**: with lexicons, variant lists, error lists and confusables (no language model and no context
rules), with `--json` and at most one input, a search for stretches of several words ends normally and writes a
JSON document, with one reading: an array with an object for each stretch of a division of the texts at least
cost, with its text, its offsets and what is suggested for it, what was chosen first.  The conditions are those
of C101 and of C103, and lines are joined by spaces. -/
theorem search_writes_suggestions {x : ToolExt} (hf : ∀ s, ';' ∈ s → x.parseF32 s = none)
    (hpos : StrictMono x.pos) (hmarks : MarksOk x.load.isSpace) (hb : x.load.isSpace '\\' = false)
    (hsp : x.text.isAlpha ' ' = false)
    {c : CommandLine} (hc : Accepted c) (hsub : c.sub = .search) (hj : Given c .json)
    (hplain : ∀ o ∈ [OptName.retainLinebreaks, .lm, .contextrules], ¬ Given c o)
    {as : List (List (List Char × Option Nat × VocabParams))} {w : Weights} {p : TextParams}
    (hfiles : UsableFiles x c as) (hnum : UsableNumbers x c w p) {u : Rat} {d : Nat → Rat}
    (hx : Reckons x.text p.variant.freqWeight u d) (hwt : WeightsOk x.text.f64 w)
    (hclean : CleanFiles x c)
    (hfw : 0 ≤ p.variant.freqWeight) (hn : 2 ≤ p.maxNgram) (hseq : 1 ≤ p.maxSeq)
    (hwords : as.flatten ≠ []) (hr : ∀ a ∈ as.flatten, ¬ Reserved a.1)
    {afile : List Char} {alines : List (Option (List Char))} {alphabet : Alphabet}
    (ha : (.alphabet, afile) ∈ c.given) (hal : x.load.file afile = some alines)
    (hae : List.Forall₂ (AlphabetLine x.load.isSpace) (nonEmpty alines) alphabet)
    {kss : List (List (List Char × List Char × Rat))}
    (hk : List.Forall₂ (Gives x.load) (sourcesGiven c) kss)
    (hks : ∀ k ∈ kss.flatten, 0 ≤ k.2.2 ∧ k.2.2 ≤ 1)
    {cs : List Confusable} (hcs : ConfusablesGiven x c cs) (hmild : MildConfusables x.text.f64 cs)
    {early : Bool} (hearly : early = true ↔ Given c .earlyConfusables)
    {files : List (List Char)}
    {lines : List (Option (List Char))} (hin : InputsOf x files [lines])
    (hlines : ∀ text, SearchedIn c lines text → ShortRuns x.text alphabet p.variant p.maxNgram text)
    (hchars : ∀ l, some l ∈ lines → Plain l) :
    ∃ found, (∀ t, t ≠ [] → ShortEnough x.text alphabet p.variant t →
        Suggestions x.text alphabet (lexisFrom (sourcesGiven c) as kss) ⟨w, cs, early, x.editScript⟩
          p.variant t (found t)) ∧
      ∃ s perLine gs stretches js, (perLine = true ↔ Given c .perLine) ∧
        Groups perLine (untilError lines) gs ∧
        List.Forall₂ (fun g rs => CheapestIn x.text (slack u d) Suggestion.score
          (Suggestion.overall x.text.f64 p.variant.freqWeight) found p.maxNgram ([' '].intercalate g) rs)
          gs stretches ∧
        List.Forall₂ (StretchAnswer x c as p.variant found) stretches.flatten js ∧
        Document s (.arr js) ∧ x.main c files = .ok (.output s []) := by
  obtain ⟨L, asked, hinv, hlm, hidx, hrb, hcfg, hlinks, find⟩ := resources_searchable hmarks hb hc
    (fun o ho => hplain o (List.mem_cons_of_mem _ ho)) hfiles hnum hfw hwords hr ha hal hae hk hcs hearly
  obtain ⟨_, L', _, _, _, hL', _, hlex, hrules, hbook, _⟩ := usable_loads hmarks hfiles
  cases loadedFor_unique hpos hc asked.loaded hL'
  obtain ⟨q, hq, hqu, hqn⟩ := hnum.params
  have hu : p.unicodeoffsets = false := by rw [hqn.offsets, hqu]
  have hret := hplain .retainLinebreaks (by simp)
  obtain ⟨found, hfound⟩ := suggested_function find
  refine ⟨found, fun t h1 h2 => (hfound t h1 h2).1, ?_⟩
  have hscore : ∀ t vs, L.vm.findVariants x.text.toExt (x.config c L w).toConfig p.variant t = .ok vs →
      ∀ v ∈ vs, 0 ≤ v.score x.text.f64 p.variant.freqWeight ∧ v.score x.text.f64 p.variant.freqWeight ≤ 191 / 100 := by
    intro t vs hv v hm
    have hconf : L.confusables = cs := congrArg Config.confusables hcfg
    refine variant_scores_le (cfg := x.config c L w) hx.close64 hx.unit hx.weight hwt
      (show MildConfusables x.text.f64 L.confusables from hconf ▸ hmild) ?_ hfw t vs hv v hm
    intro v hv t s ht
    obtain ⟨k, hk', rfl⟩ := hlinks v hv t s ht
    exact hks k hk'
  have one : ∀ text, SearchedIn c lines text → ∃ ms,
      L.vm.findAllMatches x.text (x.config c L w) p text = .ok ms ∧
      CheapestIn x.text (slack u d) Suggestion.score (Suggestion.overall x.text.f64 p.variant.freqWeight) found p.maxNgram
        text (ms.map fun m => (m.first, m.text, m.selected)) ∧
      ∀ m ∈ ms, ∀ j, SearchObject x c L p m j →
        StretchAnswer x c as p.variant found (m.first, m.text, m.selected) j := by
    intro text ht
    obtain ⟨ms, h1, h2, h3⟩ := text_divides (cfg := x.config c L w) hsp hx hnum.nonzero
      hn hseq hu hinv hlm hrb hidx hscore (dist := Suggestion.score)
      (score := Suggestion.overall x.text.f64 p.variant.freqWeight) (fun v u h => by
        refine ⟨h.1.score, ?_⟩
        unfold VariantResult.score Suggestion.overall
        rw [h.1.score, h.1.freq]) (fun t h1 h2 => (hfound t h1 h2).2) (hlines text ht)
    refine ⟨ms, h1, h2, fun m hm j hmj => ?_⟩
    obtain ⟨e1, e2, vs, e3, e4⟩ := h3 m hm
    obtain ⟨l, js, g1, g2, g3⟩ := searchObject_untagged hmj e1 e2 e3
    obtain ⟨l', k1, k2⟩ := listed_map e4 g1
    exact ⟨l', js, k1, objects_of (fun _ _ h => h.2.2) k2 g2, g3⟩
  obtain ⟨s, hs⟩ := search_total_of (x := x) (c := c) (inputs := [lines]) hsub hsp hx.solver.ok hlex hrules hbook
    hnum.nonzero (fun ls hls t ht => by
      rw [List.mem_singleton.mp hls] at ht
      obtain ⟨ms, h1, _⟩ := one t ht
      exact ⟨ms, h1⟩)
  obtain ⟨_, perLine, gs, mss, js, g1, g2, g3, g4, g5⟩ := search_document hsub hj hret hclean hsp hx.solver.ok
    asked.loaded hrules hu hchars hs
  have each : ∀ g ∈ gs, ∀ ms, L.vm.findAllMatches x.text (x.config c L w) p ([' '].intercalate g) = .ok ms →
      CheapestIn x.text (slack u d) Suggestion.score (Suggestion.overall x.text.f64 p.variant.freqWeight) found p.maxNgram
        ([' '].intercalate g) (ms.map fun m => (m.first, m.text, m.selected)) ∧
      ∀ m ∈ ms, ∀ j, SearchObject x c L p m j →
        StretchAnswer x c as p.variant found (m.first, m.text, m.selected) j := by
    intro g hg ms hms
    obtain ⟨ms', h1, h2⟩ := one _ ⟨perLine, ' ', gs, g, g1, .inr ⟨hret, rfl⟩, g2, hg, rfl⟩
    rw [hms] at h1
    cases h1
    exact h2
  refine ⟨s, perLine, gs, mss.map (List.map fun m => (m.first, m.text, m.selected)), js, g1, g2, ?_, ?_, g4, ?_⟩
  · rw [List.forall₂_map_right_iff]
    exact (forall₂_mem_left g3).imp fun g ms h => (each g h.2 ms h.1).1
  · rw [← List.map_flatten, List.forall₂_map_left_iff]
    refine (forall₂_mem_left g5).imp ?_
    rintro m j ⟨hmj, hm⟩
    obtain ⟨ms, hms, hm⟩ := List.mem_flatten.mp hm
    obtain ⟨g, hg, h⟩ := mem_of_forall₂_right g3 hms
    exact (each g hg ms h).2 m hm j hmj
  · rw [asked_main hf hpos hc (by rw [hsub]; decide) (by rw [hsub]; decide) asked]
    unfold ToolExt.modes
    rw [inputsOf_iff.mpr hin, hsub]
    exact hs

/-- **C104**: with lexicons, variant lists, error lists and confusables (no language model and no context
rules), with `--json` and at most one input, a search for single words ends normally and writes a JSON
document, with one reading: an array with an object for each word of the texts, in order, with the word, its
offsets and what is suggested for it. -/
theorem search_writes_word_suggestions {x : ToolExt} (hf : ∀ s, ';' ∈ s → x.parseF32 s = none)
    (hpos : StrictMono x.pos) (hmarks : MarksOk x.load.isSpace) (hb : x.load.isSpace '\\' = false)
    (hsp : x.text.isAlpha ' ' = false) (hsolve : SolverOk x.text.solve)
    {c : CommandLine} (hc : Accepted c) (hsub : c.sub = .search) (hj : Given c .json)
    (hplain : ∀ o ∈ [OptName.retainLinebreaks, .lm, .contextrules], ¬ Given c o)
    {as : List (List (List Char × Option Nat × VocabParams))} {w : Weights} {p : TextParams}
    (hfiles : UsableFiles x c as) (hnum : UsableNumbers x c w p) (hclean : CleanFiles x c)
    (hfw : 0 ≤ p.variant.freqWeight) (hn : p.maxNgram = 1)
    (hwords : as.flatten ≠ []) (hr : ∀ a ∈ as.flatten, ¬ Reserved a.1)
    {afile : List Char} {alines : List (Option (List Char))} {alphabet : Alphabet}
    (ha : (.alphabet, afile) ∈ c.given) (hal : x.load.file afile = some alines)
    (hae : List.Forall₂ (AlphabetLine x.load.isSpace) (nonEmpty alines) alphabet)
    {kss : List (List (List Char × List Char × Rat))}
    (hk : List.Forall₂ (Gives x.load) (sourcesGiven c) kss)
    {cs : List Confusable} (hcs : ConfusablesGiven x c cs)
    {early : Bool} (hearly : early = true ↔ Given c .earlyConfusables)
    {files : List (List Char)}
    {lines : List (Option (List Char))} (hin : InputsOf x files [lines])
    (hlines : ∀ text, SearchedIn c lines text → ∀ b t, WordAt x.text.isAlpha text b t →
      ShortEnough x.text alphabet p.variant t)
    (hchars : ∀ l, some l ∈ lines → Plain l) :
    ∃ s perLine gs words js, (perLine = true ↔ Given c .perLine) ∧
      Groups perLine (untilError lines) gs ∧
      List.Forall₂ (fun g ws => WordsOf x.text.isAlpha ([' '].intercalate g) ws) gs words ∧
      List.Forall₂ (WordAnswer x c alphabet (lexisFrom (sourcesGiven c) as kss) ⟨w, cs, early, x.editScript⟩ as
        p.variant) words.flatten js ∧
      Document s (.arr js) ∧ x.main c files = .ok (.output s []) := by
  obtain ⟨L, asked, hinv, hlm, hidx, hrb, hcfg, hlinks, find⟩ := resources_searchable hmarks hb hc
    (fun o ho => hplain o (List.mem_cons_of_mem _ ho)) hfiles hnum hfw hwords hr ha hal hae hk hcs hearly
  obtain ⟨_, L', _, _, _, hL', _, hlex, hrules, hbook, _⟩ := usable_loads hmarks hfiles
  cases loadedFor_unique hpos hc asked.loaded hL'
  obtain ⟨q, hq, hqu, hqn⟩ := hnum.params
  have hu : p.unicodeoffsets = false := by rw [hqn.offsets, hqu]
  have hret := hplain .retainLinebreaks (by simp)
  have hne : ∀ {text b t}, WordAt x.text.isAlpha text b t → t ≠ [] := fun h => by
    obtain ⟨_, _, _, _, h, _⟩ := h; exact h
  have one : ∀ text, SearchedIn c lines text → ∃ ms,
      L.vm.findAllMatches x.text (x.config c L w) p text = .ok ms ∧
      WordsOf x.text.isAlpha text (ms.map fun m => (m.first, m.text)) ∧
      ∀ m ∈ ms, ∀ j, SearchObject x c L p m j →
        WordAnswer x c alphabet (lexisFrom (sourcesGiven c) as kss) ⟨w, cs, early, x.editScript⟩ as p.variant
          (m.first, m.text) j := by
    intro text ht
    obtain ⟨ms, h1, h2, h3⟩ := text_words (cfg := x.config c L w) hsp hn hu hlm hrb hidx (text := text)
      (fun b t h => by
        obtain ⟨vs, _, h1, _⟩ := find t (hne h) (hlines text ht b t h)
        exact ⟨vs, h1⟩)
    refine ⟨ms, h1, h2, fun m hm j hmj => ?_⟩
    obtain ⟨e1, e2, e3, vs, e4, e5⟩ := h3 m hm
    have hw := (h2.mem _ _).mp (List.mem_map.mpr ⟨m, hm, rfl⟩)
    obtain ⟨vs', us, k1, k2, k3⟩ := find m.text (hne hw) (hlines text ht _ _ hw)
    rw [e5] at k1
    cases k1
    obtain ⟨l, js, g1, g2, g3⟩ := searchObject_untagged hmj e1 e2 e4
    rw [e3] at g1
    obtain rfl := listed_first g1
    exact ⟨us, js, k2, objects_of (fun _ _ h => h.2.2) k3 g2, g3⟩
  obtain ⟨s, hs⟩ := search_total_of (x := x) (c := c) (inputs := [lines]) hsub hsp hsolve hlex hrules hbook
    hnum.nonzero (fun ls hls t ht => by
      rw [List.mem_singleton.mp hls] at ht
      obtain ⟨ms, h1, _⟩ := one t ht
      exact ⟨ms, h1⟩)
  obtain ⟨_, perLine, gs, mss, js, g1, g2, g3, g4, g5⟩ := search_document hsub hj hret hclean hsp hsolve
    asked.loaded hrules hu hchars hs
  have each : ∀ g ∈ gs, ∀ ms, L.vm.findAllMatches x.text (x.config c L w) p ([' '].intercalate g) = .ok ms →
      WordsOf x.text.isAlpha ([' '].intercalate g) (ms.map fun m => (m.first, m.text)) ∧
      ∀ m ∈ ms, ∀ j, SearchObject x c L p m j →
        WordAnswer x c alphabet (lexisFrom (sourcesGiven c) as kss) ⟨w, cs, early, x.editScript⟩ as p.variant
          (m.first, m.text) j := by
    intro g hg ms hms
    obtain ⟨ms', h1, h2⟩ := one _ ⟨perLine, ' ', gs, g, g1, .inr ⟨hret, rfl⟩, g2, hg, rfl⟩
    rw [hms] at h1
    cases h1
    exact h2
  refine ⟨s, perLine, gs, mss.map (List.map fun m => (m.first, m.text)), js, g1, g2, ?_, ?_, g4, ?_⟩
  · rw [List.forall₂_map_right_iff]
    exact (forall₂_mem_left g3).imp fun g ms h => (each g h.2 ms h.1).1
  · rw [← List.map_flatten, List.forall₂_map_left_iff]
    refine (forall₂_mem_left g5).imp ?_
    rintro m j ⟨hmj, hm⟩
    obtain ⟨ms, hms, hm⟩ := List.mem_flatten.mp hm
    obtain ⟨g, hg, h⟩ := mem_of_forall₂_right g3 hms
    exact (each g hg ms h).2 m hm j hmj
  · rw [asked_main hf hpos hc (by rw [hsub]; decide) (by rw [hsub]; decide) asked]
    unfold ToolExt.modes
    rw [inputsOf_iff.mpr hin, hsub]
    exact hs

/-! ### Examples -/

/-- `query --json --alphabet a --errors e --lexicon l --variants v --confusables c --early-confusables
--output-lexmatch --score-threshold 0.0 --cutoff-threshold 0.0` -/
def exQueryEJ : CommandLine := { exQueryE with given := (.json, []) :: exQueryE.given }

theorem exAlphabetE : List.Forall₂ (AlphabetLine exToolR.load.isSpace)
    (nonEmpty [some "a\tA".toList, some ['b']]) [["a".toList, "A".toList], ["b".toList]] := by
  obtain ⟨entries, e1, e2, _⟩ := read_alphabet_entries (isSpace := exToolR.load.isSpace) rfl []
    [some "a\tA".toList, some ['b']]
  have he : entries = [["a".toList, "A".toList], ["b".toList]] := by
    rw [List.nil_append] at e2
    rw [← e2]
    decide
  rw [he] at e1
  exact e1

theorem exPlainE : ∀ l, some l ∈ exToolR.stdin → Plain l :=
  exLines (.inl ⟨rfl, rfl⟩) _ (List.mem_singleton.mpr rfl)

/-- Two lines on standard input. -/
example : ∃ s js, List.Forall₂ (QueryAnswer exToolR exQueryEJ [["a".toList, "A".toList], ["b".toList]]
        (lexisFrom [.errors ['e'], .lexicon ['l'], .variants ['v']] (exAdded.take 3) exLinksE)
        ⟨⟨1 / 2, 1 / 8, 1 / 8, 1 / 8, 1 / 8⟩, exLoaded.confusables, true, exToolR.editScript⟩
        (exAdded.take 3) (exNumbers exQueryEJ).variant) ["ab b".toList, "bb".toList] js ∧
      Document s (.arr js) ∧ exToolR.main exQueryEJ [] = .ok (.output s []) := by
  refine query_writes_suggestions (x := exToolR) (c := exQueryEJ) (lines := exToolR.stdin) ex_noSemicolon ex_pos
    ex_marks rfl
    (accepted_of (by decide) (by decide)) rfl ⟨[], by decide⟩
    ⟨⟨{ exArgs with lm := [] }, by constructor <;> decide, exLoadableQuery⟩, by decide⟩
    (exUsableNumbers (accepted_of (by decide) (by decide)) rfl (by decide +kernel) rfl
      (exSome exTextParams (by decide +kernel)) (.inl (by decide +kernel)))
    (cleanFiles_of (by decide +kernel) (by decide +kernel) (by decide +kernel) exTool_numbers)
    (by decide +kernel) (afile := ['a']) (by decide) rfl exAlphabetE
    (kss := exLinksE) exGivesE (by unfold Reserved; decide) (exConfusablesE (by decide))
    (early := true) (by simp only [true_iff]; exact ⟨[], by decide⟩)
    (.inl ⟨rfl, rfl⟩) (fun _ => by decide) ?_
  intro l hl
  refine ⟨?_, exShort30 rfl ?_, exPlainE l hl⟩ <;>
  · simp only [exToolR, List.mem_cons, Option.some.injEq, List.not_mem_nil, or_false] at hl
    rcases hl with rfl | rfl <;> decide

/-- What is written: `b` was found by the error `bb`. -/
example : exToolR.main exQueryEJ [] = .ok (.output
    ("[\n    { \"input\": \"ab b\", \"variants\": [ \n".toList ++
      "        { \"text\": \"ab\", \"score\": 0.5, \"dist_score\": 0.5, \"freq_score\": 1, ".toList ++
      "\"lexicons\": [ \"l\", \"v\" ] },\n".toList ++
      "        { \"text\": \"b\", \"score\": 0.5, \"dist_score\": 0.5, \"freq_score\": 0.5, ".toList ++
      "\"via\": \"bb\", \"lexicons\": [ \"e\", \"l\" ] }\n    ] }\n".toList ++
      "    ,{ \"input\": \"bb\", \"variants\": [ \n".toList ++
      "        { \"text\": \"b\", \"score\": 0.5, \"dist_score\": 0.5, \"freq_score\": 1, ".toList ++
      "\"lexicons\": [ \"e\", \"l\" ] }\n    ] }\n]\n".toList) []) := by
  decide +kernel

/-- `search --json --alphabet a --errors e --lexicon l --variants v --confusables c --early-confusables
--output-lexmatch --max-ngram-order 2 --score-threshold 0.0 --cutoff-threshold 0.0` -/
def exSearchEJ : CommandLine := { exSearchE with given := (.json, []) :: exSearchE.given }

theorem exSearchedE {c : CommandLine} {text : List Char} (h : SearchedIn c exToolR.stdin text) :
    text.length ≤ 30 := by
  have h1 := searchedIn_length h
  have h2 : ((untilError exToolR.stdin).map fun l => l.length + 1).sum ≤ 30 := by decide
  omega

/-- The two lines are joined. -/
example : ∃ found, (∀ t, t ≠ [] → ShortEnough exText [["a".toList, "A".toList], ["b".toList]]
        (exNumbers exSearchEJ).variant t →
      Suggestions exText [["a".toList, "A".toList], ["b".toList]]
        (lexisFrom [.errors ['e'], .lexicon ['l'], .variants ['v']] (exAdded.take 3) exLinksE)
        ⟨⟨1 / 2, 1 / 8, 1 / 8, 1 / 8, 1 / 8⟩, exLoaded.confusables, true, exToolR.editScript⟩
        (exNumbers exSearchEJ).variant t (found t)) ∧
    ∃ s perLine gs stretches js, (perLine = true ↔ Given exSearchEJ .perLine) ∧
      Groups perLine (untilError exToolR.stdin) gs ∧
      List.Forall₂ (fun g rs => CheapestIn exText (fun _ => 0) Suggestion.score
        (Suggestion.overall exText.f64 (exNumbers exSearchEJ).variant.freqWeight) found
        (exNumbers exSearchEJ).maxNgram ([' '].intercalate g) rs) gs stretches ∧
      List.Forall₂ (StretchAnswer exToolR exSearchEJ (exAdded.take 3) (exNumbers exSearchEJ).variant found)
        stretches.flatten js ∧
      Document s (.arr js) ∧ exToolR.main exSearchEJ [] = .ok (.output s []) := by
  rw [← slack_zero]
  refine search_writes_suggestions (x := exToolR) (c := exSearchEJ) (lines := exToolR.stdin) ex_noSemicolon ex_pos
    ex_marks rfl rfl
    (accepted_of (by decide) (by decide)) rfl ⟨[], by decide⟩
    (by
      have : ∀ o ∈ [OptName.retainLinebreaks, .lm, .contextrules], ∀ g ∈ exSearchEJ.given, g.1 ≠ o := by decide
      exact fun o ho => not_given (this o ho))
    ⟨⟨{ exArgs with lm := [] }, by constructor <;> decide, exLoadableQuery⟩, by decide⟩
    (exUsableNumbers (accepted_of (by decide) (by decide)) rfl (by decide +kernel) rfl
      (exSome exTextParams (by decide +kernel)) (.inl (by decide +kernel)))
    (exText_reckons _) ?_ (cleanFiles_of (by decide +kernel) (by decide +kernel) (by decide +kernel) exTool_numbers)
    (by decide +kernel) (show 2 ≤ 2 by decide) (by decide +kernel)
    (by decide) (by unfold Reserved; decide) (afile := ['a']) (by decide) rfl exAlphabetE
    (kss := exLinksE) exGivesE (by decide +kernel) (exConfusablesE (by decide)) ?_
    (early := true) (by simp only [true_iff]; exact ⟨[], by decide⟩)
    (.inl ⟨rfl, rfl⟩) ?_ exPlainE
  · constructor <;> first | exact ⟨by norm_num, rfl⟩ | decide +kernel
  · constructor <;> decide +kernel
  intro text ht segs r hs hr _ _
  have h1 := exSearchedE ht
  have h2 : (stretch r).length ≤ text.length := by
    obtain ⟨a, b, e⟩ := hr
    refine le_trans (stretch_prefix_flat r).length_le ?_
    rw [← hs.text_eq, ← e, flat_append, flat_append]
    simp
    omega
  exact exShort30 rfl (by omega)

/-- `search --json --alphabet a --errors e --lexicon l --variants v --confusables c --max-ngram-order 1
--stop-exact --per-line` -/
def exSearchE1J : CommandLine := { exSearchE1 with given := (.json, []) :: exSearchE1.given }

/-- The words of the two lines. -/
example : ∃ s perLine gs words js, (perLine = true ↔ Given exSearchE1J .perLine) ∧
      Groups perLine (untilError exToolR.stdin) gs ∧
      List.Forall₂ (fun g ws => WordsOf exText.isAlpha ([' '].intercalate g) ws) gs words ∧
      List.Forall₂ (WordAnswer exToolR exSearchE1J [["a".toList, "A".toList], ["b".toList]]
        (lexisFrom [.errors ['e'], .lexicon ['l'], .variants ['v']] (exAdded.take 3) exLinksE)
        ⟨⟨1 / 2, 1 / 8, 1 / 8, 1 / 8, 1 / 8⟩, exLoaded.confusables, false, exToolR.editScript⟩
        (exAdded.take 3) (exNumbers exSearchE1J).variant) words.flatten js ∧
      Document s (.arr js) ∧ exToolR.main exSearchE1J [] = .ok (.output s []) := by
  refine search_writes_word_suggestions (x := exToolR) (c := exSearchE1J) (lines := exToolR.stdin) ex_noSemicolon
    ex_pos ex_marks rfl rfl refSolver_ok
    (accepted_of (by decide) (by decide)) rfl ⟨[], by decide⟩
    (by
      have : ∀ o ∈ [OptName.retainLinebreaks, .lm, .contextrules], ∀ g ∈ exSearchE1J.given, g.1 ≠ o := by decide
      exact fun o ho => not_given (this o ho))
    ⟨⟨{ exArgs with lm := [] }, by constructor <;> decide, exLoadableQuery⟩, by decide⟩
    (exUsableNumbers (accepted_of (by decide) (by decide)) rfl (by decide +kernel) rfl
      (exSome exTextParams (by decide +kernel)) (.inr (by decide +kernel)))
    (cleanFiles_of (by decide +kernel) (by decide +kernel) (by decide +kernel) exTool_numbers)
    (by decide +kernel) rfl
    (by decide) (by unfold Reserved; decide) (afile := ['a']) (by decide) rfl exAlphabetE
    (kss := exLinksE) exGivesE (exConfusablesE (by decide))
    (early := false) (by simp only [Bool.false_eq_true, false_iff]; exact not_given (by decide))
    (.inl ⟨rfl, rfl⟩) ?_ exPlainE
  intro text ht b t hw
  have h1 := exSearchedE ht
  obtain ⟨pre, post, e, _⟩ := hw
  have h2 : t.length ≤ text.length := by rw [e]; simp; omega
  exact exShort30 rfl (by omega)

/-- What is written. -/
example : exToolR.main exSearchE1J [] = .ok (.output
    ("[\n    { \"input\": \"ab\", \"begin\": 0, \"end\": 2, \"variants\": [ \n".toList ++
      "        { \"text\": \"ab\", \"score\": 1, \"dist_score\": 1, \"freq_score\": 1 }\n    ] }\n".toList ++
      "    ,{ \"input\": \"b\", \"begin\": 3, \"end\": 4, \"variants\": [ \n".toList ++
      "        { \"text\": \"b\", \"score\": 1, \"dist_score\": 1, \"freq_score\": 1 }\n    ] }\n\n".toList ++
      "    ,{ \"input\": \"bb\", \"begin\": 0, \"end\": 2, \"variants\": [ \n".toList ++
      "        { \"text\": \"b\", \"score\": 0.5, \"dist_score\": 0.5, \"freq_score\": 1, ".toList ++
      "\"via\": \"bb\" }\n    ] }\n]\n".toList) []) := by
  decide +kernel

end Verif.Props
