import Verif.Lemmas.Document
import Verif.Lemmas.JsonUnique
import Verif.Props.Cli
import Verif.Props.Printed

/-!
# C91: the JSON output of a run
-/
namespace Verif.Props

open Verif.Model Verif.Spec Verif.Lemmas

/-- **C91**: a text is a JSON document for at most one value. -/
theorem json_unique {j j' : Json} {w : List Char} (h : Elem j w) (h' : Elem j' w) : j = j' :=
  elem_unique h h'

theorem document_of {j : Json} {w : List Char} (h : Elem j w) : Document w j :=
  ⟨h, fun _ h' => elem_unique h' h⟩

theorem source_given {c : CommandLine} {args : LoadArgs}
    (h2 : args.resources = c.given.filterMap resourceOf)
    (h3 : args.lm = c.given.filterMap (fun g => if g.1 = .lm then some g.2 else none))
    {s : Source} (hs : s ∈ sourcesOf args) : ∃ o ∈ wordOptions, (o, s.name) ∈ c.given := by
  unfold sourcesOf at hs
  rcases List.mem_append.mp hs with hs | hs
  · obtain ⟨r, hr, rfl⟩ := List.mem_map.mp hs
    rw [h2] at hr
    obtain ⟨⟨o, f⟩, hg, e⟩ := List.mem_filterMap.mp hr
    cases o <;> simp only [resourceOf, reduceCtorEq, Option.some.injEq] at e <;> subst e <;>
      exact ⟨_, by decide, hg⟩
  · obtain ⟨f, hf, rfl⟩ := List.mem_map.mp hs
    rw [h3] at hf
    obtain ⟨⟨o, f'⟩, hg, e⟩ := List.mem_filterMap.mp hf
    simp only [Option.ite_none_right_eq_some, Option.some.injEq] at e
    obtain ⟨rfl, rfl⟩ := e
    exact ⟨.lm, by decide, hg⟩

theorem plain_of_chars {t : List Char} (h : ∀ ch ∈ t, Plain [ch]) : Plain t :=
  fun ch hc => h ch hc ch (by simp)

/-- With clean files, everything that is printed can be read back. -/
theorem printerOk_loaded {x : ToolExt} {c : CommandLine} {L : Loaded} (hL : LoadedFor x c L)
    (hclean : CleanFiles x c) (p : TextParams) : PrinterOk (x.printer c L p) := by
  obtain ⟨args, _, h2, h3, _, h5, h6⟩ := hL
  refine ⟨?_, ?_, ?_, hclean.numbers⟩
  · intro v hv
    rcases loaded_chars h6 hv with hr | ⟨s, hs, lines, l, hf, hl, hc⟩
    · rcases hr with e | e | e <;> rw [e] <;> (unfold Plain; decide)
    · obtain ⟨o, ho, hg⟩ := source_given h2 h3 hs
      refine plain_of_chars fun ch hch => ?_
      obtain ⟨g1, g2⟩ := hc ch hch
      exact (hclean.words o ho _ _ hg hf l hl ch g1).resolve_left g2
  · intro n hn
    obtain ⟨_, _, _, _, _, _, _, _, _, _, _, e⟩ := loaded_history h6
    have hn : n ∈ L.vm.lexicons := hn
    rw [e] at hn
    obtain ⟨s, hs, rfl⟩ := List.mem_map.mp hn
    obtain ⟨o, ho, hg⟩ := source_given h2 h3 hs
    exact hclean.names o ho _ hg
  · intro t ht
    obtain ⟨f, hf, lines, l, e, hl, hc⟩ := loaded_tags h6 ht
    rw [h5] at hf
    obtain ⟨⟨o, f'⟩, hg, e'⟩ := List.mem_filterMap.mp hf
    simp only [Option.ite_none_right_eq_some, Option.some.injEq] at e'
    obtain ⟨rfl, rfl⟩ := e'
    have key : ∀ ch ∈ t, Plain [ch] ∧ ch ≠ '"' := fun ch hch =>
      (hclean.rules _ _ hg e l hl ch (hc ch hch).1).resolve_left (hc ch hch).2
    exact ⟨plain_of_chars fun ch hch => (key ch hch).1, fun hq => (key _ hq).2 rfl⟩

theorem variantObject_iff {x : ToolExt} {c : CommandLine} (hlex : c.isPresent .outputLexmatch = true ↔
    Given c .outputLexmatch) {L : Loaded} {p : TextParams} {r : VariantResult} {j : Json} :
    ResultValue (x.printer c L p) r j ↔ VariantObject x c L p r j := by
  have hlm : (x.printer c L p).lexmatch = c.isPresent .outputLexmatch := rfl
  unfold ResultValue VariantObject
  constructor
  · rintro ⟨v, via, h1, h2, h3⟩
    refine ⟨v, via, _, h1, ?_, ?_, h3⟩
    · cases hv : r.via with
      | none => rw [hv] at h2; exact .inl ⟨rfl, h2⟩
      | some id =>
        rw [hv] at h2
        obtain ⟨u, g1, g2⟩ := h2
        exact .inr ⟨id, u, rfl, g1, g2⟩
    · rw [hlm]
      split
      · rename_i h; exact .inr ⟨hlex.mp h, rfl⟩
      · rename_i h; exact .inl ⟨fun hg => h (hlex.mpr hg), rfl⟩
  · rintro ⟨v, via, lex, h1, h2, h3, h4⟩
    refine ⟨v, via, h1, ?_, ?_⟩
    · rcases h2 with ⟨e, rfl⟩ | ⟨id, u, e, g1, rfl⟩
      · rw [e]; rfl
      · rw [e]; exact ⟨u, g1, rfl⟩
    · rw [h4, hlm]
      congr 2
      rcases h3 with ⟨g1, rfl⟩ | ⟨g1, rfl⟩
      · rw [if_neg (fun h => g1 (hlex.mp h))]
      · rw [if_pos (hlex.mpr g1)]
        rfl

theorem listed_first {vs l : List VariantResult} (h : Listed vs (some 0) l) : l = vs := by
  rcases h with ⟨i, r, e, h1, rfl⟩ | ⟨_, rfl⟩
  · cases e
    cases vs with
    | nil => cases h1
    | cons a vs => cases h1; rfl
  · rfl

theorem queryObject_of {x : ToolExt} {c : CommandLine} (hlex : c.isPresent .outputLexmatch = true ↔
    Given c .outputLexmatch) {L : Loaded} {p : TextParams} {l : List Char} {vs : List VariantResult}
    {j : Json} (h : MatchValue (x.printer c L p) l (some vs) (some 0) none [] [] j) :
    QueryObject x c L p l vs j := by
  obtain ⟨tags, vars, h1, ⟨l', js, h2, h3, rfl⟩, rfl⟩ := h
  rcases h1 with ⟨_, rfl⟩ | ⟨h, _⟩
  · obtain rfl := listed_first h2
    exact ⟨js, (forall₂_congr fun _ _ => variantObject_iff hlex).mp h3, rfl⟩
  · exact absurd rfl h

theorem searchObject_of {x : ToolExt} {c : CommandLine} (hlex : c.isPresent .outputLexmatch = true ↔
    Given c .outputLexmatch) {L : Loaded} {p : TextParams} {a : Match} {j : Json}
    (h : MatchValue (x.printer c L p) a.text a.variants a.selected (some (a.first, a.last)) a.tag a.seqnr j) :
    SearchObject x c L p a j := by
  obtain ⟨tags, vars, h1, h2, rfl⟩ := h
  refine ⟨tags, vars, h1, ?_, rfl⟩
  cases hv : a.variants with
  | none => rw [hv] at h2; exact h2
  | some vs =>
    rw [hv] at h2
    obtain ⟨l, js, g1, g2, g3⟩ := h2
    exact ⟨l, js, g1, (forall₂_congr fun _ _ => variantObject_iff hlex).mp g2, g3⟩

/-- One input is read if at most one is named. -/
theorem inputsOf_one {x : ToolExt} {files : List (List Char)} (hfiles : files.length ≤ 1)
    {inputs : List (List (Option (List Char)))} (h : InputsOf x files inputs) : ∃ lines, inputs = [lines] := by
  rcases h with ⟨_, rfl⟩ | ⟨h1, h2, _⟩
  · exact ⟨_, rfl⟩
  · rw [← List.length_eq_one_iff, h2]
    have : files.length ≠ 0 := by simpa using h1
    omega

/-- What is printed in parallel is what is printed line by line. -/
theorem query_single {o : Printer} {find : List Char → Res (List VariantResult)} {x : TextExt} {b : Bool}
    {inputs : List (List (Option (List Char)))} {t : List Char}
    (h : runFiles true (if b then o.process find true 0 else o.processPar find x.sched true) inputs = .ok t) :
    runFiles true (o.process find true 0) inputs = .ok t := by
  cases b with
  | true => exact h
  | false =>
    simp only [Bool.false_eq_true, if_false] at h
    unfold runFiles at h ⊢
    obtain ⟨outs, g1, g2⟩ := bind_ok.mp h
    refine bind_ok.mpr ⟨outs, ?_, g2⟩
    rw [collectSeq_ok] at g1 ⊢
    refine g1.imp fun lines out hk => ?_
    by_cases hr : none ∈ lines
    · exact absurd hk (unreadable_line_stops_parallel _ _ _ _ _ hr _)
    · exact (parallel_query _ _ _ x.sched_perm _ _ hr _).mp hk

/-- What a query writes with `--json` for one input. -/
theorem query_document {x : ToolExt} {c : CommandLine} (hj : Given c .json) (hclean : CleanFiles x c)
    {L : Loaded} (hL : LoadedFor x c L) {w : Weights} {p : TextParams} {lines : List (Option (List Char))}
    (hlines : ∀ l, some l ∈ lines → Plain l) {s : List Char} {ws : List (List FileWrite)}
    (h : x.query c L (x.config c L w) p [lines] = .ok (.output s ws)) :
    ws = [] ∧ ∃ js, Document s (.arr js) ∧
      List.Forall₂ (fun l j => ∃ vs,
        L.vm.findVariants x.text.toExt (x.config c L w).toConfig p.variant l = .ok vs ∧
          QueryObject x c L p l vs j)
        (readable lines) js := by
  have hp : c.isPresent .json = true := (isPresent_iff rfl).mpr hj
  have hlex : c.isPresent .outputLexmatch = true ↔ Given c .outputLexmatch := isPresent_iff rfl
  have ho := printerOk_loaded hL hclean p
  unfold ToolExt.query at h
  obtain ⟨t, h4, h5⟩ := bind_ok.mp h
  cases pure_ok.mp h5
  rw [hp] at h4
  have h6 := query_single h4
  obtain ⟨js, g1, g2⟩ := json_query_document _ ho _ lines hlines s h6
  refine ⟨rfl, js, document_of g1, g2.imp ?_⟩
  rintro l j ⟨vs, k1, k2⟩
  exact ⟨vs, k1, queryObject_of hlex k2⟩

/-- **C91**: with `--json` and at most one input, a query prints a JSON document, with one reading: an array
with an object for each line of the input, in order, with the variants that the search of the library
finds for it.  The files and the input have no characters that need escapes, except for quotes. -/
theorem query_json_run {x : ToolExt} (hf : ∀ s, ';' ∈ s → x.parseF32 s = none) (hpos : StrictMono x.pos)
    {c : CommandLine} (hc : Accepted c) (hsub : c.sub = .query) (hj : Given c .json)
    (hclean : CleanFiles x c) {files : List (List Char)} (hone : files.length ≤ 1)
    (hlines : ∀ inputs, InputsOf x files inputs → ∀ lines ∈ inputs, ∀ l, some l ∈ lines → Plain l)
    {s : List Char} {ws : List (List FileWrite)} (h : x.main c files = .ok (.output s ws)) :
    ws = [] ∧ ∃ L w p cfg lines js, Asked x c L w p ∧ Settings x c L w cfg ∧
      InputsOf x files [lines] ∧ Document s (.arr js) ∧
      List.Forall₂ (fun l j => ∃ vs,
        L.vm.findVariants x.text.toExt cfg.toConfig p.variant l = .ok vs ∧ QueryObject x c L p l vs j)
        (readable lines) js := by
  obtain ⟨L, w, p, h1, h2⟩ := (main_output hf hpos hc (by rw [hsub]; decide) (by rw [hsub]; decide) _ _ _).mp h
  unfold ToolExt.modes at h2
  rw [hsub] at h2
  obtain ⟨inputs, h3, h2⟩ := bind_ok.mp h2
  have hin := inputsOf_iff.mp h3
  obtain ⟨lines, rfl⟩ := inputsOf_one hone hin
  obtain ⟨rfl, js, g1, g2⟩ := query_document hj hclean h1.loaded
    (fun l hl => hlines _ hin lines (by simp) l hl) h2
  exact ⟨rfl, L, w, p, _, lines, js, h1, settings_iff.mpr rfl, hin, g1, g2⟩

/-- **C91**, where it fails: with `--json` and several inputs of which the first two have lines, a query
prints something that is not JSON. -/
theorem query_json_several_malformed {x : ToolExt} (hf : ∀ s, ';' ∈ s → x.parseF32 s = none)
    (hpos : StrictMono x.pos) {c : CommandLine} (hc : Accepted c) (hsub : c.sub = .query)
    (hj : Given c .json) (hclean : CleanFiles x c) {files : List (List Char)}
    {f f' : List (Option (List Char))} {rest : List (List (Option (List Char)))}
    (hin : InputsOf x files (f :: f' :: rest)) (hplain : ∀ l, some l ∈ f ++ f' → Plain l)
    (h1 : readable f ≠ []) (h2 : readable f' ≠ []) {s : List Char} {ws : List (List FileWrite)}
    (h : x.main c files = .ok (.output s ws)) : ¬ ∃ j, Elem j s := by
  have hp : c.isPresent .json = true := (isPresent_iff rfl).mpr hj
  obtain ⟨L, w, p, h3, h4⟩ := (main_output hf hpos hc (by rw [hsub]; decide) (by rw [hsub]; decide) _ _ _).mp h
  have ho := printerOk_loaded h3.loaded hclean p
  unfold ToolExt.modes at h4
  rw [hsub, inputsOf_iff.mpr hin] at h4
  obtain ⟨_, h5, h4⟩ := bind_ok.mp h4
  cases h5
  obtain ⟨t, h5, h6⟩ := bind_ok.mp h4
  cases pure_ok.mp h6
  rw [hp] at h5
  exact json_two_files_malformed _ ho _ f f' hplain h1 h2 rest s (query_single h5)

/-- What is loaded is determined by the surroundings and the command line. -/
theorem loadedFor_unique {x : ToolExt} (hpos : StrictMono x.pos) {c : CommandLine} (hc : Accepted c)
    {L L' : Loaded} (h : LoadedFor x c L) (h' : LoadedFor x c L') : L = L' := by
  obtain ⟨args, h1, h2⟩ := (loadedFor_iff hpos hc).mp h
  obtain ⟨args', h3, h4⟩ := (loadedFor_iff hpos hc).mp h'
  rw [h1] at h3
  cases h3
  rw [h2] at h4
  cases h4
  rfl

theorem intercalate_mem {sep : List Char} {gs : List (List Char)} {ch : Char}
    (h : ch ∈ sep.intercalate gs) : ch ∈ sep ∨ ∃ g ∈ gs, ch ∈ g := by
  cases gs with
  | nil => simp [List.intercalate] at h
  | cons g gs =>
    rw [intercalate_flatMap] at h
    rcases List.mem_append.mp h with h | h
    · exact .inr ⟨g, by simp, h⟩
    · obtain ⟨g', hg, h⟩ := List.mem_flatMap.mp h
      rcases List.mem_append.mp h with h | h
      · exact .inl h
      · exact .inr ⟨g', List.mem_cons_of_mem _ hg, h⟩

theorem untilError_mem {lines : List (Option (List Char))} {l : List Char} (h : l ∈ untilError lines) :
    some l ∈ lines := by
  simp only [untilError, List.mem_filterMap, id] at h
  obtain ⟨a, h1, rfl⟩ := h
  exact (List.takeWhile_sublist _).subset h1

/-- What a search writes with `--json` for one input. -/
theorem search_document {x : ToolExt} {c : CommandLine} (hsub : c.sub = .search) (hj : Given c .json)
    (hret : ¬ Given c .retainLinebreaks) (hclean : CleanFiles x c) (hsp : x.text.isAlpha ' ' = false)
    (hsolve : SolverOk x.text.solve) {L : Loaded} (hL : LoadedFor x c L)
    (hrules : ∀ r ∈ L.book.rules, RuleOk r) {w : Weights} {p : TextParams} (hu : p.unicodeoffsets = false)
    {lines : List (Option (List Char))} (hlines : ∀ l, some l ∈ lines → Plain l) {s : List Char}
    {ws : List (List FileWrite)} (h : x.search c L (x.config c L w) p [lines] = .ok (.output s ws)) :
    ws = [] ∧ ∃ perLine gs found js, (perLine = true ↔ Given c .perLine) ∧
      Groups perLine (untilError lines) gs ∧
      List.Forall₂ (fun g ms => L.vm.findAllMatches x.text (x.config c L w) p ([' '].intercalate g) = .ok ms)
        gs found ∧
      Document s (.arr js) ∧ List.Forall₂ (SearchObject x c L p) found.flatten js := by
  have hp : c.isPresent .json = true := (isPresent_iff rfl).mpr hj
  have hlex : c.isPresent .outputLexmatch = true ↔ Given c .outputLexmatch := isPresent_iff rfl
  have hper : c.isPresent .perLine = true ↔ Given c .perLine := isPresent_flag (by rw [hsub]; rfl)
  have hret' : c.isPresent .retainLinebreaks = false := by
    rw [← Bool.not_eq_true, isPresent_flag (by rw [hsub]; rfl)]; exact hret
  have ho := printerOk_loaded hL hclean p
  unfold ToolExt.search at h
  obtain ⟨t, h4, h5⟩ := bind_ok.mp h
  cases pure_ok.mp h5
  rw [hp, hret'] at h4
  obtain ⟨gs, found, js, g1, g2, g3, g4⟩ := json_search_document _ ho _ _ _ lines (by
    intro gs hgs g hg ms hms a ha
    obtain ⟨⟨pre, post, e, _⟩, _⟩ := (text_matches hsp hsolve hu hms).1 a ha
    refine ⟨fun ch hch => ?_, text_tags_numbered hsp hsolve hrules hms a ha⟩
    have hm : ch ∈ [' '].intercalate g := by
      have : ch ∈ pre ++ a.text ++ post := by simp [hch]
      rw [← e] at this
      exact this
    rcases intercalate_mem hm with h | ⟨l, hl, h⟩
    · rw [List.mem_singleton] at h
      rw [h]
      decide
    · have hl' : l ∈ untilError lines := by
        rw [← (groups_cover hgs).1]
        exact List.mem_flatten.mpr ⟨g, hg, hl⟩
      exact hlines l (untilError_mem hl') ch h) _ h4
  exact ⟨rfl, _, gs, found, js, hper, g1, g2, document_of g3, g4.imp fun _ _ hk => searchObject_of hlex hk⟩

/-- **C91**: with `--json` and at most one input, a search prints a JSON document, with one reading: an
array with an object for each match that the library finds in the groups of lines of the input, in order,
with its text, offsets, tags and variants.  The files have the documented formats; they and the input have
no characters that need escapes, except for quotes; and lines are joined by spaces. -/
theorem search_json_run {x : ToolExt} (hf : ∀ s, ';' ∈ s → x.parseF32 s = none) (hpos : StrictMono x.pos)
    (hmarks : MarksOk x.load.isSpace) (hsp : x.text.isAlpha ' ' = false) (hsolve : SolverOk x.text.solve)
    {c : CommandLine} (hc : Accepted c) (hsub : c.sub = .search) (hj : Given c .json)
    (hret : ¬ Given c .retainLinebreaks) {as : List (List (List Char × Option Nat × VocabParams))}
    (hfiles : UsableFiles x c as) (hclean : CleanFiles x c)
    {files : List (List Char)} (hone : files.length ≤ 1)
    (hlines : ∀ inputs, InputsOf x files inputs → ∀ lines ∈ inputs, ∀ l, some l ∈ lines → Plain l)
    {s : List Char} {ws : List (List FileWrite)} (h : x.main c files = .ok (.output s ws)) :
    ws = [] ∧ ∃ L w p cfg lines perLine gs found js, Asked x c L w p ∧ Settings x c L w cfg ∧
      InputsOf x files [lines] ∧ (perLine = true ↔ Given c .perLine) ∧
      Groups perLine (untilError lines) gs ∧
      List.Forall₂ (fun g ms => L.vm.findAllMatches x.text cfg p ([' '].intercalate g) = .ok ms) gs found ∧
      Document s (.arr js) ∧ List.Forall₂ (SearchObject x c L p) found.flatten js := by
  obtain ⟨L, w, p, h1, h2⟩ := (main_output hf hpos hc (by rw [hsub]; decide) (by rw [hsub]; decide) _ _ _).mp h
  obtain ⟨_, L', _, _, _, hL', _, _, hrules, _⟩ := usable_loads hmarks hfiles
  cases loadedFor_unique hpos hc h1.loaded hL'
  have hu : p.unicodeoffsets = false := by
    obtain ⟨q, _, hq, hn⟩ := h1.params
    rw [hn.offsets]; exact hq
  unfold ToolExt.modes at h2
  rw [hsub] at h2
  obtain ⟨inputs, h3, h2⟩ := bind_ok.mp h2
  have hin := inputsOf_iff.mp h3
  obtain ⟨lines, rfl⟩ := inputsOf_one hone hin
  obtain ⟨rfl, perLine, gs, found, js, g0, g1, g2, g3, g4⟩ := search_document hsub hj hret hclean hsp hsolve
    h1.loaded hrules hu (fun l hl => hlines _ hin lines (by simp) l hl) h2
  exact ⟨rfl, L, w, p, _, lines, perLine, gs, found, js, h1, settings_iff.mpr rfl, hin, g0, g1, g2, g3, g4⟩

/-! ### Examples -/

theorem cleanFiles_of {x : ToolExt} {c : CommandLine}
    (h1 : ∀ g ∈ c.given, g.1 ∈ wordOptions → ∀ ch ∈ g.2, ch ≠ '\\' ∧ 0x20 ≤ ch.toNat)
    (h2 : ∀ g ∈ c.given, g.1 ∈ wordOptions → ∀ lines ∈ (x.load.file g.2).toList, ∀ l ∈ lines,
      ∀ l' ∈ l.toList, ∀ ch ∈ l', ch = '\t' ∨ (ch ≠ '\\' ∧ 0x20 ≤ ch.toNat))
    (h3 : ∀ g ∈ c.given, g.1 = .contextrules → ∀ lines ∈ (x.load.file g.2).toList, ∀ l ∈ lines,
      ∀ l' ∈ l.toList, ∀ ch ∈ l', ch = '\t' ∨ ((ch ≠ '\\' ∧ 0x20 ≤ ch.toNat) ∧ ch ≠ '"'))
    (h4 : ∀ q, NumText (x.showF q)) : CleanFiles x c where
  names o ho f hg := h1 _ hg ho
  words o ho f lines hg hl l hm ch hc := by
    simpa [Plain] using h2 _ hg ho lines (by rw [hl]; simp) _ hm l (by simp) ch hc
  rules f lines hg hl l hm ch hc := by
    simpa [Plain] using h3 _ hg rfl lines (by rw [hl]; simp) _ hm l (by simp) ch hc
  numbers := h4

theorem exTool_numbers (q : Rat) : NumText (exToolR.showF q) := by
  show NumText (if q = 1 then ['1'] else "0.5".toList)
  split
  · exact ⟨[], ['1'], [], [], rfl, .inl rfl, ⟨⟨by decide, by decide⟩, by decide⟩, .inl rfl, .inl rfl⟩
  · exact ⟨[], ['0'], ['.', '5'], [], rfl, .inl rfl, ⟨⟨by decide, by decide⟩, by decide⟩,
      .inr ⟨['5'], ⟨by decide, by decide⟩, rfl⟩, .inl rfl⟩

/-- `query --json --alphabet a --errors e --lexicon l --variants v --confusables c` -/
def exQueryJ : CommandLine := { exQueryR with given := (.json, []) :: exQueryR.given }

theorem exCleanQuery : CleanFiles exToolR exQueryJ :=
  cleanFiles_of (by decide +kernel) (by decide +kernel) (by decide +kernel) exTool_numbers

theorem exLines {inputs : List (List (Option (List Char)))} (h : InputsOf exToolR [] inputs) :
    ∀ lines ∈ inputs, ∀ l, some l ∈ lines → Plain l := by
  rcases h with ⟨_, rfl⟩ | ⟨h, _⟩
  · intro lines hl l h
    rw [List.mem_singleton] at hl
    subst hl
    simp only [exToolR, List.mem_cons, Option.some.injEq, List.not_mem_nil, or_false] at h
    rcases h with rfl | rfl <;> (unfold Plain; decide)
  · exact absurd rfl h

/-- Two lines on standard input: an array with two objects. -/
example : ∃ s L w p cfg js, exToolR.main exQueryJ [] = .ok (.output s []) ∧
    Settings exToolR exQueryJ L w cfg ∧ Document s (.arr js) ∧ js.length = 2 ∧
    List.Forall₂ (fun l j => ∃ vs, L.vm.findVariants exToolR.text.toExt cfg.toConfig p.variant l = .ok vs ∧
      QueryObject exToolR exQueryJ L p l vs j) ["ab b".toList, "bb".toList] js := by
  obtain ⟨s, hs⟩ : ∃ s, exToolR.main exQueryJ [] = .ok (.output s []) := by
    refine query_succeeds (x := exToolR) ex_noSemicolon ex_pos ex_marks
      (accepted_of (by decide) (by decide)) rfl
      ⟨⟨{ exArgs with lm := [] }, by constructor <;> decide, exLoadableQuery⟩, by decide⟩
      (exUsableNumbers (accepted_of (by decide) (by decide)) rfl (by decide +kernel) rfl
        (exSome exTextParams (by decide +kernel)) (.inr (by decide +kernel))) (.inl ⟨rfl, rfl⟩) ?_ ?_
    · intro _ lines hl
      rw [List.mem_singleton] at hl
      subst hl
      decide
    · intro lines hl l h
      rw [List.mem_singleton] at hl
      subst hl
      simp only [exToolR, List.mem_cons, Option.some.injEq, List.not_mem_nil, or_false] at h
      rcases h with rfl | rfl <;> decide
  obtain ⟨_, L, w, p, cfg, lines, js, _, h2, h3, h4, h5⟩ := query_json_run (x := exToolR) ex_noSemicolon
    ex_pos (accepted_of (by decide) (by decide)) rfl ⟨[], by decide⟩ exCleanQuery (by decide)
    (fun _ h => exLines h) hs
  rcases h3 with ⟨_, h3⟩ | ⟨h3, _⟩
  · cases h3
    exact ⟨s, L, w, p, cfg, js, hs, h2, h4, h5.length_eq.symm, h5⟩
  · exact absurd rfl h3

theorem exCleanSearch : CleanFiles exToolR exSearchR :=
  cleanFiles_of (by decide +kernel) (by decide +kernel) (by decide +kernel) exTool_numbers

/-- The two lines on standard input are one group. -/
example : ∃ s L w p cfg found js, exToolR.main exSearchR [] = .ok (.output s []) ∧
    Settings exToolR exSearchR L w cfg ∧ Document s (.arr js) ∧
    L.vm.findAllMatches exToolR.text cfg p "ab b bb".toList = .ok found ∧
    List.Forall₂ (SearchObject exToolR exSearchR L p) found js := by
  obtain ⟨s, hs⟩ := exSearch_succeeds
  obtain ⟨_, L, w, p, cfg, lines, perLine, gs, found, js, _, h2, h3, h4, h5, h6, h7, h8⟩ :=
    search_json_run (x := exToolR) ex_noSemicolon
    ex_pos ex_marks (by decide +kernel) refSolver_ok (accepted_of (by decide) (by decide)) rfl
    ⟨[], by decide⟩ (not_given (by decide)) exUsableSearch exCleanSearch (by decide)
    (fun _ h => exLines h) hs
  rcases h3 with ⟨_, h3⟩ | ⟨h3, _⟩
  · cases h3
    have hper : perLine = false := by
      rw [← Bool.not_eq_true, h4]; exact not_given (by decide)
    subst hper
    have hg : Groups false (untilError exToolR.stdin) [["ab b".toList, "bb".toList]] :=
      .last (by decide) (by decide) (by decide)
    cases groups_unique h5 hg
    cases h6 with
    | cons h6 h9 =>
      cases h9
      exact ⟨s, L, w, p, cfg, _, js, hs, h2, h7, h6, by simpa using h8⟩
  · exact absurd rfl h3

/-- Standard input and a file. -/
example : ∀ s ws, exToolR.main exQueryJ [['-'], ['q']] = .ok (.output s ws) → ¬ ∃ j, Elem j s := by
  intro s ws h
  refine query_json_several_malformed (x := exToolR) (f := exToolR.stdin) (f' := [some "ab".toList])
    (rest := []) ex_noSemicolon ex_pos (accepted_of (by decide) (by decide)) rfl ⟨[], by decide⟩
    exCleanQuery ?_ ?_ (by decide) (by decide) h
  · refine inputsOf_iff.mp ?_
    decide +kernel
  · intro l hl
    simp only [exToolR, List.mem_append, List.mem_cons, Option.some.injEq, List.not_mem_nil, or_false] at hl
    rcases hl with (rfl | rfl) | rfl <;> (unfold Plain; decide)

end Verif.Props
