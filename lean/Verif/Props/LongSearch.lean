import Verif.Props.Long
import Verif.Props.SimilarText

/-!
# For which texts a search in text returns (C130)
-/
namespace Verif.Props

open Verif.Spec Verif.Model Verif.Lemmas

/-- A search in a text that returns has found the variants of all its words. -/
theorem words_looked_up {vm : Vm} {x : TextExt} {cfg : TextConfig} {p : TextParams}
    (hsp : x.isAlpha ' ' = false) (hn : 1 ≤ p.maxNgram) (hi : vm.index.isEmpty = false)
    {text : List Char} {ms : List Match} (h : vm.findAllMatches x cfg p text = .ok ms)
    {b : Nat} {t : List Char} (ht : WordAt x.isAlpha text b t) :
    ∃ vs, vm.findVariants x.toExt cfg.toConfig p.variant t = .ok vs := by
  have hne : text ≠ [] := by
    obtain ⟨pre, post, e, _, hne, _⟩ := ht
    rintro rfl
    exact hne (List.append_eq_nil_iff.mp (List.append_eq_nil_iff.mp e.symm).1).2
  obtain ⟨segs, hs, _⟩ := findBoundaries_eq x.isAlpha text
  obtain ⟨word, hword, e⟩ := List.mem_map.mp (((words_of_text hs).1.mem b t).mpr ht)
  cases e
  have hrun : ∀ (gs : List (List Seg)) (pre post : List Char) (out : List Match),
      (∀ g ∈ gs, IsBatch x.isAlpha g) →
      Vm.batchesRun vm x cfg p (pre ++ flat gs.flatten ++ post) (byteLen pre) gs = .ok out →
      ∀ word ∈ runsFrom 1 (byteLen pre) gs.flatten,
        ∃ vs, vm.findVariants x.toExt cfg.toConfig p.variant word.text = .ok vs := by
    intro gs
    induction gs with
    | nil => intro pre post out _ _ word hw; cases hw
    | cons g gs ih =>
      intro pre post out hg hout word hw
      rw [List.flatten_cons, runs1_append] at hw
      rw [Vm.batchesRun, bind_ok] at hout
      obtain ⟨a, h1, hout⟩ := hout
      obtain ⟨b, h2, _⟩ := bind_ok.mp hout
      have e1 : pre ++ flat (g :: gs).flatten ++ post = pre ++ flat g ++ (flat gs.flatten ++ post) := by
        simp [flat_append]
      have e2 : pre ++ flat (g :: gs).flatten ++ post = (pre ++ flat g) ++ flat gs.flatten ++ post := by
        simp [flat_append]
      rcases List.mem_append.mp hw with hw | hw
      · rw [e1] at h1
        unfold Vm.batchMatches at h1
        obtain ⟨batch, h3, _⟩ := bind_ok.mp h1
        obtain ⟨n, hn'⟩ : ∃ n, p.maxNgram = n + 1 := ⟨p.maxNgram - 1, by omega⟩
        rw [hn', Vm.gatherSegments] at h3
        obtain ⟨segments, h4, h3⟩ := bind_ok.mp h3
        obtain ⟨segments', h6⟩ : ∃ segments', Words vm x cfg p (runsFrom 1 (byteLen pre) g) segments' := by
          simp only [← gather_unigrams (post := flat gs.flatten ++ post) hsp (hg g (by simp)),
            Vm.gatherSegments]
          dsimp only at h3
          split at h3
          · next hst =>
            obtain ⟨segments', h5, _⟩ := bind_ok.mp h3
            exact ⟨_, bind_ok.mpr ⟨segments, h4, by rw [if_pos hst]; exact bind_ok.mpr ⟨segments', h5, rfl⟩⟩⟩
          · next hst =>
            obtain ⟨segments', h5, _⟩ := bind_ok.mp h3
            exact ⟨_, bind_ok.mpr ⟨segments, h4, by rw [if_neg hst]; exact bind_ok.mpr ⟨segments', h5, rfl⟩⟩⟩
        obtain ⟨_, _, v, hv, _⟩ := mem_of_forall₂_left h6 hw
        exact ⟨v, hv⟩
      · rw [e2, ← byteLen_append] at h2
        rw [← byteLen_append] at hw
        exact ih _ _ _ (fun g' h' => hg g' (by simp [h'])) h2 word hw
  rw [findAllMatches_eq vm x cfg p hne hi hs] at h
  obtain ⟨out, h, _⟩ := bind_ok.mp h
  obtain ⟨hb, hf⟩ := batches_of hs
  rcases hf with hf | ⟨_, s, e⟩
  · refine hrun (batches [] segs) [] [] out hb ?_ word ?_
    · simp only [List.nil_append, List.append_nil, hf, hs.text_eq]
      exact h
    · rw [hf]; exact hword
  · rw [e] at hword
    simp [runsFrom, stretch] at hword

/-- A run of searches that succeeds has found the matches in all texts. -/
theorem search_texts {x : ToolExt} {c : CommandLine} (hsub : c.sub = .search) {L : Loaded} {w : Weights}
    {p : TextParams} {inputs : List (List (Option (List Char)))} {out : Outcome}
    (h : x.search c L (x.config c L w) p inputs = .ok out) {lines : List (Option (List Char))}
    (hl : lines ∈ inputs) {t : List Char} (ht : SearchedIn c lines t) :
    ∃ ms, L.vm.findAllMatches x.text (x.config c L w) p t = .ok ms := by
  have hper : c.isPresent .perLine = true ↔ Given c .perLine := isPresent_flag (by rw [hsub]; rfl)
  have hret : c.isPresent .retainLinebreaks = true ↔ Given c .retainLinebreaks :=
    isPresent_flag (by rw [hsub]; rfl)
  obtain ⟨perLine, sep, gs, g, h1, h2, h3, h4, rfl⟩ := ht
  obtain ⟨s, h, _⟩ := bind_ok.mp h
  obtain ⟨outs, h, _⟩ := bind_ok.mp h
  obtain ⟨o, _, h⟩ := mem_of_forall₂_left (collectSeq_ok.mp h) hl
  obtain ⟨gs', hg, e⟩ := search_output (x.printer c L p) (L.vm.findAllMatches x.text (x.config c L w) p)
    (c.isPresent .json) (!c.isPresent .retainLinebreaks) (c.isPresent .perLine) lines
  have hp : perLine = c.isPresent .perLine := by
    rw [Bool.eq_iff_iff, h1, hper]
  subst hp
  cases groups_unique h3 hg
  have hsep : (if (!c.isPresent .retainLinebreaks) = true then ' ' else '\n') = sep := by
    rcases h2 with ⟨g1, rfl⟩ | ⟨g1, rfl⟩
    · rw [hret.mpr g1]; rfl
    · rw [← hret, Bool.not_eq_true] at g1
      rw [g1]; rfl
  rw [e, hsep] at h
  have loop : ∀ (texts : List (List Char)) n s, (x.printer c L p).searchLoop
      (L.vm.findAllMatches x.text (x.config c L w) p) (c.isPresent .json) n texts = .ok s →
      ∀ t ∈ texts, ∃ ms, L.vm.findAllMatches x.text (x.config c L w) p t = .ok ms := by
    intro texts
    induction texts with
    | nil => intro n s _ t ht; cases ht
    | cons t' texts ih =>
      intro n s hs t ht
      obtain ⟨ms, p1, hs⟩ := bind_ok.mp hs
      obtain ⟨_, _, hs⟩ := bind_ok.mp hs
      obtain ⟨_, p3, _⟩ := bind_ok.mp hs
      rcases List.mem_cons.mp ht with rfl | ht
      · exact ⟨ms, p1⟩
      · exact ih _ _ p3 t ht
  exact loop _ _ _ h _ (List.mem_map.mpr ⟨g, h4, rfl⟩)

/-- **C130**: a search that succeeds, with whatever resources and options, has only words that can be searched
for. -/
theorem search_needs_words {x : ToolExt} (hf : ∀ s, ';' ∈ s → x.parseF32 s = none) (hpos : StrictMono x.pos)
    (hmarks : MarksOk x.load.isSpace) (hb : x.load.isSpace '\\' = false) (hsp : x.text.isAlpha ' ' = false)
    {c : CommandLine} (hc : Accepted c) (hsub : c.sub = .search)
    {as : List (List (List Char × Option Nat × VocabParams))} {w : Weights} {p : TextParams}
    (hfiles : UsableFiles x c as) (hnum : UsableNumbers x c w p) (hn : 1 ≤ p.maxNgram)
    {afile : List Char} {alines : List (Option (List Char))} {alphabet : Alphabet}
    (ha : (.alphabet, afile) ∈ c.given) (hal : x.load.file afile = some alines)
    (hae : List.Forall₂ (AlphabetLine x.load.isSpace) (nonEmpty alines) alphabet) {files : List (List Char)}
    {inputs : List (List (Option (List Char)))} (hin : InputsOf x files inputs) {out : Outcome}
    (h : x.main c files = .ok out) {lines : List (Option (List Char))} (hl : lines ∈ inputs)
    {text : List Char} (ht : SearchedIn c lines text) {b : Nat} {t : List Char}
    (hw : WordAt x.text.isAlpha text b t) :
    Searchable x.text.f32 alphabet p.variant (Sought as) t := by
  obtain ⟨L, asked, _, _, _, _, _, hdef⟩ := usable_searchable hmarks hb hc hfiles hnum ha hal hae
  rw [asked_main hf hpos hc (by rw [hsub]; decide) (by rw [hsub]; decide) asked] at h
  unfold ToolExt.modes at h
  rw [inputsOf_iff.mpr hin, hsub] at h
  obtain ⟨ms, hms⟩ := search_texts (p := p) hsub (show x.search c L (x.config c L w) p inputs = .ok out from h) hl ht
  rw [← hdef]
  cases hi : L.vm.index.isEmpty with
  | true => exact ⟨[], by unfold Vm.findVariants; rw [if_pos hi]⟩
  | false => exact words_looked_up hsp hn hi hms hw

/-- **C130**: a search for single words, with whatever resources, succeeds exactly if all words of the texts
can be searched for (if `--max-seq` is not 0 and no entry has more than 255 words). -/
theorem search_words_succeeds_iff {x : ToolExt} (hf : ∀ s, ';' ∈ s → x.parseF32 s = none)
    (hpos : StrictMono x.pos)
    (hmarks : MarksOk x.load.isSpace) (hb : x.load.isSpace '\\' = false) (hsp : x.text.isAlpha ' ' = false)
    (hsolve : SolverOk x.text.solve) {c : CommandLine} (hc : Accepted c) (hsub : c.sub = .search)
    {as : List (List (List Char × Option Nat × VocabParams))} {w : Weights} {p : TextParams}
    (hfiles : UsableFiles x c as) (hnum : UsableNumbers x c w p) (hn : p.maxNgram = 1) (hseq : 1 ≤ p.maxSeq)
    (hlm : 0 < p.lmWeight → ∀ a ∈ as.flatten, ∀ ws, TokensOf a.1 ws → ws.length ≤ 255)
    {afile : List Char} {alines : List (Option (List Char))} {alphabet : Alphabet}
    (ha : (.alphabet, afile) ∈ c.given) (hal : x.load.file afile = some alines)
    (hae : List.Forall₂ (AlphabetLine x.load.isSpace) (nonEmpty alines) alphabet) {files : List (List Char)}
    {inputs : List (List (Option (List Char)))} (hin : InputsOf x files inputs) :
    (∃ out, x.main c files = .ok out) ↔ ∀ lines ∈ inputs, ∀ text, SearchedIn c lines text →
      ∀ b t, WordAt x.text.isAlpha text b t →
        Searchable x.text.f32 alphabet p.variant (Sought as) t := by
  constructor
  · rintro ⟨out, h⟩ lines hl text ht b t hw
    exact search_needs_words hf hpos hmarks hb hsp hc hsub hfiles hnum (by omega) ha hal hae hin h hl ht hw
  intro h
  obtain ⟨L, asked, hlex, hrules, hbook, hinv, htext, hdef⟩ :=
    usable_searchable hmarks hb hc hfiles hnum ha hal hae
  rw [asked_main hf hpos hc (by rw [hsub]; decide) (by rw [hsub]; decide) asked]
  unfold ToolExt.modes
  rw [inputsOf_iff.mpr hin, hsub]
  obtain ⟨s, hs⟩ := search_total_of (p := p) hsub hsp hsolve hlex hrules hbook hnum.nonzero
    (inputs := inputs) fun lines hl text ht => by
      refine search_total_of_lookups hinv hnum.nonzero hsp hsolve (fun _ => ⟨hseq, ?_, hrules⟩) ?_
      · intro _ hp v hv
        rcases htext v hv with hr | ⟨a, ha, e⟩
        · rcases hr with e | e | e <;> rw [e] <;> decide
        · have := hlm hp a ha _ (splitSpaces_isTokens a.1)
          rw [splitSpaces_length, e] at this
          omega
      · intro segs a r b hseg he hr hne
        rw [hn] at hr
        have hr1 : r.length = 1 := by
          cases r with
          | nil => exact absurd rfl hne
          | cons _ _ => simp only [List.length_cons] at hr ⊢; omega
        refine (hdef _).mpr (h lines hl text ht (byteLen (flat a)) _ (((words_of_text hseg).1.mem _ _).mp ?_))
        refine List.mem_map.mpr ⟨_, mem_runsFrom.mpr ⟨a, r, b, he, hr1, hne, rfl⟩, ?_⟩
        simp [spanAt]
  exact ⟨_, hs⟩

/-! ### Examples -/

/-- The search of the examples, with language model, confusables and a rule, for single words. -/
def exSearch1 : CommandLine := { exSearchR with given := (.maxNgramOrder, ['1']) :: exSearchR.given }

theorem exUsable1 : UsableFiles exToolR exSearch1 exAdded :=
  ⟨⟨exArgsR, by constructor <;> decide, exLoadable⟩, by decide⟩

theorem exNumbers1 : UsableNumbers exToolR exSearch1 ⟨1 / 2, 1 / 8, 1 / 8, 1 / 8, 1 / 8⟩
    (exNumbers exSearch1) :=
  exUsableNumbers (accepted_of (by decide) (by decide)) rfl (by decide +kernel) rfl
    (exSome exTextParams (by decide +kernel)) (.inr (by decide +kernel))

theorem ex_sought1 : Sought exAdded "ab".toList := by
  refine ⟨by unfold Reserved; decide, (some 3, { index := 1 }), ?_⟩
  cases h : addsOf "ab".toList exAdded.flatten with
  | nil => exact absurd h (by decide)
  | cons b bs =>
    refine ⟨bs, ?_, by decide⟩
    have : (addsOf "ab".toList exAdded.flatten).head? = some (some 3, { index := 1 }) := by decide
    rw [h] at this
    cases this
    rfl

/-- Short words can be searched for. -/
example : ∃ out, exToolR.main exSearch1 [] = .ok out := by
  refine (search_words_succeeds_iff (x := exToolR) (alphabet := [["a".toList, "A".toList], ["b".toList]])
    (alines := [some "a\tA".toList, some ['b']]) (afile := ['a'])
    ex_noSemicolon ex_pos ex_marks rfl (by decide +kernel) refSolver_ok (accepted_of (by decide) (by decide)) rfl
    exUsable1 exNumbers1 (by decide +kernel) (by decide +kernel) ?_ (by decide) rfl exAlphabetLong
    (.inl ⟨rfl, rfl⟩)).mpr ?_
  · intro _ a ha ws hws
    have h : ∀ a ∈ exAdded.flatten, (splitSpaces a.1).length ≤ 255 := by decide
    rw [tokensOf_unique hws]
    exact h a ha
  · intro lines hl text ht b t hw
    rw [List.mem_singleton] at hl
    subst hl
    have h1 := searchedIn_length ht
    have h2 : ((untilError exToolR.stdin).map fun l => l.length + 1).sum = 8 := by decide
    rw [h2] at h1
    obtain ⟨pre, post, e, _, hne, _⟩ := hw
    have := congrArg List.length e
    simp only [List.length_append] at this
    exact .inr ⟨hne, .inl (short_fits (by unfold NoEmpty; decide) (fits_of_numbers exNumbers1).1 (by omega))⟩

/-- A search in lines of which one is a word of 65536 letters or more fails. -/
example (n : Nat) (hn : 65536 ≤ n) : ¬ ∃ out, (exToolLong n).main exSearch1 [] = .ok out := by
  rintro ⟨out, h⟩
  have hl : List.replicate n 'a' ≠ [] := fun h => by
    have := congrArg List.length h
    rw [List.length_replicate, List.length_nil] at this
    omega
  have key := search_needs_words (x := exToolLong n)
    (alphabet := [["a".toList, "A".toList], ["b".toList]])
    (alines := [some "a\tA".toList, some ['b']]) (afile := ['a'])
    ex_noSemicolon ex_pos ex_marks rfl (show exToolR.text.isAlpha ' ' = false by decide +kernel)
    (accepted_of (by decide) (by decide)) rfl
    ⟨exUsable1.files, exUsable1.short⟩ ⟨exNumbers1.weights, exNumbers1.nonzero, exNumbers1.params,
      exNumbers1.cutoff, exNumbers1.debug⟩ (by decide +kernel) (by decide) rfl exAlphabetLong
    (.inl ⟨rfl, rfl⟩) h (List.mem_singleton.mpr rfl) (text := "ab b ".toList ++ List.replicate n 'a')
    (b := 5) (t := List.replicate n 'a') ?_ ?_
  · rcases key with h | ⟨_, h | ⟨h, _⟩⟩
    · exact h _ ex_sought1
    · obtain ⟨k, hk⟩ := allowed_exists (r := (exToolLong n).text.f32) (len := n)
        (fits_of_numbers exNumbers1).1
      have := (ex_fits [["b".toList]] hk).mp h
      omega
    · exact absurd h (by decide +kernel)
  · refine ⟨false, ' ', [["ab b".toList, List.replicate n 'a']], ["ab b".toList, List.replicate n 'a'], ⟨nofun,
      fun h => absurd h (not_given (by decide))⟩, .inr ⟨not_given (by decide), rfl⟩, ?_, List.mem_singleton.mpr rfl, by simp⟩
    refine Groups.last (g := ["ab b".toList, List.replicate n 'a']) (by simp) ?_ nofun
    intro l h
    simp only [List.mem_cons, List.not_mem_nil, or_false] at h
    rcases h with rfl | rfl
    · decide
    · exact hl
  · refine ⟨"ab b ".toList, [], by simp, by decide, hl, ?_,
      show ∀ c ∈ "ab b ".toList.getLast?, exToolR.text.isAlpha c = false by decide +kernel, by simp⟩
    intro c hc
    rw [List.eq_of_mem_replicate hc]
    exact show exToolR.text.isAlpha 'a' = true by decide +kernel

end Verif.Props
