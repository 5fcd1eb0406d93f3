import Verif.Props.LoadTotal
import Verif.Props.Printed
import Verif.Props.Runs
import Verif.Props.Python
import Verif.Spec.RunTotal

/-!
# Runs of the tool succeed (C89)
-/
namespace Verif.Props

open Verif.Spec Verif.Model Verif.Lemmas

/-! ## Output -/

/-- The entries that a result refers to exist. -/
def ResultOk (m : Vm) (r : VariantResult) : Prop :=
  r.vocabId < m.decoder.length ∧ ∀ id, r.via = some id → id < m.decoder.length

theorem vocab_total {o : Printer} {id : Nat} (h : id < o.vm.decoder.length) : ∃ v, o.vocab id = .ok v := by
  unfold Printer.vocab
  rw [List.getElem?_eq_getElem h]
  exact ⟨_, rfl⟩

theorem names_total {o : Printer} (hl : o.vm.lexicons.length ≤ 32) (v : VocabValue) :
    ∃ names, lexiconsOf v 0 o.vm.lexicons = .ok names :=
  ⟨_, (lexiconsOf_iff (by omega)).mpr ⟨.inr (by omega), rfl⟩⟩

theorem resultTsv_total {o : Printer} (hl : o.vm.lexicons.length ≤ 32) {r : VariantResult}
    (hr : ResultOk o.vm r) : ∃ s, o.resultTsv r = .ok s := by
  obtain ⟨v, hv⟩ := vocab_total hr.1
  obtain ⟨names, hn⟩ := names_total hl v
  have hlex : ∃ s, o.lexmatchTsv v = .ok s := by
    unfold Printer.lexmatchTsv
    cases o.lexmatch
    · exact ⟨_, rfl⟩
    · exact ⟨_, bind_ok.mpr ⟨names, hn, rfl⟩⟩
  obtain ⟨s, hs⟩ := hlex
  exact ⟨_, bind_ok.mpr ⟨v, hv, bind_ok.mpr ⟨s, hs, rfl⟩⟩⟩

theorem resultJson_total {o : Printer} (hl : o.vm.lexicons.length ≤ 32) {r : VariantResult}
    (hr : ResultOk o.vm r) : ∃ s, o.resultJson r = .ok s := by
  obtain ⟨v, hv⟩ := vocab_total hr.1
  obtain ⟨names, hn⟩ := names_total hl v
  have hvia : ∃ s, o.viaJson r.via = .ok s := by
    cases h : r.via with
    | none => exact ⟨_, rfl⟩
    | some id =>
      obtain ⟨u, hu⟩ := vocab_total (hr.2 id h)
      exact ⟨_, bind_ok.mpr ⟨u, hu, rfl⟩⟩
  have hlex : ∃ s, o.lexmatchJson v = .ok s := by
    unfold Printer.lexmatchJson
    cases o.lexmatch
    · exact ⟨_, rfl⟩
    · exact ⟨_, bind_ok.mpr ⟨names, hn, rfl⟩⟩
  obtain ⟨s, hs⟩ := hvia
  obtain ⟨t, ht⟩ := hlex
  exact ⟨_, bind_ok.mpr ⟨v, hv, bind_ok.mpr ⟨s, hs, bind_ok.mpr ⟨t, ht, rfl⟩⟩⟩⟩

theorem variantsTsv_total {o : Printer} (hl : o.vm.lexicons.length ≤ 32) (selected : Option Nat)
    {rs : List VariantResult} (hr : ∀ r ∈ rs, ResultOk o.vm r) :
    ∃ s, o.variantsTsv selected rs = .ok s := by
  have others : ∀ (rs : List VariantResult) (i : Nat), (∀ r ∈ rs, ResultOk o.vm r) →
      ∃ s, o.othersTsv selected i rs = .ok s := by
    intro rs
    induction rs with
    | nil => intro i _; exact ⟨_, rfl⟩
    | cons r rs ih =>
      intro i h
      obtain ⟨t, ht⟩ := ih (i + 1) fun r hr => h r (by simp [hr])
      unfold Printer.othersTsv
      split
      · obtain ⟨s, hs⟩ := resultTsv_total hl (h r (by simp))
        exact ⟨_, bind_ok.mpr ⟨s, hs, bind_ok.mpr ⟨t, ht, rfl⟩⟩⟩
      · exact ⟨t, ht⟩
  obtain ⟨t, ht⟩ := others rs 0 hr
  unfold Printer.variantsTsv
  split
  · next r h =>
    have : r ∈ rs := by
      unfold selectedResult at h
      split at h
      · cases h
      · exact List.mem_of_getElem? h
    obtain ⟨s, hs⟩ := resultTsv_total hl (hr r this)
    exact ⟨_, bind_ok.mpr ⟨s, hs, bind_ok.mpr ⟨t, ht, rfl⟩⟩⟩
  · exact ⟨t, ht⟩

theorem variantsJson_total {o : Printer} (hl : o.vm.lexicons.length ≤ 32) (selected : Option Nat)
    {rs : List VariantResult} (hr : ∀ r ∈ rs, ResultOk o.vm r) :
    ∃ s, o.variantsJson selected rs = .ok s := by
  have others : ∀ (rs : List VariantResult) (i : Nat) (b : Bool), (∀ r ∈ rs, ResultOk o.vm r) →
      ∃ s, o.othersJson selected i b rs = .ok s := by
    intro rs
    induction rs with
    | nil => intro i _ _; exact ⟨_, rfl⟩
    | cons r rs ih =>
      intro i b h
      have h' : ∀ r ∈ rs, ResultOk o.vm r := fun r hr => h r (by simp [hr])
      unfold Printer.othersJson
      split
      · obtain ⟨t, ht⟩ := ih (i + 1) true h'
        obtain ⟨s, hs⟩ := resultJson_total hl (h r (by simp))
        exact ⟨_, bind_ok.mpr ⟨s, hs, bind_ok.mpr ⟨t, ht, rfl⟩⟩⟩
      · exact ih (i + 1) b h'
  unfold Printer.variantsJson
  split
  · next r h =>
    have : r ∈ rs := by
      unfold selectedResult at h
      split at h
      · cases h
      · exact List.mem_of_getElem? h
    obtain ⟨t, ht⟩ := others rs 0 true hr
    obtain ⟨s, hs⟩ := resultJson_total hl (hr r this)
    exact ⟨_, bind_ok.mpr ⟨s, hs, bind_ok.mpr ⟨t, ht, rfl⟩⟩⟩
  · exact others rs 0 false hr

theorem matchesTsv_total {o : Printer} (hl : o.vm.lexicons.length ≤ 32) (input : List Char)
    {vs : Option (List VariantResult)} (hr : ∀ r ∈ vs.getD [], ResultOk o.vm r) (selected : Option Nat)
    (offset : Option (Nat × Nat)) : ∃ s, o.matchesTsv input vs selected offset = .ok s := by
  cases vs with
  | none => exact ⟨_, rfl⟩
  | some vs =>
    obtain ⟨s, hs⟩ := variantsTsv_total hl selected hr
    exact ⟨_, bind_ok.mpr ⟨s, hs, rfl⟩⟩

theorem matchesJson_total {o : Printer} (hl : o.vm.lexicons.length ≤ 32) (input : List Char)
    {vs : Option (List VariantResult)} (hr : ∀ r ∈ vs.getD [], ResultOk o.vm r) (selected : Option Nat)
    (offset : Option (Nat × Nat)) (n : Nat) {tag : List Nat} (ht : ∀ t ∈ tag, t < o.tags.length)
    (seqnr : List Nat) : ∃ s, o.matchesJson input vs selected offset n tag seqnr = .ok s := by
  have loop : ∀ (l : List (Nat × Nat)) (i : Nat), (∀ y ∈ l, y.1 < o.tags.length) →
      ∃ s, o.tagsLoop i l = .ok s := by
    intro l
    induction l with
    | nil => intro i _; exact ⟨_, rfl⟩
    | cons y l ih =>
      intro i h
      obtain ⟨s, hs⟩ := ih (i + 1) fun y hy => h y (by simp [hy])
      unfold Printer.tagsLoop
      rw [List.getElem?_eq_getElem (h y (by simp))]
      exact ⟨_, bind_ok.mpr ⟨s, hs, rfl⟩⟩
  have htags : ∃ s, o.tagJson tag seqnr = .ok s := by
    unfold Printer.tagJson
    split
    · exact ⟨_, rfl⟩
    · obtain ⟨s, hs⟩ := loop (tag.zip seqnr) 0 fun y hy => ht _ (List.of_mem_zip hy).1
      exact ⟨_, bind_ok.mpr ⟨s, hs, rfl⟩⟩
  have htail : ∃ s, o.tailJson vs selected = .ok s := by
    cases vs with
    | none => exact ⟨_, rfl⟩
    | some vs =>
      obtain ⟨s, hs⟩ := variantsJson_total hl selected hr
      exact ⟨_, bind_ok.mpr ⟨s, hs, rfl⟩⟩
  obtain ⟨s, hs⟩ := htags
  obtain ⟨t, ht⟩ := htail
  exact ⟨_, bind_ok.mpr ⟨s, hs, bind_ok.mpr ⟨t, ht, rfl⟩⟩⟩

theorem process_total {o : Printer} (hl : o.vm.lexicons.length ≤ 32)
    {find : List Char → Res (List VariantResult)} (json : Bool) {lines : List (Option (List Char))}
    (hfind : ∀ l, some l ∈ lines → ∃ vs, find l = .ok vs ∧ ∀ v ∈ vs, ResultOk o.vm v) :
    ∀ n, ∃ s, o.process find json n lines = .ok s := by
  induction lines with
  | nil => intro n; exact ⟨_, rfl⟩
  | cons l lines ih =>
    intro n
    have ih := ih fun l hl => hfind l (by simp [hl])
    cases l with
    | none => exact ih n
    | some l =>
      obtain ⟨vs, h1, h2⟩ := hfind l (by simp)
      obtain ⟨t, ht⟩ := ih (n + 1)
      have hq : ∃ s, o.query json l vs (n + 1) = .ok s := by
        unfold Printer.query
        split
        · exact matchesJson_total (vs := some vs) hl l h2 _ _ _ (by simp) _
        · exact matchesTsv_total (vs := some vs) hl l h2 _ _
      obtain ⟨s, hs⟩ := hq
      exact ⟨_, bind_ok.mpr ⟨vs, h1, bind_ok.mpr ⟨s, hs, bind_ok.mpr ⟨t, ht, rfl⟩⟩⟩⟩

/-- What is needed to print a match. -/
def MatchOk (o : Printer) (m : Match) : Prop :=
  (∀ t ∈ m.tag, t < o.tags.length) ∧ ∀ v ∈ m.variants.getD [], ResultOk o.vm v

theorem searchLoop_total {o : Printer} (hl : o.vm.lexicons.length ≤ 32)
    {find : List Char → Res (List Match)} (json : Bool) {texts : List (List Char)}
    (hfind : ∀ t ∈ texts, ∃ ms, find t = .ok ms ∧ ∀ m ∈ ms, MatchOk o m) :
    ∀ n, ∃ s, o.searchLoop find json n texts = .ok s := by
  have all : ∀ (ms : List Match) (n : Nat), (∀ m ∈ ms, MatchOk o m) →
      ∃ s, o.foundAll json n ms = .ok s := by
    intro ms
    induction ms with
    | nil => intro n _; exact ⟨_, rfl⟩
    | cons m ms ih =>
      intro n h
      obtain ⟨t, ht⟩ := ih (n + 1) fun m hm => h m (by simp [hm])
      obtain ⟨h1, h2⟩ := h m (by simp)
      have hq : ∃ s, o.found json m (n + 1) = .ok s := by
        unfold Printer.found
        split
        · exact matchesJson_total hl _ h2 _ _ _ h1 _
        · exact matchesTsv_total hl _ h2 _ _
      obtain ⟨s, hs⟩ := hq
      exact ⟨_, bind_ok.mpr ⟨s, hs, bind_ok.mpr ⟨t, ht, rfl⟩⟩⟩
  induction texts with
  | nil => intro n; exact ⟨_, rfl⟩
  | cons t texts ih =>
    intro n
    obtain ⟨ms, h1, h2⟩ := hfind t (by simp)
    obtain ⟨s, hs⟩ := all ms n h2
    obtain ⟨u, hu⟩ := ih (fun t ht => hfind t (by simp [ht])) (n + ms.length)
    exact ⟨_, bind_ok.mpr ⟨ms, h1, bind_ok.mpr ⟨s, hs, bind_ok.mpr ⟨u, hu, rfl⟩⟩⟩⟩

theorem runFiles_total {json : Bool} {run : List (Option (List Char)) → Res (List Char)}
    {inputs : List (List (Option (List Char)))} (h : ∀ lines ∈ inputs, ∃ s, run lines = .ok s) :
    ∃ s, runFiles json run inputs = .ok s := by
  obtain ⟨outs, ho⟩ := collectSeq_total h
  exact ⟨_, bind_ok.mpr ⟨outs, ho, rfl⟩⟩

/-! ## What is loaded -/

/-- Every entry of a loaded model is reserved or a word of a file. -/
theorem loaded_text {x : LoadExt} {args : LoadArgs} {o : Orders} {L : Loaded}
    (h : x.load args o = .ok L) (hcount : (sourcesOf args).length ≤ 256)
    {as : List (List (List Char × Option Nat × VocabParams))} (has : AddsAll x 0 (sourcesOf args) as)
    {v : VocabValue} (hv : v ∈ L.vm.decoder) : Reserved v.text ∨ ∃ a ∈ as.flatten, a.1 = v.text := by
  by_cases hr : Reserved v.text
  · exact .inl hr
  · refine .inr ?_
    obtain ⟨_, ops, _, _, _, _, hrun, _⟩ := loaded_history h
    have hinv : Inv L.vm := (inv_run (inv_new _) hrun).1
    obtain ⟨i, hi⟩ := List.mem_iff_getElem?.mp hv
    have he : L.vm.encoder.get? v.text = some i := (hinv.bij _ _).mpr (by unfold textAt; rw [hi]; rfl)
    cases ha : addsOf v.text as.flatten with
    | nil =>
      rw [(loaded_entry h hcount has v.text hr).1 ha] at he
      cases he
    | cons b bs =>
      have : (v.text, b) ∈ as.flatten := mem_addsOf.mp (by rw [ha]; simp)
      exact ⟨_, this, rfl⟩

/-- The tags of rules that were loaded have names. -/
theorem loaded_book {x : LoadExt} {args : LoadArgs} {o : Orders} {L : Loaded}
    (h : x.load args o = .ok L) (hl : L.vm.lexicons.length ≤ 32) : BookOk L.book := by
  unfold LoadExt.load at h
  obtain ⟨m0, h0, h⟩ := bind_ok.mp h
  obtain ⟨m1, h1, h⟩ := bind_ok.mp h
  obtain ⟨m2, h2, h⟩ := bind_ok.mp h
  obtain ⟨cs, h3, h⟩ := bind_ok.mp h
  obtain ⟨book, h4, h⟩ := bind_ok.mp h
  obtain ⟨m3, h5, h⟩ := bind_ok.mp h
  cases pure_ok.mp h
  obtain ⟨liness, _, h6⟩ := (readRuleFiles_iff x m2 args.contextrules ⟨[], []⟩ book).mp h4
  refine bookOk_read (env := ⟨x.isSpace, m2.lexicons, m2.encoder⟩) ?_ bookOk_empty h6
  have : m3.lexicons = m2.lexicons := by rw [(build_cases h5).1]
  rw [← this]
  exact hl

/-- The command line names files that can be loaded: what is loaded, and how long its words are. -/
theorem usable_loads {x : ToolExt} (hmarks : MarksOk x.load.isSpace) {c : CommandLine}
    {as : List (List (List Char × Option Nat × VocabParams))} (hu : UsableFiles x c as) :
    ∃ args L, Names c args ∧ Loadable x.load args as ∧ x.load.load args x.orders = .ok L ∧
      LoadedFor x c L ∧ L.vm.alphabet.length ≤ 166 ∧ L.vm.lexicons.length ≤ 32 ∧
      (∀ r ∈ L.book.rules, RuleOk r) ∧ BookOk L.book ∧
      ∀ v ∈ L.vm.decoder, v.text.length < 65536 := by
  obtain ⟨args, hn, hl⟩ := hu.files
  obtain ⟨L, h1, h2, h3, h4⟩ := load_total hmarks hl x.orders
  refine ⟨args, L, hn, hl, h1, ⟨args, hn.alphabet, hn.resources, hn.lm, hn.confusables, hn.rules, h1⟩,
    h2, h3, h4, loaded_book h1 h3, ?_⟩
  intro v hv
  have hs := hl.sources
  rcases loaded_text h1 (by omega) hl.words hv with hr | ⟨a, ha, e⟩
  · rcases hr with e | e | e <;> rw [e] <;> decide
  · rw [← e]; exact hu.short a ha

/-! ## Queries -/

/-- A query succeeds if variants are found for all lines. -/
theorem query_total_of {x : ToolExt} {c : CommandLine} {L : Loaded} {w : Weights} {p : TextParams}
    (hlex : L.vm.lexicons.length ≤ 32) (hz : w.sum x.text.f64 ≠ 0)
    {inputs : List (List (Option (List Char)))}
    (hread : p.singleThread = false → ∀ lines ∈ inputs, none ∉ lines)
    (find : ∀ lines ∈ inputs, ∀ l, some l ∈ lines →
      ∃ vs, L.vm.findVariants x.text.toExt (x.config c L w).toConfig p.variant l = .ok vs) :
    ∃ s, x.query c L (x.config c L w) p inputs = .ok (.output s []) := by
  have run : ∀ lines ∈ inputs, ∃ s, (if p.singleThread then
      (x.printer c L p).process (L.vm.findVariants x.text.toExt (x.config c L w).toConfig p.variant)
        (c.isPresent .json) 0
      else (x.printer c L p).processPar
        (L.vm.findVariants x.text.toExt (x.config c L w).toConfig p.variant) x.text.sched
        (c.isPresent .json)) lines = .ok s := by
    intro lines hli
    obtain ⟨s, hs⟩ := process_total (o := x.printer c L p)
      (find := L.vm.findVariants x.text.toExt (x.config c L w).toConfig p.variant) hlex (c.isPresent .json)
      (fun l hl => by
        obtain ⟨vs, hvs⟩ := find lines hli l hl
        exact ⟨vs, hvs, fun v hv => ⟨find_variants_ids hz hvs v hv, find_variants_via hz hvs v hv⟩⟩) 0
    refine ⟨s, ?_⟩
    cases hst : p.singleThread with
    | true => exact hs
    | false =>
      exact (parallel_query _ _ _ x.text.sched_perm _ _ (hread hst lines hli) _).mpr hs
  obtain ⟨s, hs⟩ := runFiles_total (json := c.isPresent .json) run
  exact ⟨s, bind_ok.mpr ⟨s, hs, rfl⟩⟩

/-- **C89**: a query succeeds, with or without `--json` and whatever is loaded, if the files named on the
command line can be loaded, the numbers on it can be read, and all lines of the input are texts of 1 to
65280 characters (with `--single-thread`, there may be lines that cannot be read). -/
theorem query_succeeds {x : ToolExt} (hf : ∀ s, ';' ∈ s → x.parseF32 s = none) (hpos : StrictMono x.pos)
    (hmarks : MarksOk x.load.isSpace) {c : CommandLine} (hc : Accepted c) (hsub : c.sub = .query)
    {as : List (List (List Char × Option Nat × VocabParams))} {w : Weights} {p : TextParams}
    (hfiles : UsableFiles x c as) (hnum : UsableNumbers x c w p) {files : List (List Char)}
    {inputs : List (List (Option (List Char)))} (hin : InputsOf x files inputs)
    (hread : p.singleThread = false → ∀ lines ∈ inputs, none ∉ lines)
    (hlines : ∀ lines ∈ inputs, ∀ l, some l ∈ lines → l ≠ [] ∧ l.length ≤ 65280) :
    ∃ s, x.main c files = .ok (.output s []) := by
  obtain ⟨args, L, _, _, hL, hLF, ha, hlex, _, _, hshort⟩ := usable_loads hmarks hfiles
  have asked : Asked x c L w p := ⟨hLF, hnum.weights, hnum.params, hnum.cutoff, hnum.debug⟩
  obtain ⟨s, hs⟩ := query_total_of (x := x) (c := c) hlex hnum.nonzero hread fun lines hli l hl =>
    loaded_query_total hL ha hshort x.text.toExt (x.config c L w).toConfig p.variant
      hnum.nonzero l (hlines lines hli l hl).1 (hlines lines hli l hl).2
  refine ⟨s, (main_output hf hpos hc (by rw [hsub]; decide) (by rw [hsub]; decide) files s []).mpr
    ⟨L, w, p, asked, ?_⟩⟩
  unfold ToolExt.modes
  rw [inputsOf_iff.mpr hin, hsub]
  exact hs

/-- A run with what the command line asks for. -/
theorem asked_main {x : ToolExt} (hf : ∀ s, ';' ∈ s → x.parseF32 s = none) (hpos : StrictMono x.pos)
    {c : CommandLine} (hc : Accepted c) (h1 : c.sub ≠ .index) (h2 : c.sub ≠ .testinput)
    {L : Loaded} {w : Weights} {p : TextParams} (ha : Asked x c L w p) (files : List (List Char)) :
    x.main c files = x.modes c files L w p := by
  obtain ⟨a1, a2, ⟨q, r1, r2, hfp⟩, a4, a5⟩ := ha
  obtain ⟨args, ha, hL⟩ := (loadedFor_iff hpos hc).mp a1
  obtain ⟨d, hd⟩ := debugLevel_ok.mpr a5
  unfold ToolExt.main
  rw [(command_line_weights hc _ _ _ _ _).mpr a2, hd]
  show (if c.sub = .testinput then _ else _) = _
  rw [if_neg h2]
  unfold ToolExt.withModel
  rw [ha]
  show (do let L ← x.load.load args x.orders; _ : Res Outcome) = _
  rw [hL, (command_line_parameters_partial hf hc q).mpr ⟨r1, r2⟩]
  show (if _ then _ else _) = _
  rw [if_neg, if_neg h1, finiteWeights_iff.mpr rfl, params_finite_iff.mpr hfp]
  rw [hfp.cutoff]
  simp only [cutoffAccepted, Bool.not_not, Bool.and_eq_true, decide_eq_true_eq, not_and, not_not]
  intro hlt
  rcases a4 with e | e
  · exact e
  · exact absurd hlt (not_lt.mpr e)

/-- If some entry is looked up, the index is not empty. -/
theorem loaded_index {x : LoadExt} {args : LoadArgs} {o : Orders} {L : Loaded}
    (h : x.load args o = .ok L) (hlen : L.vm.alphabet.length ≤ 167) {v : VocabValue}
    (hv : v ∈ L.vm.decoder) (hi : v.vocabtype.indexed = true) : L.vm.index.isEmpty = false := by
  obtain ⟨_, ops, _, _, _, hne, hrun, _⟩ := loaded_history h
  obtain ⟨keys, p, g1, g2, g3, g4⟩ := index_output L.vm.alphabet hne hlen ops o o L.vm hrun
  cases he : L.vm.index with
  | cons a l => rfl
  | nil =>
    exfalso
    obtain ⟨cs, hcs, _⟩ := encoding_exists_unique L.vm.alphabet hne L.vm.alphabet.length v.text
    have hk : bagValue cs ∈ keys :=
      (g3 _).mpr ⟨v, hv, (g1 _ _).mpr ⟨by rw [check_indexed']; exact hi, cs, hcs, rfl⟩⟩
    unfold Vm.indexOutput at g4
    rw [he, List.perm_nil.mp (o.index_perm [])] at g4
    have g5 := (Except.ok.inj g4).symm
    rw [List.flatMap_eq_nil_iff] at g5
    have := g5 _ hk
    simp at this

/-- One line for which no variants can be found is enough to make a query panic, and in parallel one that
cannot be read. -/
theorem query_line_fails {x : ToolExt} {c : CommandLine} {L : Loaded} {w : Weights} {p : TextParams}
    {inputs : List (List (Option (List Char)))} {lines : List (Option (List Char))} (hlines : lines ∈ inputs)
    (hl : (p.singleThread = false ∧ none ∈ lines) ∨ ∃ l, some l ∈ lines ∧
      ∀ vs, L.vm.findVariants x.text.toExt (x.config c L w).toConfig p.variant l ≠ .ok vs) (out : Outcome) :
    x.query c L (x.config c L w) p inputs ≠ .ok out := by
  intro hm
  have seq : ∀ l, (∀ vs, L.vm.findVariants x.text.toExt (x.config c L w).toConfig p.variant l ≠ .ok vs) →
      ∀ (lines : List (Option (List Char))), some l ∈ lines → ∀ n s,
      (x.printer c L p).process (L.vm.findVariants x.text.toExt (x.config c L w).toConfig p.variant)
        (c.isPresent .json) n lines ≠ .ok s := by
    intro l hfind lines
    induction lines with
    | nil => intro h; cases h
    | cons l' lines ih =>
      intro h n s hp
      cases l' with
      | none => exact ih (by simpa using h) n s hp
      | some l' =>
        obtain ⟨vs, p1, hp⟩ := bind_ok.mp hp
        obtain ⟨s1, _, hp⟩ := bind_ok.mp hp
        obtain ⟨s2, p3, hp⟩ := bind_ok.mp hp
        simp only [List.mem_cons, Option.some.injEq] at h
        rcases h with rfl | h
        · exact hfind vs p1
        · exact ih h _ _ p3
  obtain ⟨s, h1, _⟩ := bind_ok.mp hm
  obtain ⟨outs, h2, _⟩ := bind_ok.mp h1
  obtain ⟨o, _, h3⟩ := mem_of_forall₂_left (collectSeq_ok.mp h2) hlines
  cases hst : p.singleThread with
  | true =>
    rw [hst] at h3 hl
    rcases hl with ⟨h, _⟩ | ⟨l, hl, hfind⟩
    · cases h
    · exact seq l hfind lines hl 0 o h3
  | false =>
    rw [hst] at h3
    by_cases hr : none ∈ lines
    · exact unreadable_line_stops_parallel _ _ _ _ _ hr _ h3
    · rcases hl with ⟨_, h⟩ | ⟨l, hl, hfind⟩
      · exact hr h
      · exact seq l hfind lines hl 0 o ((parallel_query _ _ _ x.text.sched_perm _ _ hr _).mp h3)

/-- **C89**: one empty line is enough to make a query panic, if some word that is not reserved is looked
up (in the first of its files). -/
theorem query_empty_line_fails {x : ToolExt} (hf : ∀ s, ';' ∈ s → x.parseF32 s = none)
    (hpos : StrictMono x.pos) (hmarks : MarksOk x.load.isSpace) {c : CommandLine} (hc : Accepted c)
    (hsub : c.sub = .query) {as : List (List (List Char × Option Nat × VocabParams))} {w : Weights}
    {p : TextParams} (hfiles : UsableFiles x c as) (hnum : UsableNumbers x c w p)
    {t : List Char} (ht : ¬ Reserved t) {b : Option Nat × VocabParams} {bs : List (Option Nat × VocabParams)}
    (hb : addsOf t as.flatten = b :: bs) (hbi : b.2.vocabType.indexed = true)
    {files : List (List Char)} {inputs : List (List (Option (List Char)))} (hin : InputsOf x files inputs)
    {lines : List (Option (List Char))} (hlines : lines ∈ inputs) (hempty : some [] ∈ lines) :
    ∃ e, x.main c files = .error e := by
  obtain ⟨args, L, _, hld, hL, hLF, ha, hlex, _, _, hshort⟩ := usable_loads hmarks hfiles
  have asked : Asked x c L w p := ⟨hLF, hnum.weights, hnum.params, hnum.cutoff, hnum.debug⟩
  rw [asked_main hf hpos hc (by rw [hsub]; decide) (by rw [hsub]; decide) asked]
  have hs := hld.sources
  obtain ⟨id, v, hE, _, _, _, hvi, _⟩ := (loaded_entry hL (by omega) hld.words t ht).2 b bs hb
  have hidx := loaded_index hL (by omega) (List.mem_of_getElem? hE.2.1) (hvi.trans hbi)
  cases hm : x.modes c files L w p with
  | error e => exact ⟨e, rfl⟩
  | ok out =>
    exfalso
    unfold ToolExt.modes at hm
    rw [inputsOf_iff.mpr hin, hsub] at hm
    refine query_line_fails hlines (.inr ⟨[], hempty, fun vs h => ?_⟩) out hm
    obtain ⟨e, he⟩ := empty_input_panics L.vm x.text.toExt (x.config c L w).toConfig p.variant hidx
    rw [he] at h
    cases h

/-! ## Searches in running text -/

/-- A search succeeds if matches are found in all texts. -/
theorem search_total_of {x : ToolExt} {c : CommandLine} (hsub : c.sub = .search)
    (hsp : x.text.isAlpha ' ' = false) (hsolve : SolverOk x.text.solve)
    {L : Loaded} {w : Weights} {p : TextParams} (hlex : L.vm.lexicons.length ≤ 32)
    (hrules : ∀ r ∈ L.book.rules, RuleOk r) (hbook : BookOk L.book) (hz : w.sum x.text.f64 ≠ 0)
    {inputs : List (List (Option (List Char)))}
    (find : ∀ lines ∈ inputs, ∀ t, SearchedIn c lines t →
      ∃ ms, L.vm.findAllMatches x.text (x.config c L w) p t = .ok ms) :
    ∃ s, x.search c L (x.config c L w) p inputs = .ok (.output s []) := by
  have hper : c.isPresent .perLine = true ↔ Given c .perLine := isPresent_flag (by rw [hsub]; rfl)
  have hret : c.isPresent .retainLinebreaks = true ↔ Given c .retainLinebreaks :=
    isPresent_flag (by rw [hsub]; rfl)
  have run : ∀ lines ∈ inputs, ∃ s, (x.printer c L p).processSearch
      (L.vm.findAllMatches x.text (x.config c L w) p) (c.isPresent .json)
      (!c.isPresent .retainLinebreaks) (c.isPresent .perLine) lines = .ok s := by
    intro lines hli
    obtain ⟨gs, hg, e⟩ := search_output (x.printer c L p) (L.vm.findAllMatches x.text (x.config c L w) p)
      (c.isPresent .json) (!c.isPresent .retainLinebreaks) (c.isPresent .perLine) lines
    rw [e]
    refine searchLoop_total hlex _ (fun t ht => ?_) 0
    obtain ⟨g, hgm, rfl⟩ := List.mem_map.mp ht
    obtain ⟨ms, hms⟩ := find lines hli
      ([if (!c.isPresent .retainLinebreaks) = true then ' ' else '\n'].intercalate g)
      ⟨_, _, gs, g, hper, (by
        rw [← hret]
        cases c.isPresent .retainLinebreaks
        · exact .inr ⟨by simp, rfl⟩
        · exact .inl ⟨rfl, rfl⟩), hg, hgm, rfl⟩
    refine ⟨ms, hms, fun m hm => ?_⟩
    obtain ⟨h1, h2⟩ := search_known hsp hsolve hz hrules hms m hm
    refine ⟨fun t ht => ?_, h2⟩
    obtain ⟨r, hr, htr⟩ := h1 t ht
    exact hbook.tags r hr t htr
  obtain ⟨s, hs⟩ := runFiles_total (json := c.isPresent .json) run
  exact ⟨s, bind_ok.mpr ⟨s, hs, rfl⟩⟩

/-- **C89**: a search succeeds, with or without `--json` and whatever is loaded, if the files named on the
command line can be loaded, the numbers on it can be read, `--max-seq` is not 0, no entry has more than 255
words (if the language model counts), and all stretches of as many words as `--max-ngram` says have at most
65280 characters.  Lines that cannot be read end the input. -/
theorem search_succeeds {x : ToolExt} (hf : ∀ s, ';' ∈ s → x.parseF32 s = none) (hpos : StrictMono x.pos)
    (hmarks : MarksOk x.load.isSpace) (hsp : x.text.isAlpha ' ' = false) (hsolve : SolverOk x.text.solve)
    {c : CommandLine} (hc : Accepted c) (hsub : c.sub = .search)
    {as : List (List (List Char × Option Nat × VocabParams))} {w : Weights} {p : TextParams}
    (hfiles : UsableFiles x c as) (hnum : UsableNumbers x c w p) (hseq : 1 ≤ p.maxSeq)
    (hlm : 0 < p.lmWeight → ∀ a ∈ as.flatten, ∀ ws, TokensOf a.1 ws → ws.length ≤ 255)
    {files : List (List Char)} {inputs : List (List (Option (List Char)))} (hin : InputsOf x files inputs)
    (hlines : ∀ lines ∈ inputs, ∀ t, SearchedIn c lines t → ShortStretches x.text.isAlpha p.maxNgram t) :
    ∃ s, x.main c files = .ok (.output s []) := by
  obtain ⟨args, L, _, hld, hL, hLF, ha, hlex, hrules, hbook, hshort⟩ := usable_loads hmarks hfiles
  have asked : Asked x c L w p := ⟨hLF, hnum.weights, hnum.params, hnum.cutoff, hnum.debug⟩
  suffices h : ∃ s, x.search c L (x.config c L w) p inputs = .ok (.output s []) by
    obtain ⟨s, hs⟩ := h
    refine ⟨s, (main_output hf hpos hc (by rw [hsub]; decide) (by rw [hsub]; decide) files s []).mpr
      ⟨L, w, p, asked, ?_⟩⟩
    unfold ToolExt.modes
    rw [inputsOf_iff.mpr hin, hsub]
    exact hs
  have hlm' : L.vm.haveLm = true → 0 < p.lmWeight →
      ∀ v ∈ L.vm.decoder, ∀ ws, TokensOf v.text ws → ws.length ≤ 255 := by
    intro _ hp v hv ws hws
    have hs := hld.sources
    rcases loaded_text hL (by omega) hld.words hv with hr | ⟨a, ha, e⟩
    · have : ws.length ≤ v.text.length + 1 := by
        obtain ⟨_, _, e⟩ := hws
        have h2 : ∀ ws : List (List Char), ws.length ≤ ([' '].intercalate ws).length + 1 := by
          intro ws
          induction ws with
          | nil => simp
          | cons u us ih =>
            cases us with
            | nil => simp
            | cons u' us =>
              rw [List.intercalate_cons_cons]
              simp only [List.length_append, List.length_cons] at ih ⊢
              simp
              omega
        rw [← e]
        exact h2 ws
      rcases hr with e | e | e <;> rw [e] at this <;> simp at this <;> omega
    · rw [← e] at hws; exact hlm hp a ha ws hws
  exact search_total_of hsub hsp hsolve hlex hrules hbook hnum.nonzero fun lines hli t ht =>
    loaded_search_total hL ha hshort x.text (x.config c L w) rfl p hnum.nonzero hsp
      hsolve hseq hlm' hrules t (hlines lines hli t ht)

/-! ## Index and input test -/

/-- **C89**: `index` succeeds if the files named on the command line can be loaded and the numbers on it
can be read. -/
theorem index_succeeds {x : ToolExt} (hf : ∀ s, ';' ∈ s → x.parseF32 s = none) (hpos : StrictMono x.pos)
    (hmarks : MarksOk x.load.isSpace) {c : CommandLine} (hc : Accepted c) (hsub : c.sub = .index)
    {as : List (List (List Char × Option Nat × VocabParams))} {w : Weights} {p : TextParams}
    (hfiles : UsableFiles x c as) (hnum : UsableNumbers x c w p) (files : List (List Char)) :
    ∃ s, x.main c files = .ok (.output s []) := by
  obtain ⟨_, L, _, _, _, hLF, hlen, _⟩ := usable_loads hmarks hfiles
  obtain ⟨args, ha, hL⟩ := (loadedFor_iff hpos hc).mp hLF
  obtain ⟨d, hd⟩ := debugLevel_ok.mpr hnum.debug
  obtain ⟨q, r1, r2, hfp⟩ := hnum.params
  obtain ⟨_, ops, _, _, _, hne, hrun, _⟩ := loaded_history hL
  obtain ⟨keys, k, _, _, _, g4⟩ := index_output L.vm.alphabet hne (by omega) ops x.orders x.orders L.vm hrun
  obtain ⟨s, hs⟩ : ∃ s, L.vm.indexOutput x.orders = .ok s := ⟨_, g4⟩
  refine ⟨s, bind_ok.mpr ⟨_, (command_line_weights hc _ _ _ _ _).mpr hnum.weights,
    bind_ok.mpr ⟨d, hd, ?_⟩⟩⟩
  rw [if_neg (by rw [hsub]; decide)]
  refine bind_ok.mpr ⟨args, ha, bind_ok.mpr ⟨L, hL, bind_ok.mpr
    ⟨q, (command_line_parameters_partial hf hc q).mpr ⟨r1, r2⟩, ?_⟩⟩⟩
  rw [if_neg, if_pos hsub]
  · exact bind_ok.mpr ⟨s, hs, rfl⟩
  · rw [hfp.cutoff]
    simp only [cutoffAccepted, Bool.not_not, Bool.and_eq_true, decide_eq_true_eq, not_and, not_not]
    intro hlt
    rcases hnum.cutoff with e | e
    · exact e
    · exact absurd hlt (not_lt.mpr e)

/-- **C89**: `testinput` succeeds if the alphabet can be read and has at most 167 lines, and the weights
and the level of debugging can be read. -/
theorem testinput_succeeds {x : ToolExt} (hb : x.load.isSpace '\\' = false)
    {c : CommandLine} (hc : Accepted c) (hsub : c.sub = .testinput) {a : List Char}
    {lines : List (Option (List Char))} (ha : (.alphabet, a) ∈ c.given) (hfile : x.load.file a = some lines)
    (hlen : (nonEmpty lines).length ≤ 167)
    (hw : ∃ ld lcs pre suf case, WeightRequest x.parseF64 c ld lcs pre suf case)
    (hd : c.debug = none ∨ ∃ v n, c.debug = some v ∧ NumberText 255 v n ∧ n ≤ 1) (files : List (List Char)) :
    ∃ s, x.main c files = .ok (.output s []) := by
  obtain ⟨entries, e1, e2, _⟩ := read_alphabet_entries hb [] lines
  have hne := read_alphabet_noEmpty x.load.isSpace lines
  rw [e2, List.nil_append] at hne
  have hl : entries.length ≤ 167 := by rw [← e1.length_eq]; exact hlen
  have rows : ∀ ls : List (List Char), ∃ rows, List.Forall₂ (TestRow entries) ls rows := by
    intro ls
    induction ls with
    | nil => exact ⟨[], .nil⟩
    | cons l ls ih =>
      obtain ⟨rows, hr⟩ := ih
      obtain ⟨cs, hcs, _⟩ := encoding_exists_unique entries hne entries.length l
      by_cases hm : entries.length ∈ cs
      · exact ⟨_, .cons ⟨cs, hcs, .inl ⟨hm, rfl⟩⟩ hr⟩
      · exact ⟨_, .cons ⟨cs, hcs, .inr ⟨hm, rfl⟩⟩ hr⟩
  obtain ⟨rs, hr⟩ := rows (readable x.stdin)
  refine ⟨rs.flatten, (testinput_run hb hc hsub ?_ files _ []).mpr
    ⟨rfl, hw, hd, a, lines, entries, rs, ha, hfile, e1, hr, rfl⟩⟩
  intro a' lines' ha' hl'
  rw [hc.2 _ (by decide) _ _ ha' ha, hfile] at hl'
  cases hl'
  exact hlen

/-! ### Examples -/

theorem ex_marks : MarksOk exLoadR.isSpace := by unfold MarksOk; decide

/-- The surroundings of the examples above, with a file of rules and the lines `ab b` and `bb` on standard
input. -/
def exToolR : ToolExt := { exTool with load := exLoadR, stdin := [some "ab b".toList, some "bb".toList] }

/-- `query --alphabet a --errors e --lexicon l --variants v --confusables c` -/
def exQueryR : CommandLine :=
  { sub := .query, debug := none
    given := [(.alphabet, ['a']), (.errors, ['e']), (.lexicon, ['l']), (.variants, ['v']),
      (.confusables, ['c'])] }

/-- `search --json --output-lexmatch --alphabet a --errors e --lexicon l --variants v --lm m
--confusables c --contextrules r` -/
def exSearchR : CommandLine :=
  { sub := .search, debug := none
    given := [(.json, []), (.outputLexmatch, []), (.alphabet, ['a']), (.errors, ['e']), (.lexicon, ['l']),
      (.variants, ['v']), (.lm, ['m']), (.confusables, ['c']), (.contextrules, ['r'])] }

theorem exUsableSearch : UsableFiles exToolR exSearchR exAdded :=
  ⟨⟨exArgsR, by constructor <;> decide, exLoadable⟩, by decide⟩

theorem exLoadableQuery : Loadable exLoadR { exArgs with lm := [] } (exAdded.take 3) := by
  refine ⟨exLoadable.alphabet, ?_, by decide, by decide, by decide, exLoadable.confusables, ?_⟩
  · have h : AddsAll exLoadR 0 [.errors ['e'], .lexicon ['l'], .variants ['v'], .lm ['m']] exAdded :=
      exLoadable.words
    cases h with
    | cons h1 h => cases h with
      | cons h2 h => cases h with
        | cons h3 h => exact .cons h1 (.cons h2 (.cons h3 .nil))
  · intro f hf
    cases hf

theorem exUsableQuery : UsableFiles exToolR exQueryR (exAdded.take 3) :=
  ⟨⟨{ exArgs with lm := [] }, by constructor <;> decide, exLoadableQuery⟩, by decide⟩

/-- The parameters of the examples: the default ones. -/
def exNumbers (c : CommandLine) : TextParams :=
  ((c.searchParameters exParse exParse).toOption.bind SearchParameters.finite).getD exTextParams

theorem exUsableNumbers {c : CommandLine} (hc : Accepted c) (hd : c.debug = none)
    (hw : c.weights exParse = .ok [.fin (1 / 2), .fin (1 / 8), .fin (1 / 8), .fin (1 / 8), .fin (1 / 8)])
    {q : SearchParameters} (hq : c.searchParameters exParse exParse = .ok q)
    (hn : q.finite = some (exNumbers c))
    (hcut : (exNumbers c).variant.cutoffThreshold = 0 ∨ 1 ≤ (exNumbers c).variant.cutoffThreshold) :
    UsableNumbers exToolR c ⟨1 / 2, 1 / 8, 1 / 8, 1 / 8, 1 / 8⟩ (exNumbers c) := by
  obtain ⟨r1, r2⟩ := (command_line_parameters_partial ex_noSemicolon hc q).mp hq
  exact ⟨(command_line_weights hc _ _ _ _ _).mp hw, by decide +kernel,
    ⟨q, r1, r2, params_finite_iff.mp hn⟩, hcut, .inl hd⟩

theorem exSome {α : Type} {o : Option α} (d : α) (h : o.isSome = true) : o = some (o.getD d) := by
  cases o with
  | none => cases h
  | some a => rfl

theorem exNumbersQuery : UsableNumbers exToolR exQueryR ⟨1 / 2, 1 / 8, 1 / 8, 1 / 8, 1 / 8⟩
    (exNumbers exQueryR) :=
  exUsableNumbers (accepted_of (by decide) (by decide)) rfl (by decide +kernel) rfl
    (exSome exTextParams (by decide +kernel)) (.inr (by decide +kernel))

theorem exNumbersSearch : UsableNumbers exToolR exSearchR ⟨1 / 2, 1 / 8, 1 / 8, 1 / 8, 1 / 8⟩
    (exNumbers exSearchR) :=
  exUsableNumbers (accepted_of (by decide) (by decide)) rfl (by decide +kernel) rfl
    (exSome exTextParams (by decide +kernel)) (.inr (by decide +kernel))

/-- A query with two lines. -/
example : ∃ s, exToolR.main exQueryR [] = .ok (.output s []) := by
  refine query_succeeds (x := exToolR) ex_noSemicolon ex_pos ex_marks
    (accepted_of (by decide) (by decide)) rfl exUsableQuery exNumbersQuery (.inl ⟨rfl, rfl⟩) ?_ ?_
  · intro _ lines hl
    rw [List.mem_singleton] at hl
    subst hl
    decide
  · intro lines hl l h
    rw [List.mem_singleton] at hl
    subst hl
    simp only [exToolR, List.mem_cons, Option.some.injEq, List.not_mem_nil, or_false] at h
    rcases h with rfl | rfl <;> decide

example : exToolR.main exQueryR [] = .ok (.output "ab b\tab\t0.5\t\nbb\tb\t0.5\t\n".toList []) := by
  decide +kernel

/-- With an empty line in between. -/
def exToolE : ToolExt := { exToolR with stdin := [some "ab b".toList, some [], some "bb".toList] }

example : ∃ e, exToolE.main exQueryR [] = .error e := by
  refine query_empty_line_fails (x := exToolE) (t := "ab".toList) (b := (some 3, { index := 1 }))
    (bs := [(none, { index := 2 })]) ex_noSemicolon ex_pos ex_marks (accepted_of (by decide) (by decide)) rfl
    ⟨exUsableQuery.files, exUsableQuery.short⟩ ⟨exNumbersQuery.weights, exNumbersQuery.nonzero,
      exNumbersQuery.params, exNumbersQuery.cutoff, exNumbersQuery.debug⟩ (by decide) (by decide) rfl
    (.inl ⟨rfl, rfl⟩) (List.mem_singleton.mpr rfl) ?_
  decide

/-- A text that is searched is no longer than the lines with a separator after each. -/
theorem searchedIn_length {c : CommandLine} {lines : List (Option (List Char))} {t : List Char}
    (h : SearchedIn c lines t) : t.length ≤ ((untilError lines).map fun l => l.length + 1).sum := by
  obtain ⟨_, sep, gs, g, _, _, hg, hm, rfl⟩ := h
  rw [← (groups_cover hg).1]
  have h1 : ∀ g : List (List Char), ([sep].intercalate g).length ≤ (g.map fun l => l.length + 1).sum := by
    intro g
    induction g with
    | nil => simp
    | cons u us ih =>
      cases us with
      | nil => simp
      | cons u' us =>
        rw [List.intercalate_cons_cons]
        simp only [List.length_append, List.map_cons, List.sum_cons, List.length_cons, List.length_nil]
          at ih ⊢
        omega
  refine le_trans (h1 g) ?_
  obtain ⟨a, b, rfl⟩ := List.append_of_mem hm
  simp only [List.flatten_append, List.flatten_cons, List.map_append, List.sum_append]
  omega

/-- A search in two lines, with a language model, confusables and a rule, printed as JSON. -/
theorem exSearch_succeeds : ∃ s, exToolR.main exSearchR [] = .ok (.output s []) := by
  refine search_succeeds (x := exToolR) ex_noSemicolon ex_pos ex_marks (by decide +kernel) refSolver_ok
    (accepted_of (by decide) (by decide)) rfl exUsableSearch exNumbersSearch (by decide +kernel) ?_
    (.inl ⟨rfl, rfl⟩) ?_
  · intro _ a ha ws hws
    have h : ∀ a ∈ exAdded.flatten, (splitSpaces a.1).length ≤ 255 := by decide
    rw [tokensOf_unique hws]
    exact h a ha
  · intro lines hl t ht segs a r b h1 h2 _
    rw [List.mem_singleton] at hl
    subst hl
    exact short_words (le_trans (searchedIn_length ht) (by decide)) segs a r b h1 h2

/-- The two words of the rule are tagged. -/
example : exToolR.main exSearchR [] = .ok (.output
    ("[\n    { \"input\": \"ab\", \"begin\": 0, \"end\": 2, \"tag\": [\"g\"], \"seqnr\": [ 0], ".toList ++
      ("\"variants\": [ \n        { \"text\": \"ab\", \"score\": 1, \"dist_score\": 1, ".toList ++
      ("\"freq_score\": 1, \"lexicons\": [ \"l\", \"v\", \"m\" ] }\n    ] }\n".toList ++
      ("    ,{ \"input\": \"b\", \"begin\": 3, \"end\": 4, \"tag\": [\"g\"], \"seqnr\": [ 1], ".toList ++
      ("\"variants\": [ \n        { \"text\": \"b\", \"score\": 1, \"dist_score\": 1, ".toList ++
      ("\"freq_score\": 1, \"lexicons\": [ \"e\", \"l\" ] }\n    ] }\n".toList ++
      ("    ,{ \"input\": \"bb\", \"begin\": 5, \"end\": 7, \"variants\": [ \n        { \"text\": ".toList ++
      ("\"b\", \"score\": 0.5, \"dist_score\": 0.5, \"freq_score\": 1, \"lexicons\": [ \"e\", ".toList ++
      "\"l\" ] }\n    ] }\n]\n".toList)))))))) []) := by
  decide +kernel

/-- `index` -/
example : ∃ s, exToolR.main { exQueryR with sub := .index } [] = .ok (.output s []) := by
  refine index_succeeds (x := exToolR) ex_noSemicolon ex_pos ex_marks
    (accepted_of (by decide) (by decide)) rfl ⟨?_, exUsableQuery.short⟩
    (exUsableNumbers (accepted_of (by decide) (by decide)) rfl (by decide +kernel) rfl
      (exSome exTextParams (by decide +kernel)) (.inr (by decide +kernel))) []
  obtain ⟨args, h1, h2⟩ := exUsableQuery.files
  exact ⟨args, ⟨h1.alphabet, h1.resources, h1.lm, h1.confusables, h1.rules⟩, h2⟩

/-- `testinput` -/
example : ∃ s, exToolR.main exTestinput [] = .ok (.output s []) := by
  have hc : Accepted exTestinput := accepted_of (by decide) (by decide)
  refine testinput_succeeds (x := exToolR) (a := ['a']) rfl hc rfl (by decide) rfl (by decide)
    ⟨_, _, _, _, _, (command_line_weights hc (.fin (1 / 2)) (.fin (1 / 8)) (.fin (1 / 8)) (.fin (1 / 8))
      (.fin (1 / 8))).mp (by decide +kernel)⟩ (.inr ⟨['1'], 1, rfl, ?_, le_refl 1⟩) []
  exact (parseUnsigned_iff _ _ _).mp (by decide)

end Verif.Props
